import Verif.Nested.Ops
set_option autoImplicit false
/-
Effect of copying a list of lists on the abstract state of both memories.
-/
namespace Nestl.NL
open Nestl.LL Nestl.LC
variable {V : Type}

theorem Made.none {copy : Bool} {w : W V} {σ σ' : Sg V} {t q : Ptr} (h : Made copy w σ t q σ') : σ q = none := by
  obtain ⟨_, _, h, _⟩ := h; exact h

theorem Made.some {copy : Bool} {w : W V} {σ σ' : Sg V} {t q : Ptr} (h : Made copy w σ t q σ') : σ' q ≠ .none := by
  obtain ⟨lt, _, _, h⟩ := h
  cases copy with
  | true => obtain ⟨N, _, _, rfl⟩ := h; simp
  | false => have h : σ' = _ := h; rw [h]; simp

theorem Made.keep {copy : Bool} {w : W V} {σ σ' : Sg V} {t q : Ptr} (h : Made copy w σ t q σ') {r : Ptr}
    (hr : σ r ≠ .none) : σ' r ≠ .none := by
  have h0 := h.none
  have hrq : r ≠ q := by rintro rfl; exact hr h0
  obtain ⟨lt, ht, _, h⟩ := h
  cases copy with
  | true => obtain ⟨N, _, _, rfl⟩ := h; rw [upd_other _ _ hrq]; exact hr
  | false =>
    have h : σ' = _ := h
    rw [h, upd_other _ _ hrq, upd_apply]; split
    · simp
    · exact hr

theorem Made.own {copy : Bool} {w : W V} {σ σ' : Sg V} {t q : Ptr} (h : Made copy w σ t q σ') (ho : Own σ) : Own σ' := by
  obtain ⟨lt, ht, _, h⟩ := h
  cases copy with
  | true => obtain ⟨N, _, h1, rfl⟩ := h; exact ho.set fun e he => (h1 e he).2
  | false => have h : σ' = _ := h; rw [h]; exact (ho.set (by simp)).set (ho t lt ht)

/-- The list `q` of `σ'` is a new copy of the list `src` of `σ`. -/
def CopyOf (w : W V) (σ σ' : Sg V) (src q : Ptr) : Prop :=
  σ q = none ∧ ∃ ls lq, σ src = some ls ∧ σ' q = some lq ∧ lq.alloc = defaultAlloc ∧
    lq.els.map El.v = ls.els.map El.v ∧ ∀ e ∈ lq.els, w.heap e.p = none

/-- The elements `N` are deep copies of the elements `M`. -/
structure Deep (w : W V) (σ σ' : Sg V) (M N : List (El Ptr)) : Prop where
  len : N.length = M.length
  copies : ∀ x ∈ M.zip N, CopyOf w σ σ' x.1.v x.2.v
  same : ∀ q, q ∉ N.map El.v → σ' q = σ q
  nodup : (N.map El.v).Nodup

theorem Deep.new {w : W V} {σ σ' : Sg V} {M N : List (El Ptr)} (h : Deep w σ σ' M N) {e : El Ptr} (he : e ∈ N) :
    σ e.v = none ∧ σ' e.v ≠ none := by
  obtain ⟨j, hj, rfl⟩ := List.getElem_of_mem he
  have hj2 : j < (M.zip N).length := by rw [List.length_zip]; have := h.len; omega
  have := h.copies _ (List.getElem_mem hj2)
  rw [List.getElem_zip] at this
  obtain ⟨h1, ls, lq, -, h2, -⟩ := this
  exact ⟨h1, by rw [h2]; simp⟩

theorem Deep.nil (w : W V) (σ : Sg V) : Deep w σ σ [] [] :=
  ⟨rfl, by simp, fun _ _ => rfl, by simp⟩

theorem Deep.cons {w w1 : W V} {σ σ1 σ' : Sg V} {M N : List (El Ptr)} {e n : El Ptr} (hm : Made true w σ e.v n.v σ1)
    (hd : Deep w1 σ1 σ' M N) (hM : ∀ f ∈ M, σ f.v ≠ none) (hmono : ∀ p, w.heap p ≠ none → w1.heap p ≠ none) :
    Deep w σ σ' (e :: M) (n :: N) := by
  have hsome := hm.some
  obtain ⟨lt, ht, hq, L, hv, hfr, rfl⟩ := hm
  have hnN : n.v ∉ N.map El.v := by
    intro hc
    obtain ⟨f, hf, hfe⟩ := List.mem_map.1 hc
    have := (hd.new hf).1
    rw [hfe] at this; exact hsome this
  refine ⟨by simp [hd.len], ?_, ?_, ?_⟩
  · intro x hx
    simp only [List.zip_cons_cons, List.mem_cons] at hx
    rcases hx with rfl | hx
    · refine ⟨hq, lt, ⟨defaultAlloc, L⟩, ht, ?_, rfl, hv, fun e he => (hfr e he).1⟩
      simp only
      rw [hd.same _ hnN, upd_same]
    · obtain ⟨h1, ls, lq, h2, h3, h4, h5, h6⟩ := hd.copies x hx
      have hx1 : x.1 ∈ M := List.of_mem_zip hx |>.1
      have hne : x.1.v ≠ n.v := by intro hc; exact hM _ hx1 (hc ▸ hq)
      have hne2 : x.2.v ≠ n.v := by
        intro hc; exact hnN (hc ▸ List.mem_map_of_mem (List.of_mem_zip hx).2)
      rw [upd_other _ _ hne2] at h1
      rw [upd_other _ _ hne] at h2
      refine ⟨h1, ls, lq, h2, h3, h4, h5, fun f hf => ?_⟩
      apply Classical.byContradiction; intro hc; exact hmono _ hc (h6 f hf)
  · intro q hqn
    simp only [List.map_cons, List.mem_cons, not_or] at hqn
    rw [hd.same q hqn.2, upd_other _ _ hqn.1]
  · simp only [List.map_cons, List.nodup_cons]; exact ⟨hnN, hd.nodup⟩

/-- `k` of the elements `M` were copied; `N` are the copies. -/
structure DAdded (ns ns' : NS V) (σi σi' : Sg V) (M : List (El Ptr)) (k a : Nat) (N : List (El Ptr)) : Prop where
  len : N.length = k
  le : k ≤ M.length
  fresh : ∀ e ∈ N, ns.o.heap e.p = none
  own : ∀ e ∈ N, e.own = a
  ok : ns'.o.err = none → k = M.length
  fail : ns'.o.err ≠ none → k < M.length
  good : Good ns.o → Good ns.i → ns'.o.err = none
  deep : Deep ns.i σi σi' (M.take k) N

theorem wp_pushBack {copy : Bool} {ns : NS V} {σo : Sg Ptr} {σi : Sg V} {s t : Ptr} {ls : Lst Ptr} {lt : Lst V}
    (h : Inv ns.o σo) (hs : σo s = some ls) (hi : Inv ns.i σi)
    (ht : σi t = some lt) (he : ns.o.err = none) {Q : Unit → NS V → Prop}
    (hfail : ∀ ns' : NS V, ns'.o.err.isSome → Adv ns.o ns'.o 0 → ns'.o.heap = ns.o.heap → ns'.o.sp = ns.o.sp →
      Inv ns'.o σo → Adv ns.i ns'.i 0 → Inv ns'.i σi → (¬ Good ns.i ∨ ¬ Good ns.o) → Q () ns')
    (hok : ∀ (ns' : NS V) (n q : Ptr) (σi' : Sg V), ns'.o.err = none → Adv ns.o ns'.o 0 → ns'.o.sp = ns.o.sp →
      ns.o.heap n = none → Inv ns'.o (upd σo s (some ⟨ls.alloc, ls.els ++ [⟨n, q, ls.alloc⟩]⟩)) →
      Made copy ns.i σi t q σi' → Adv ns.i ns'.i 0 → Inv ns'.i σi' → Q () ns') :
    wp (pushBack copy s t) ns Q := by
  unfold pushBack
  simp only [wp_bind, wp_pure, wp_onO]
  refine wp_end h hs ?_
  exact wp_emplace h hs (A := ls.els) (B := []) (by simp) hi ht he hfail hok

theorem wp_pushFront {copy : Bool} {ns : NS V} {σo : Sg Ptr} {σi : Sg V} {s t : Ptr} {ls : Lst Ptr} {lt : Lst V}
    (h : Inv ns.o σo) (hs : σo s = some ls) (hi : Inv ns.i σi)
    (ht : σi t = some lt) (he : ns.o.err = none) {Q : Unit → NS V → Prop}
    (hfail : ∀ ns' : NS V, ns'.o.err.isSome → Adv ns.o ns'.o 0 → ns'.o.heap = ns.o.heap → ns'.o.sp = ns.o.sp →
      Inv ns'.o σo → Adv ns.i ns'.i 0 → Inv ns'.i σi → (¬ Good ns.i ∨ ¬ Good ns.o) → Q () ns')
    (hok : ∀ (ns' : NS V) (n q : Ptr) (σi' : Sg V), ns'.o.err = none → Adv ns.o ns'.o 0 → ns'.o.sp = ns.o.sp →
      ns.o.heap n = none → Inv ns'.o (upd σo s (some ⟨ls.alloc, ⟨n, q, ls.alloc⟩ :: ls.els⟩)) →
      Made copy ns.i σi t q σi' → Adv ns.i ns'.i 0 → Inv ns'.i σi' → Q () ns') :
    wp (pushFront copy s t) ns Q := by
  unfold pushFront
  simp only [wp_bind, wp_pure, wp_onO]
  refine wp_begin h hs ?_
  exact wp_emplace h hs (A := []) (B := ls.els) rfl hi ht he hfail hok

theorem wp_popBack {ns : NS V} {σo : Sg Ptr} {σi : Sg V} {s : Ptr} {ls : Lst Ptr} {A : List (El Ptr)} {e : El Ptr}
    {lq : Lst V} (h : Inv ns.o σo) (hs : σo s = some ls) (hA : ls.els = A ++ [e]) (ho : e.own = ls.alloc)
    (hi : Inv ns.i σi) (hq : σi e.v = some lq) (hoi : ∀ f ∈ lq.els, f.own = lq.alloc) {Q : Unit → NS V → Prop}
    (hQ : ∀ ns' : NS V, Adv ns.o ns'.o 0 → ns'.o.err = ns.o.err → ns'.o.sp = ns.o.sp →
      Inv ns'.o (upd σo s (some ⟨ls.alloc, A⟩)) → ns'.o.heap e.p = none → Adv ns.i ns'.i 0 →
      Inv ns'.i (upd σi e.v none) → Q () ns') :
    wp (popBack s) ns Q := by
  unfold popBack
  simp only [wp_bind, wp_pure, wp_onO]
  have hl := h.link hs (A := ls.els) (B := []) (by simp)
  rw [hA] at hl
  simp only [ptrs_append, ptrs_cons, ptrs_nil, lastP_append, lastP, posE_nil] at hl
  rw [wp_getPrev hl.2]
  refine wp_checkNode (h.st.on_el hs (by simp [hA])) ?_
  refine wp_erase (ns := ⟨ns.o, ns.i⟩) h hs hA ho hi hq hoi ?_
  intro ns' h1 h2 h3 h4 h5 h6 h7
  rw [List.append_nil] at h4
  exact hQ ns' h1 h2 h3 h4 h5 h6 h7

theorem wp_popFront {ns : NS V} {σo : Sg Ptr} {σi : Sg V} {s : Ptr} {ls : Lst Ptr} {B : List (El Ptr)} {e : El Ptr}
    {lq : Lst V} (h : Inv ns.o σo) (hs : σo s = some ls) (hA : ls.els = e :: B) (ho : e.own = ls.alloc)
    (hi : Inv ns.i σi) (hq : σi e.v = some lq) (hoi : ∀ f ∈ lq.els, f.own = lq.alloc) {Q : Unit → NS V → Prop}
    (hQ : ∀ ns' : NS V, Adv ns.o ns'.o 0 → ns'.o.err = ns.o.err → ns'.o.sp = ns.o.sp →
      Inv ns'.o (upd σo s (some ⟨ls.alloc, B⟩)) → ns'.o.heap e.p = none → Adv ns.i ns'.i 0 →
      Inv ns'.i (upd σi e.v none) → Q () ns') :
    wp (popFront s) ns Q := by
  unfold popFront
  simp only [wp_bind, wp_pure, wp_onO]
  refine wp_begin h hs ?_
  rw [hA, posE_cons]
  exact wp_erase (ns := ⟨ns.o, ns.i⟩) h hs (A := []) hA ho hi hq hoi hQ

theorem wp_moveAssign {ns : NS V} {σo : Sg Ptr} {σi : Sg V} {s t : Ptr} {ls lt : Lst Ptr} (h : Inv ns.o σo)
    (hs : σo s = some ls) (ht : σo t = some lt) (ho : ∀ e ∈ ls.els, e.own = ls.alloc) (hi : Inv ns.i σi) (hoi : Own σi)
    (hal : ∀ e ∈ ls.els, σi e.v ≠ none) (hnd : (ls.els.map El.v).Nodup) {Q : Unit → NS V → Prop}
    (hQ : ∀ ns' : NS V, Adv ns.o ns'.o 0 → ns'.o.err = ns.o.err →
      Inv ns'.o (if s = t then upd σo s (some ⟨ls.alloc, []⟩)
        else upd (upd σo s (some ⟨ls.alloc, lt.els⟩)) t (some ⟨lt.alloc, []⟩)) →
      Adv ns.i ns'.i 0 → Inv ns'.i (without σi (ls.els.map El.v)) → Q () ns') :
    wp (moveAssign s t) ns Q := by
  unfold moveAssign swap
  simp only [wp_bind, wp_onO]
  refine wp_moveCtor h hs ?_
  intro w1 hadv1 herr1 hsp1 hn hne hi1
  generalize Ptr.stk ns.o.sp = p at *
  have hs1 : upd (upd σo s (some ⟨ls.alloc, []⟩)) p (some ⟨ls.alloc, ls.els⟩) s = some ⟨ls.alloc, []⟩ := by
    rw [upd_other _ _ hne, upd_same]
  by_cases hst : s = t
  · subst hst
    rw [if_pos rfl] at hQ
    refine wp_swapNodes1 hi1 hs1 ?_
    intro w2 hadv2 herr2 hsp2 hi2
    refine wp_destroy (ns := ⟨w2, ns.i⟩) hi2 (upd_same _ _ _) ho hi hoi hal hnd ?_
    intro ns' hadv3 herr3 hsp3 hi3 hadvi hi'
    rw [upd_upd, upd_self _ _ none (by rw [upd_other _ _ (Ne.symm hne)]; exact hn)] at hi3
    exact hQ ns' ((hadv1.trans' (k := 0) hadv2 (Nat.le_refl _)).trans' hadv3 (Nat.le_refl _))
      (herr3.trans (herr2.trans herr1)) hi3 hadvi hi'
  · rw [if_neg hst] at hQ
    have htp : t ≠ p := by rintro rfl; rw [hn] at ht; cases ht
    have ht1 : upd (upd σo s (some ⟨ls.alloc, []⟩)) p (some ⟨ls.alloc, ls.els⟩) t = some lt := by
      rw [upd_other _ _ htp, upd_other _ _ (Ne.symm hst)]; exact ht
    refine wp_swapNodes2 hi1 ht1 hs1 (Ne.symm hst) ?_
    intro w2 hadv2 herr2 hsp2 hi2
    simp only at hi2
    refine wp_destroy (ns := ⟨w2, ns.i⟩) (s := p) (ls := ⟨ls.alloc, ls.els⟩) hi2 ?_ ho hi hoi hal hnd ?_
    · rw [upd_other _ _ (Ne.symm hne), upd_other _ _ (Ne.symm htp), upd_same]
    intro ns' hadv3 herr3 hsp3 hi3 hadvi hi'
    have e2 : upd (upd (upd (upd (upd σo s (some ⟨ls.alloc, []⟩)) p (some ⟨ls.alloc, ls.els⟩)) t (some ⟨lt.alloc, []⟩))
        s (some ⟨ls.alloc, lt.els⟩)) p none = upd (upd σo s (some ⟨ls.alloc, lt.els⟩)) t (some ⟨lt.alloc, []⟩) := by
      funext x
      simp only [upd_apply]
      by_cases h1 : x = p
      · subst h1; simp [Ne.symm hne, Ne.symm htp, hn]
      · by_cases h2 : x = s
        · subst h2; simp [h1, hst]
        · simp [h1, h2]
    rw [e2] at hi3
    exact hQ ns' ((hadv1.trans' (k := 0) hadv2 (Nat.le_refl _)).trans' hadv3 (Nat.le_refl _))
      (herr3.trans (herr2.trans herr1)) hi3 hadvi hi'

/-! ### Deep copy -/

theorem wp_assignLoop {ns : NS V} {σo : Sg Ptr} {σi : Sg V} {s t : Ptr} {ls lt : Lst Ptr} {X M Y : List (El Ptr)}
    (h : Inv ns.o σo) (hs : σo s = some ls) (ht : σo t = some lt) (hst : s ≠ t) (hX : lt.els = X ++ (M ++ Y))
    (he : ns.o.err = none) (hi : Inv ns.i σi) (hoi : Own σi) (hal : ∀ e ∈ M, σi e.v ≠ none)
    {Q : Unit → NS V → Prop}
    (hq : ∀ (ns' : NS V) (k : Nat) (N : List (El Ptr)) (σi' : Sg V), Adv ns.o ns'.o 0 → ns'.o.sp = ns.o.sp →
      DAdded ns ns' σi σi' M k ls.alloc N → Inv ns'.o (upd σo s (some ⟨ls.alloc, ls.els ++ N⟩)) →
      Adv ns.i ns'.i 0 → Inv ns'.i σi' → Own σi' → Q () ns') :
    wp (assignLoop s (posE t (M ++ Y)) (posE t Y)) ns Q := by
  induction M generalizing ns σo σi ls X Q with
  | nil =>
    rw [assignLoop]
    simp only [wp_bind, wp_onO]
    refine wp_itEq_true (h.on_pos ht hX) rfl ?_
    refine wp_if_pos rfl ?_
    refine hq ns 0 [] σi (Adv.refl _ _) rfl
      ⟨rfl, Nat.le_refl _, by simp, by simp, fun _ => rfl, fun h => absurd he h, fun _ _ => he, Deep.nil _ _⟩ ?_
      (Adv.refl _ _) hi hoi
    rw [upd_els_self hs (by simp)]; exact h
  | cons e M ih =>
    rw [assignLoop]
    simp only [wp_bind, wp_onO]
    have hem : e ∈ lt.els := by rw [hX]; simp
    have hne : posE t (e :: M ++ Y) ≠ posE t Y := by
      have hnd := h.st.ring_nodup ht
      rw [hX] at hnd
      rw [List.cons_append, posE_cons]
      cases Y with
      | nil => exact h.st.hdr_ne ht ht hem
      | cons y Y =>
        rw [posE_cons]
        simp only [ptrs_append, List.cons_append, ptrs_cons, List.nodup_cons, List.nodup_append] at hnd
        intro hc
        have := hnd.2.2.1.1
        rw [hc] at this
        simp at this
    have hX2 : lt.els = (X ++ (e :: M)) ++ Y := by rw [hX]; simp
    refine wp_itEq_false (h.on_pos ht hX) (h.on_pos ht hX2) hne ?_
    refine wp_if_neg (by simp) ?_
    simp only [wp_bind, wp_onO, wp_failed, List.cons_append, posE_cons]
    refine wp_deref h ht hem ?_
    obtain ⟨le, hle⟩ := Option.ne_none_iff_exists'.1 (hal e (by simp))
    refine wp_pushBack (ns := ⟨ns.o, ns.i⟩) h hs hi hle he ?_ ?_
    · intro ns' herr hadv hh hsp h' hadvi hi' hng
      refine wp_if_pos herr ?_
      rw [wp_pure]
      refine hq ns' 0 [] σi hadv hsp ⟨rfl, Nat.zero_le _, by simp, by simp, ?_, fun _ => Nat.succ_pos _, ?_, Deep.nil _ _⟩ ?_
        hadvi hi' hoi
      · intro hc; rw [hc] at herr; cases herr
      · intro g1 g2; rcases hng with h1 | h1
        · exact absurd g2 h1
        · exact absurd g1 h1
      · rw [upd_els_self hs (by simp)]; exact h'
    · intro ns1 n q σi1 herr hadv hsp hn h1 hm hadvi hi1
      refine wp_if_neg (by simp [herr]) ?_
      simp only [wp_bind, wp_onO]
      have ht1 : upd σo s (some ⟨ls.alloc, ls.els ++ [⟨n, q, ls.alloc⟩]⟩) t = some lt := by
        rw [upd_other _ _ (Ne.symm hst)]; exact ht
      refine wp_incr h1 ht1 (A := X) (B := M ++ Y) (e := e) (by rw [hX]; simp) ?_
      refine ih (ns := ⟨ns1.o, ns1.i⟩) (X := X ++ [e]) h1 (upd_same _ _ _) ht1 (by rw [hX]; simp) herr hi1 (hm.own hoi)
        (fun f hf => hm.keep (hal f (by simp [hf]))) ?_
      intro ns2 k N σi2 hadv2 hsp2 hadd h2 hadvi2 hi2 ho2
      have hmono : ∀ p, ns.o.heap p ≠ none → ns1.o.heap p ≠ none := by
        refine h.heap_mono h1 ?_
        intro u lu hu
        by_cases hus : u = s
        · subst hus; rw [hs] at hu; cases hu
          exact ⟨_, upd_same _ _ _, fun f hf => List.mem_append_left _ hf⟩
        · exact ⟨lu, by rw [upd_other _ _ hus]; exact hu, fun f hf => hf⟩
      have hmonoi : ∀ p, ns.i.heap p ≠ none → ns1.i.heap p ≠ none := by
        obtain ⟨_, _, hq0, N0, _, _, rfl⟩ := hm
        refine hi.heap_mono hi1 ?_
        intro u lu hu
        refine ⟨lu, ?_, fun f hf => hf⟩
        rw [upd_other]; exact hu
        rintro rfl; rw [hq0] at hu; cases hu
      refine hq ns2 (k + 1) (⟨n, q, ls.alloc⟩ :: N) σi2 (hadv.trans' hadv2 (Nat.le_refl _)) (hsp2.trans hsp) ?_ ?_
        (hadvi.trans' hadvi2 (Nat.le_refl _)) hi2 ho2
      · refine ⟨by simp [hadd.len], by simpa using hadd.le, ?_, ?_, ?_, ?_, ?_, ?_⟩
        · intro f hf; rw [List.mem_cons] at hf
          rcases hf with rfl | hf
          · exact hn
          · apply Classical.byContradiction; intro hc; exact hmono _ hc (hadd.fresh f hf)
        · intro f hf; rw [List.mem_cons] at hf
          rcases hf with rfl | hf
          · rfl
          · exact hadd.own f hf
        · intro hc; simp [hadd.ok hc]
        · intro hc; simp only [List.length_cons]; have := hadd.fail hc; omega
        · intro g1 g2; exact hadd.good (hadv.good g1) (hadvi.good g2)
        · rw [List.take_succ_cons]
          exact Deep.cons hm hadd.deep (fun f hf => hal f (by simp [List.mem_of_mem_take hf])) hmonoi
      · rw [upd_upd] at h2; simpa using h2

theorem wp_copyNothrow {ns : NS V} {σo : Sg Ptr} {σi : Sg V} {s t : Ptr} {ls lt : Lst Ptr}
    (h : Inv ns.o σo) (hs : σo s = some ls) (ht : σo t = some lt) (hst : s ≠ t)
    (ho : ∀ e ∈ ls.els, e.own = defaultAlloc) (he : ns.o.err = none) (hi : Inv ns.i σi) (hoi : Own σi)
    (hal : ∀ e ∈ lt.els, σi e.v ≠ none) (hal2 : ∀ e ∈ ls.els, σi e.v ≠ none) (hnd : (ls.els.map El.v).Nodup)
    {Q : Unit → NS V → Prop}
    (hq : ∀ (ns' : NS V) (k : Nat) (N : List (El Ptr)) (σi' : Sg V), Adv ns.o ns'.o 0 →
      DAdded ns ns' σi σi' lt.els k ls.alloc N → Inv ns'.o (upd σo s (some ⟨ls.alloc, N⟩)) →
      Adv ns.i ns'.i 0 → Inv ns'.i (without σi' (ls.els.map El.v)) → Own σi' → Q () ns') :
    wp (copyNothrow s t) ns Q := by
  unfold copyNothrow assignIt swap
  simp only [wp_bind, wp_onO]
  refine wp_begin h ht ?_
  refine wp_end h ht ?_
  refine wp_newList h defaultAlloc ?_
  intro w1 hadv1 herr1 hsp1 hnone hi1
  generalize hp : Ptr.stk ns.o.sp = p at *
  have hps : p ≠ s := by rintro rfl; rw [hnone] at hs; cases hs
  have hpt : p ≠ t := by rintro rfl; rw [hnone] at ht; cases ht
  have hs1 : upd σo p (some ⟨defaultAlloc, []⟩) s = some ls := by rw [upd_other _ _ (Ne.symm hps)]; exact hs
  refine wp_swapNodes2 hi1 hs1 (upd_same _ _ _) (Ne.symm hps) ?_
  intro w2 hadv2 herr2 hsp2 hi2
  simp only at hi2
  have e1 : upd (upd (upd σo p (some ⟨defaultAlloc, []⟩)) s (some ⟨ls.alloc, []⟩)) p (some ⟨defaultAlloc, ls.els⟩) =
      upd (upd σo p (some ⟨defaultAlloc, ls.els⟩)) s (some ⟨ls.alloc, []⟩) := by
    rw [upd_comm _ _ _ (Ne.symm hps), upd_upd]
  rw [e1] at hi2
  have ht2 : upd (upd σo p (some ⟨defaultAlloc, ls.els⟩)) s (some ⟨ls.alloc, []⟩) t = some lt := by
    rw [upd_other _ _ (Ne.symm hst), upd_other _ _ (Ne.symm hpt)]; exact ht
  have := wp_assignLoop (ns := ⟨w2, ns.i⟩) (X := []) (M := lt.els) (Y := []) hi2 (upd_same _ _ _) ht2 hst (by simp)
    (herr2.trans (herr1.trans he)) hi hoi hal (Q := fun _ s' => wp (destroy p) s' Q) ?_
  · simpa using this
  intro ns3 k N σi' hadv3 hsp3 hadd h3 hadvi hi3 ho3
  simp only [upd_upd, List.nil_append] at h3
  refine wp_destroy (s := p) (ls := ⟨defaultAlloc, ls.els⟩) h3 (by rw [upd_other _ _ hps, upd_same]) ho hi3 ho3 ?_ hnd ?_
  · intro e hm
    by_cases hc : e.v ∈ N.map El.v
    · obtain ⟨f, hf, hfe⟩ := List.mem_map.1 hc
      rw [← hfe]; exact (hadd.deep.new hf).2
    · rw [hadd.deep.same _ hc]; exact hal2 e hm
  intro ns4 hadv4 herr4 hsp4 h4 hadvi4 hi4
  have e2 : upd (upd (upd σo p (some ⟨defaultAlloc, ls.els⟩)) s (some ⟨ls.alloc, N⟩)) p none =
      upd σo s (some ⟨ls.alloc, N⟩) := by
    rw [upd_comm _ _ _ (Ne.symm hps), upd_upd, upd_self _ _ _ hnone]
  rw [e2] at h4
  have hadv : Adv ns.o w2 0 := hadv1.trans' hadv2 (Nat.le_refl _)
  refine hq ns4 k N σi' ((hadv.trans' hadv3 (Nat.le_refl _)).trans' hadv4 (Nat.le_refl _)) ?_ h4
    (hadvi.trans' hadvi4 (Nat.le_refl _)) hi4 ho3
  refine ⟨hadd.len, hadd.le, ?_, hadd.own, ?_, ?_, ?_, hadd.deep⟩
  · intro e he'
    apply Classical.byContradiction; intro hc
    refine h.heap_mono' hi2 ?_ ?_ _ hc (hadd.fresh e he')
    · intro t lt ht
      rw [upd_apply]; split
      · simp
      · rw [upd_apply]; split
        · simp
        · rw [ht]; simp
    · intro t lt f ht hf
      by_cases hts : t = s
      · subst hts; rw [hs] at ht; cases ht
        exact ⟨p, ⟨defaultAlloc, ls.els⟩, by rw [upd_other _ _ hps, upd_same], hf⟩
      · refine ⟨t, lt, ?_, hf⟩
        rw [upd_other _ _ hts, upd_other]
        · exact ht
        · rintro rfl; rw [hnone] at ht; cases ht
  · rw [herr4]; exact hadd.ok
  · rw [herr4]; exact hadd.fail
  · intro g1 g2; rw [herr4]; exact hadd.good (hadv.good g1) g2

end Nestl.NL
