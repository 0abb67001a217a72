import Verif.LinkedList.Ops
set_option autoImplicit false
/-
Effect of swap, construction, destruction, insertion and removal on the abstract state.
-/
namespace Nestl.LL
variable {V : Type} {w : W V} {σ : Sg V} {s : Ptr} {ls : Lst V}

/-! ### swap -/

theorem Ring.nil_iff {H : Heap V} {s : Ptr} : Ring H s [] ↔ Lk H s s := by simp [Ring, Ch]

theorem Ring.cons_iff {H : Heap V} {s x : Ptr} {l : List Ptr} :
    Ring H s (x :: l) ↔ Lk H s x ∧ Ch H (x :: l) ∧ Lk H (lastP x l) s := by
  have := Ring.split3 (H := H) (s := s) (m := x) (A := []) (M := l) (B := [])
  simpa [Ch, lastP, firstP, tailP] using this

theorem firstP_ne {s t : Ptr} {l : List Ptr} (hst : s ≠ t) (h : t ∉ l) : firstP s l ≠ t := by
  rcases firstP_mem s l with h1 | h1
  · rw [h1]; exact hst
  · intro h2; exact h (h2 ▸ h1)

theorem lastP_ne {s t : Ptr} {l : List Ptr} (hst : s ≠ t) (h : t ∉ l) : lastP s l ≠ t := by
  rcases lastP_mem s l with h1 | h1
  · rw [h1]; exact hst
  · intro h2; exact h (h2 ▸ h1)

theorem wp_swapNodes2 (h : Inv w σ) (hs : σ s = some ls) {t : Ptr} {lt : Lst V} (ht : σ t = some lt) (hst : s ≠ t)
    {Q : Unit → W V → Prop}
    (hq : ∀ w' : W V, Adv w w' 0 → w'.err = w.err → w'.sp = w.sp →
      Inv w' (upd (upd σ s (some ⟨ls.alloc, lt.els⟩)) t (some ⟨lt.alloc, ls.els⟩)) → Q () w') :
    wp (swapNodes s t) w Q := by
  have r1 := h.st.ring s ls hs
  have r2 := h.st.ring t lt ht
  have k1 := h.st.hdr_not_mem hs hs
  have k2 := h.st.hdr_not_mem hs ht
  have k3 := h.st.hdr_not_mem ht hs
  have k4 := h.st.hdr_not_mem ht ht
  have n1 := h.st.nodup s ls hs
  have n2 := h.st.nodup t lt ht
  have dj := h.st.disj s t ls lt hs ht hst
  have a1 := h.link hs (A := []) rfl
  have a2 := h.link hs (A := ls.els) (B := []) (by simp)
  have a3 := h.link ht (A := []) rfl
  have a4 := h.link ht (A := lt.els) (B := []) (by simp)
  apply wp_swapNodes (l := s) (r := t) (ln := posE s ls.els) (lp := lastP s (ptrs ls.els)) (rn := posE t lt.els)
    (rp := lastP t (ptrs lt.els)) a1 a2 a3 a4 hst (firstP_ne hst k3) (lastP_ne hst k3)
    (firstP_ne (Ne.symm hst) k2) (lastP_ne (Ne.symm hst) k2)
  intro H' q1 q2 q3 q4 fr hd
  apply hq _ (Adv.setHeap_dat hd) rfl rfl
  apply h.setHeap_dat _ hd
  apply h.st.relink2 hs ht hst (List.perm_append_comm) hd
  · generalize hL : lt.els = L at *
    cases L with
    | nil => rw [ptrs_nil, Ring.nil_iff]; exact q3 rfl
    | cons e L =>
      have hne : e.p ≠ t := by simp at k4; exact fun h => k4.1 h.symm
      obtain ⟨q5, q6⟩ := q4 hne
      rw [ptrs_cons, Ring.cons_iff] at r2 ⊢
      refine ⟨q5, r2.2.1.frame fun a b hab hb => ?_, q6⟩
      simp only [ptrs_cons, List.mem_cons, not_or, List.nodup_cons] at k2 k4 n2 dj
      refine fr a b hab ?_ ?_ ?_ ?_
      · rintro rfl; exact k2.2 hb
      · rintro rfl; exact k4.2 hb
      · rintro rfl; rcases firstP_mem s (ptrs ls.els) with h1 | h1
        · rw [posE, h1] at hb; exact k2.2 hb
        · exact (dj _ h1).2 hb
      · rintro rfl; exact n2.1 hb
  · generalize hL : ls.els = L at *
    cases L with
    | nil => rw [ptrs_nil, Ring.nil_iff]; exact q1 rfl
    | cons e L =>
      have hne : e.p ≠ s := by simp at k1; exact fun h => k1.1 h.symm
      obtain ⟨q5, q6⟩ := q2 hne
      rw [ptrs_cons, Ring.cons_iff] at r1 ⊢
      refine ⟨q5, r1.2.1.frame fun a b hab hb => ?_, q6⟩
      simp only [ptrs_cons, List.mem_cons, not_or, List.nodup_cons] at k1 k3 n1 dj
      refine fr a b hab ?_ ?_ ?_ ?_
      · rintro rfl; exact k1.2 hb
      · rintro rfl; exact k3.2 hb
      · rintro rfl; exact n1.1 hb
      · rintro rfl; rcases firstP_mem t (ptrs lt.els) with h1 | h1
        · rw [posE, h1] at hb; exact k3.2 hb
        · exact dj _ (.inr hb) h1
  · intro u lu hu hus hut
    apply h.st.ring_other hu
    intro a b hab hb
    have d1 := h.st.other hs hu hus hb
    have d2 := h.st.other ht hu hut hb
    refine fr a b hab d1.1 d2.1 ?_ ?_
    · exact (firstP_ne (Ne.symm d1.1) d1.2).symm
    · exact (firstP_ne (Ne.symm d2.1) d2.2).symm

theorem St.congr {H H' : Heap V} (h : St H σ) (hn : nxt H' = nxt H) (hp : prv H' = prv H) (hd : dat H' = dat H) :
    St H' σ := by
  have hl : ∀ a b, Lk H a b → Lk H' a b := fun a b hab => by unfold Lk; rw [hn, hp]; exact hab
  refine ⟨?_, ?_, ?_, h.nodup, h.disj, ?_⟩
  · rw [hd]; exact h.hdr
  · intro t lt ht; exact (h.ring t lt ht).frame fun a b hab _ => hl a b hab
  · rw [hd]; exact h.el
  · rw [hd]; exact h.cover

theorem wp_swapNodes1 (h : Inv w σ) (hs : σ s = some ls) {Q : Unit → W V → Prop}
    (hq : ∀ w' : W V, Adv w w' 0 → w'.err = w.err → w'.sp = w.sp → Inv w' σ → Q () w') :
    wp (swapNodes s s) w Q := by
  have a1 := h.link hs (A := []) rfl
  have a2 := h.link hs (A := ls.els) (B := []) (by simp)
  apply wp_swapNodes_self (l := s) (ln := posE s ls.els) (lp := lastP s (ptrs ls.els)) a1 a2
  intro H' hn hp hd
  exact hq _ (Adv.setHeap_dat hd) rfl rfl (h.setHeap_dat (h.st.congr hn hp hd) hd)

/-! ### Construction and end of lifetime -/

theorem Lk.of_none {H : Heap V} {a b : Ptr} (h : Lk H a b) {p : Ptr} (hp : H p = none) : a ≠ p ∧ b ≠ p := by
  constructor
  · rintro rfl; have := h.1; simp [nxt, hp] at this
  · rintro rfl; have := h.2; simp [prv, hp] at this

theorem St.none_of (h : St w.heap σ) {p : Ptr} (hp : w.heap p = none) : σ p = none := by
  cases hs : σ p with
  | none => rfl
  | some ls => have := (h.hdr p ls hs).2; simp [dat, hp] at this

theorem St.not_mem_of {H : Heap V} (h : St H σ) {p : Ptr} (hp : H p = none) (hs : σ s = some ls) : p ∉ ptrs ls.els := by
  intro hm
  obtain ⟨e, he, rfl⟩ := mem_ptrs.1 hm
  have := (h.el s ls hs e he).2; simp [dat, hp] at this

/-- A new list object. -/
theorem St.addHdr {H H' : Heap V} (h : St H σ) {p : Ptr} {a : Nat} (hstk : ∃ i, p = .stk i) (hnone : H p = none)
    (hn : nxt H' = upd (nxt H) p (some p)) (hpr : prv H' = upd (prv H) p (some p))
    (hd : dat H' = upd (dat H) p (some (none, a))) : St H' (upd σ p (some ⟨a, []⟩)) := by
  have hσ : σ p = none := by
    cases hs : σ p with
    | none => rfl
    | some ls => have := (h.hdr p ls hs).2; simp [dat, hnone] at this
  have fr : ∀ x y, Lk H x y → Lk H' x y := by
    intro x y hxy
    obtain ⟨h1, h2⟩ := hxy.of_none hnone
    unfold Lk; rw [hn, hpr, upd_other _ _ h1, upd_other _ _ h2]; exact hxy
  have hl : Lk H' p p := by unfold Lk; rw [hn, hpr]; simp
  refine ⟨?_, ?_, ?_, ?_, ?_, ?_⟩
  · intro t lt ht
    rw [hd]
    by_cases htp : t = p
    · subst htp; rw [upd_same] at ht ⊢; cases ht; exact ⟨hstk, rfl⟩
    · rw [upd_other _ _ htp] at ht ⊢; exact h.hdr t lt ht
  · intro t lt ht
    by_cases htp : t = p
    · subst htp; rw [upd_same] at ht; cases ht; exact Ring.nil_iff.2 hl
    · rw [upd_other _ _ htp] at ht; exact (h.ring t lt ht).frame fun x y hxy _ => fr x y hxy
  · intro t lt ht e he
    rw [hd]
    by_cases htp : t = p
    · subst htp; rw [upd_same] at ht; cases ht; cases he
    · rw [upd_other _ _ htp] at ht
      have := h.el t lt ht e he
      obtain ⟨⟨b, hb⟩, h2⟩ := this
      obtain ⟨i, hi⟩ := hstk
      rw [upd_other _ _ (by rw [hb, hi]; simp)]; exact ⟨⟨b, hb⟩, h2⟩
  · intro t lt ht
    by_cases htp : t = p
    · subst htp; rw [upd_same] at ht; cases ht; exact List.nodup_nil
    · rw [upd_other _ _ htp] at ht; exact h.nodup t lt ht
  · intro t u lt lu ht hu hne q hq1 hq2
    by_cases htp : t = p
    · subst htp; rw [upd_same] at ht; cases ht; cases hq1
    by_cases hup : u = p
    · subst hup; rw [upd_same] at hu; cases hu; cases hq2
    rw [upd_other _ _ htp] at ht; rw [upd_other _ _ hup] at hu
    exact h.disj t u lt lu ht hu hne q hq1 hq2
  · intro q hq1
    rw [hd] at hq1
    by_cases hqp : q = p
    · left; rw [hqp, upd_same]; simp
    · rw [upd_other _ _ hqp] at hq1
      rcases h.cover q hq1 with h1 | ⟨t, lt, ht, h1⟩
      · left; rw [upd_other _ _ hqp]; exact h1
      · right; refine ⟨t, lt, ?_, h1⟩
        rw [upd_other]
        · exact ht
        · rintro rfl; rw [hσ] at ht; cases ht

theorem wp_newList (h : Inv w σ) (a : Nat) {Q : Ptr → W V → Prop}
    (hq : ∀ w' : W V, Adv w w' 0 → w'.err = w.err → w'.sp = w.sp + 1 → σ (.stk w.sp) = none →
      Inv w' (upd σ (.stk w.sp) (some ⟨a, []⟩)) → Q (.stk w.sp) w') :
    wp (newList a) w Q := by
  have hnone : w.heap (.stk w.sp) = none := by
    apply Classical.byContradiction; intro hc; exact Nat.lt_irrefl _ (h.sp _ hc)
  have hσ := h.st.none_of hnone
  unfold newList
  simp only [wp_bind, wp_newObj]
  generalize hp : Ptr.stk w.sp = p at *
  have hpn : p ≠ .null := by rw [← hp]; simp
  apply wp_initEmpty (p := p) (v := none) (o := a) (by simp [dat]) hpn
  intro H' hn hpr hd
  rw [nxt_upd hpn] at hn
  rw [prv_upd hpn] at hpr
  rw [dat_upd] at hd
  simp only [upd_upd, Option.map_some] at hn hpr hd
  have hc : ∀ q, q ≠ p → H' q ≠ none → w.heap q ≠ none := by
    intro q h1 h2; rw [Ne, ← dat_none, hd, upd_other _ _ h1, dat_none] at h2; exact h2
  rw [wp_pure]
  apply hq
  · refine ⟨rfl, Nat.le_succ _, Nat.le_refl _, Nat.le_refl _, Nat.le_refl _, Nat.le_refl _, fun b hb => .inl ?_⟩
    exact hc _ (by rw [← hp]; simp) hb
  · rfl
  · rfl
  · exact hσ
  refine ⟨h.st.addHdr ⟨_, hp.symm⟩ hnone hn hpr hd, ?_⟩
  intro i hi
  simp only [World.setHeap_heap, World.setHeap_sp] at hi ⊢
  by_cases hip : Ptr.stk i = p
  · rw [← hp] at hip; cases hip; exact Nat.lt_succ_self _
  · exact Nat.lt_succ_of_lt (h.sp i (hc _ hip hi))

/-- Releasing cells that belong to no list any more. -/
theorem St.shrink {H H' : Heap V} {D : Ptr → Prop} [DecidablePred D] (h : St H σ)
    (hh : ∀ q, H' q = if D q then none else H q) (σ' : Sg V)
    (hσ : ∀ t lt, σ' t = some lt → σ t = some lt ∧ ¬ D t ∧ ∀ q ∈ ptrs lt.els, ¬ D q)
    (hc : ∀ t lt, σ t = some lt → σ' t = some lt ∨ (D t ∧ ∀ q ∈ ptrs lt.els, D q)) : St H' σ' := by
  have hdat : ∀ q, ¬ D q → dat H' q = dat H q := fun q hq => by unfold dat; rw [hh, if_neg hq]
  have hnx : ∀ q, ¬ D q → nxt H' q = nxt H q := fun q hq => by unfold nxt; rw [hh, if_neg hq]
  have hpv : ∀ q, ¬ D q → prv H' q = prv H q := fun q hq => by unfold prv; rw [hh, if_neg hq]
  refine ⟨?_, ?_, ?_, ?_, ?_, ?_⟩
  · intro t lt ht
    obtain ⟨h1, h2, h3⟩ := hσ t lt ht
    rw [hdat t h2]; exact h.hdr t lt h1
  · intro t lt ht
    obtain ⟨h1, h2, h3⟩ := hσ t lt ht
    have hr := h.ring t lt h1
    have h3' : ∀ q ∈ ptrs lt.els ++ [t], ¬ D q := by
      intro q hq; rw [List.mem_append, List.mem_singleton] at hq
      rcases hq with hq | rfl
      · exact h3 q hq
      · exact h2
    clear h1 ht h3
    unfold Ring at hr ⊢
    generalize ptrs lt.els ++ [t] = l at *
    induction l generalizing t with
    | nil => trivial
    | cons y l ih =>
      have hy := h3' y (by simp)
      refine ⟨⟨by rw [hnx t h2]; exact hr.1.1, by rw [hpv y hy]; exact hr.1.2⟩, ?_⟩
      exact ih y hy hr.2 fun q hq => h3' q (by simp [hq])
  · intro t lt ht e he
    obtain ⟨h1, h2, h3⟩ := hσ t lt ht
    rw [hdat _ (h3 _ (mem_ptrs_of he))]; exact h.el t lt h1 e he
  · intro t lt ht; exact h.nodup t lt (hσ t lt ht).1
  · intro t u lt lu ht hu; exact h.disj t u lt lu (hσ t lt ht).1 (hσ u lu hu).1
  · intro q hq
    have hDq : ¬ D q := fun hD => hq (by unfold dat; rw [hh, if_pos hD]; rfl)
    rw [hdat q hDq] at hq
    rcases h.cover q hq with h1 | ⟨t, lt, ht, hm⟩
    · left
      cases hq2 : σ q with
      | none => exact absurd hq2 h1
      | some lq =>
        rcases hc q lq hq2 with h2 | h2
        · rw [h2]; simp
        · exact absurd h2.1 hDq
    · rcases hc t lt ht with h2 | h2
      · exact .inr ⟨t, lt, h2, hm⟩
      · exact absurd (h2.2 q hm) hDq

/-- Node storage and values. -/
theorem wp_destroyVal {p : Ptr} {v : V} {o : Nat} (hp : p ≠ .null) (hd : dat w.heap p = some (some v, o))
    {Q : Unit → W V → Prop}
    (hq : ∀ H' : Heap V, nxt H' = nxt w.heap → prv H' = prv w.heap → dat H' = upd (dat w.heap) p (some (none, o)) →
      (∀ q, q ≠ p → H' q = w.heap q) → Q () (w.setHeap H')) : wp (destroyVal p) w Q := by
  obtain ⟨c, hc, hv, ho⟩ := dat_cell hd
  unfold destroyVal
  simp only [wp_bind]
  rw [wp_rd hc hp, hv]
  rw [wp_modCell hc hp]
  apply hq
  · rw [nxt_upd hp]; apply upd_self; simp [nxt, hp, hc]
  · rw [prv_upd hp]; apply upd_self; simp [prv, hp, hc]
  · rw [dat_upd]; simp [ho]
  · intro q hqp; exact upd_other _ _ hqp

theorem wp_putNode {a : Nat} {o : Nat} {vv : Option V} (hsn : s ≠ .null) (hs : dat w.heap s = some (vv, o))
    (hd : dat w.heap (.dyn a) = some (none, o)) {Q : Unit → W V → Prop}
    (hq : Q () (w.setHeap (upd w.heap (.dyn a) none))) : wp (putNode s (.dyn a)) w Q := by
  obtain ⟨c, hc, hv, ho⟩ := dat_cell hd
  obtain ⟨c2, hc2, -, ho2⟩ := dat_cell hs
  unfold putNode
  simp only [wp_bind]
  rw [wp_rd hc2 hsn, wp_freeCell hc (by simp [ho, ho2, hv])]
  exact hq

theorem wp_destroyLoop {B : List (El V)} {o : Nat} {vv : Option V} (hsn : s ≠ .null)
    (hs : dat w.heap s = some (vv, o))
    (hel : ∀ e ∈ B, (∃ a, e.p = .dyn a) ∧ dat w.heap e.p = some (some e.v, o)) (hn : (s :: ptrs B).Nodup)
    (hch : Ch w.heap (ptrs B ++ [s])) {Q : Unit → W V → Prop}
    (hq : Q () (w.setHeap fun q => if q ∈ ptrs B then none else w.heap q)) :
    wp (destroyLoop s (posE s B)) w Q := by
  induction B generalizing w with
  | nil =>
    rw [destroyLoop]
    refine wp_if_neg (by simp) ?_
    simpa using hq
  | cons e B ih =>
    obtain ⟨⟨a, ha⟩, hd⟩ := hel e (by simp)
    simp only [ptrs_cons, List.nodup_cons, List.mem_cons, not_or] at hn
    rw [destroyLoop]
    refine wp_if_pos (Ne.symm hn.1.1) ?_
    simp only [wp_bind, posE_cons]
    have hen : e.p ≠ .null := by rw [ha]; simp
    have hlk : Lk w.heap e.p (posE s B) := by
      rw [ptrs_cons, List.cons_append, snoc_eq] at hch; exact hch.1
    rw [wp_getNext hlk.1]
    apply wp_destroyVal hen hd
    intro H1 n1 p1 d1 o1
    rw [ha]
    apply wp_putNode hsn (o := o) (vv := vv)
    · simp only [World.setHeap_heap]; rw [d1, upd_other _ _ hn.1.1]; exact hs
    · simp only [World.setHeap_heap]; rw [← ha, d1, upd_same]
    have e1 : upd H1 (.dyn a) none = upd w.heap e.p none := by
      rw [← ha]; funext q; by_cases hq : q = e.p
      · rw [hq]; simp
      · rw [upd_other _ _ hq, upd_other _ _ hq, o1 q hq]
    simp only [World.setHeap_heap, World.setHeap_setHeap]
    rw [e1]
    apply ih
    · simp only [World.setHeap_heap]; rw [dat_upd, upd_other _ _ hn.1.1]; exact hs
    · intro f hf
      have hfe : f.p ≠ e.p := fun h => hn.2.1 (h ▸ mem_ptrs_of hf)
      simp only [World.setHeap_heap]; rw [dat_upd, upd_other _ _ hfe]
      exact hel f (by simp [hf])
    · simp only [List.nodup_cons]; exact ⟨hn.1.2, hn.2.2⟩
    · rw [ptrs_cons, List.cons_append, snoc_eq] at hch
      have hmem : ∀ q ∈ ptrs B ++ [s], q ≠ e.p := by
        intro q hq hqe; rw [List.mem_append, List.mem_singleton] at hq
        rcases hq with hq | hq
        · exact hn.2.1 (hqe ▸ hq)
        · exact hn.1.1 (hq.symm.trans hqe)
      have h2 := hch.2
      rw [← snoc_eq] at h2
      clear hch hq ih
      simp only [World.setHeap_heap]
      generalize ptrs B ++ [s] = l at *
      cases l with
      | nil => trivial
      | cons x l =>
        induction l generalizing x with
        | nil => trivial
        | cons y l ih =>
          have hx := hmem x (by simp)
          have hy := hmem y (by simp)
          refine ⟨⟨by rw [nxt_upd hen, upd_other _ _ hx]; exact h2.1.1,
            by rw [prv_upd hen, upd_other _ _ hy]; exact h2.1.2⟩, ?_⟩
          exact ih y (fun q hq => hmem q (by simp [hq])) h2.2
    · simp only [World.setHeap_heap, World.setHeap_setHeap]
      have e2 : (fun q => if q ∈ ptrs B then none else upd w.heap e.p none q) =
          fun q => if q ∈ ptrs (e :: B) then none else w.heap q := by
        funext q
        by_cases h1 : q = e.p
        · subst h1; simp
        · simp [upd_other _ _ h1, h1]
      rw [e2]; exact hq

theorem wp_destroyContent (h : Inv w σ) (hs : σ s = some ls) (ho : ∀ e ∈ ls.els, e.own = ls.alloc)
    {Q : Unit → W V → Prop} (hq : Q () (w.setHeap fun q => if q ∈ ptrs ls.els then none else w.heap q)) :
    wp (destroyContent s) w Q := by
  unfold destroyContent
  simp only [wp_bind]
  have hl : Lk w.heap s (posE s ls.els) := h.link hs (A := []) rfl
  rw [wp_getNext hl.1]
  apply wp_destroyLoop (h.st.null_ne hs) (h.st.hdr s ls hs).2 _ (h.st.ring_nodup hs) _ hq
  · intro e he; have := h.st.el s ls hs e he; rw [ho e he] at this; exact this
  · have := h.st.ring s ls hs
    unfold Ring at this; rw [snoc_eq] at this ⊢; exact this.2

theorem St.destroy {H : Heap V} (h : St H σ) (hs : σ s = some ls) :
    St (fun q => if q ∈ ptrs ls.els ∨ q = s then none else H q) (upd σ s none) := by
  apply h.shrink (D := fun q => q ∈ ptrs ls.els ∨ q = s) (fun q => rfl)
  · intro t lt ht
    by_cases hts : t = s
    · subst hts; rw [upd_same] at ht; cases ht
    rw [upd_other _ _ hts] at ht
    refine ⟨ht, ?_, ?_⟩
    · rintro (h1 | h1)
      · exact h.hdr_not_mem ht hs h1
      · exact hts h1
    · rintro q hq (h1 | h1)
      · exact h.disj t s lt ls ht hs hts q hq h1
      · subst h1; exact h.hdr_not_mem hs ht hq
  · intro t lt ht
    by_cases hts : t = s
    · subst hts; rw [hs] at ht; cases ht; exact .inr ⟨.inr rfl, fun q hq => .inl hq⟩
    · left; rw [upd_other _ _ hts]; exact ht

theorem wp_destroyList (h : Inv w σ) (hs : σ s = some ls) (ho : ∀ e ∈ ls.els, e.own = ls.alloc)
    {Q : Unit → W V → Prop}
    (hq : ∀ w' : W V, Adv w w' 0 → w'.err = w.err → w'.sp = w.sp → Inv w' (upd σ s none) →
      (∀ q, w'.heap q ≠ none → w.heap q ≠ none) → Q () w') :
    wp (destroyList s) w Q := by
  unfold destroyList
  simp only [wp_bind]
  apply wp_destroyContent h hs ho
  have hd := (h.st.hdr s ls hs).2
  obtain ⟨c, hc, -⟩ := dat_cell hd
  rw [wp_dropObj (c := c) (by simp [h.st.hdr_not_mem hs hs, hc])]
  simp only [World.setHeap_heap, World.setHeap_setHeap]
  have e1 : upd (fun q => if q ∈ ptrs ls.els then none else w.heap q) s none =
      fun q => if q ∈ ptrs ls.els ∨ q = s then none else w.heap q := by
    funext q; by_cases hqs : q = s
    · subst hqs; simp
    · simp [upd_other _ _ hqs, hqs]
  rw [e1]
  have hsub : ∀ q, (if q ∈ ptrs ls.els ∨ q = s then none else w.heap q) ≠ none → w.heap q ≠ none := by
    intro q hq; split at hq
    · exact absurd rfl hq
    · exact hq
  exact hq _ (Adv.setHeap fun a ha => hsub _ ha) rfl rfl
    (h.setHeap (h.st.destroy hs) fun i hi => hsub _ hi) hsub

theorem wp_clear (h : Inv w σ) (hs : σ s = some ls) (ho : ∀ e ∈ ls.els, e.own = ls.alloc)
    {Q : Unit → W V → Prop}
    (hq : ∀ w' : W V, Adv w w' 0 → w'.err = w.err → w'.sp = w.sp → Inv w' (upd σ s (some ⟨ls.alloc, []⟩)) →
      (∀ q, w'.heap q ≠ none → w.heap q ≠ none) → Q () w') :
    wp (clear s) w Q := by
  unfold clear
  simp only [wp_bind]
  apply wp_destroyContent h hs ho
  have hd := (h.st.hdr s ls hs).2
  have hsm := h.st.hdr_not_mem hs hs
  have hsn := h.st.null_ne hs
  apply wp_initEmpty (p := s) (v := none) (o := ls.alloc)
    (by simp only [World.setHeap_heap]; unfold dat at hd ⊢; simpa only [if_neg hsm] using hd) hsn
  intro H' hn hp hd'
  simp only [World.setHeap_heap, World.setHeap_setHeap] at hn hp hd' ⊢
  generalize hmid : (fun q => if q ∈ ptrs ls.els then none else w.heap q) = Hm at *
  have e1 : (fun q => if q ∈ ptrs ls.els ∨ q = s then none else w.heap q) = upd Hm s none := by
    funext q; rw [← hmid]; by_cases hqs : q = s
    · subst hqs; simp
    · simp [upd_other _ _ hqs, hqs]
  have hst := h.st.destroy hs
  rw [e1] at hst
  have hst2 := hst.addHdr (H' := H') (p := s) (a := ls.alloc) (h.st.hdr s ls hs).1 (by simp)
    (by rw [nxt_upd hsn, hn]; simp) (by rw [prv_upd hsn, hp]; simp) (by
      rw [dat_upd, hd', upd_upd, upd_self]; rw [← hmid]; unfold dat at hd ⊢; simpa only [if_neg hsm] using hd)
  rw [upd_upd] at hst2
  have hsub : ∀ q, H' q ≠ none → w.heap q ≠ none := by
    intro q hq
    rw [Ne, ← dat_none, hd', dat_none, ← hmid] at hq
    intro hc; apply hq; simp [hc]
  exact hq _ (Adv.setHeap fun a ha => hsub _ ha) rfl rfl (h.setHeap hst2 fun i hi => hsub _ hi) hsub

end Nestl.LL
