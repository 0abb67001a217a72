import Verif.Nested.Model
import Verif.LinkedList.PropLemmas
set_option autoImplicit false
/-
Effect of the operations on lists of lists on the abstract state of both memories.
-/
namespace Nestl.NL
open Nestl.LL Nestl.LC
variable {V α : Type}

section
variable {N : Type} (w : World N) (e : Option Err)
@[simp] theorem setErr_heap : (setErr w e).heap = w.heap := rfl
@[simp] theorem setErr_env : (setErr w e).env = w.env := rfl
@[simp] theorem setErr_sp : (setErr w e).sp = w.sp := rfl
@[simp] theorem setErr_err : (setErr w e).err = e := rfl
@[simp] theorem setErr_setErr (f : Option Err) : setErr (setErr w e) f = setErr w f := rfl
@[simp] theorem setErr_self : setErr w w.err = w := rfl
@[simp] theorem setErr_setHeap (h) : setErr (w.setHeap h) e = (setErr w e).setHeap h := rfl
theorem setErr_eq {w} {e} (h : e = w.err) : setErr w e = (w : World N) := by subst h; rfl
end

theorem wp_onO {m : M (W Ptr) α} {s : NS V} {Q : α → NS V → Prop} :
    wp (onO m) s Q ↔ wp m s.o fun a o' => Q a ⟨o', s.i⟩ := by
  unfold wp onO
  rcases m s.o with _ | (_|⟨a, s'⟩) <;> rfl

theorem wp_onI {m : M (W V) α} {s : NS V} {Q : α → NS V → Prop} :
    wp (onI m) s Q ↔ wp m (setErr s.i s.o.err) fun a i' => Q a ⟨setErr s.o i'.err, i'⟩ := by
  unfold wp onI
  rcases m (setErr s.i s.o.err) with _ | (_|⟨a, s'⟩) <;> rfl

theorem wp_failed {s : NS V} {Q : Bool → NS V → Prop} : wp failed s Q ↔ Q s.o.err.isSome s := Iff.rfl

theorem _root_.Nestl.LL.Inv.setErr {w : W V} {σ : Sg V} (h : Inv w σ) (e : Option Err) : Inv (NL.setErr w e) σ := ⟨h.st, h.sp⟩

theorem _root_.Nestl.LL.Adv.ofErr {w w' : W V} {k : Nat} {e : Option Err} (h : Adv (NL.setErr w e) w' k) : Adv w w' k :=
  ⟨h.env, h.sp, h.nAlloc, h.nCtor, h.nCmp, h.cmps, fun a ha => (h.cells a ha).imp id fun f => ⟨f.none, f.req⟩⟩

theorem _root_.Nestl.LL.Adv.toErr {w w' : W V} {k : Nat} (h : Adv w w' k) (e : Option Err) : Adv w (NL.setErr w' e) k :=
  ⟨h.env, h.sp, h.nAlloc, h.nCtor, h.nCmp, h.cmps, fun a ha => (h.cells a ha).imp id fun f => ⟨f.none, f.req⟩⟩

theorem _root_.Nestl.Good.setErr {N : Type} {w : World N} (h : Good w) (e : Option Err) : Good (NL.setErr w e) :=
  ⟨h.some, h.inj, h.ctor, h.past⟩

theorem cell_ext {H H' : Heap V} {p : Ptr} (hp : p ≠ .null) (h1 : nxt H p = nxt H' p) (h2 : prv H p = prv H' p)
    (h3 : dat H p = dat H' p) : H p = H' p := by
  simp only [nxt, prv, dat, if_neg hp] at h1 h2 h3
  cases hc : H p with
  | none => cases hd : H' p with
    | none => rfl
    | some d => simp [hc, hd] at h3
  | some c => cases hd : H' p with
    | none => simp [hc, hd] at h3
    | some d =>
      simp only [hc, hd, Option.map_some, Option.some.injEq, Prod.mk.injEq] at h1 h2 h3
      cases c; cases d; simp only at h1 h2 h3
      rw [h1, h2, h3.1, h3.2]

/-- Cells with equal links and contents are equal. -/
theorem cell_eq {H H' : Heap V} {p a b : Ptr} (h1 : Lk H a p) (h2 : Lk H p b) (h1' : Lk H' a p) (h2' : Lk H' p b)
    (hd : dat H' p = dat H p) : H' p = H p := by
  obtain ⟨-, c, hc, k1⟩ := nxt_cell h2.1
  obtain ⟨-, c', hc', k1'⟩ := nxt_cell h2'.1
  obtain ⟨-, d, hd1, k2⟩ := prv_cell h1.2
  obtain ⟨-, d', hd1', k2'⟩ := prv_cell h1'.2
  rw [hc] at hd1; cases hd1
  rw [hc'] at hd1'; cases hd1'
  simp only [dat, hc, hc', Option.map_some, Option.some.injEq, Prod.mk.injEq] at hd
  obtain ⟨n, pr, v, ow⟩ := c
  obtain ⟨n', pr', v', ow'⟩ := c'
  simp only at *
  rw [hc, hc', k1, k1', k2, k2', hd.1, hd.2]

/-- The memory is determined by the lists it holds. -/
theorem heap_eq {w w' : W V} {σ : Sg V} (h : Inv w σ) (h' : Inv w' σ) : w'.heap = w.heap := by
  have key : ∀ p, (σ p ≠ none ∨ ∃ s ls, σ s = some ls ∧ p ∈ ptrs ls.els) → w'.heap p = w.heap p := by
    rintro p (hp | ⟨s, ls, hs, hp⟩)
    · cases hs : σ p with
      | none => exact absurd hs hp
      | some ls =>
        have a1 := h.link hs (A := ls.els) (B := []) (by simp)
        have a2 := h.link hs (A := []) (B := ls.els) rfl
        have b1 := h'.link hs (A := ls.els) (B := []) (by simp)
        have b2 := h'.link hs (A := []) (B := ls.els) rfl
        exact cell_eq a1 a2 b1 b2 (by rw [(h.st.hdr p ls hs).2, (h'.st.hdr p ls hs).2])
    · obtain ⟨e, he, rfl⟩ := mem_ptrs.1 hp
      obtain ⟨A, B, hA⟩ := List.append_of_mem he
      have hA2 : ls.els = (A ++ [e]) ++ B := by simp [hA]
      have a1 := h.link hs hA
      have a2 := h.link hs hA2
      have b1 := h'.link hs hA
      have b2 := h'.link hs hA2
      simp only [ptrs_append, ptrs_cons, ptrs_nil, lastP_append, lastP] at a2 b2
      exact cell_eq a1 a2 b1 b2 (by rw [(h.st.el s ls hs e he).2, (h'.st.el s ls hs e he).2])
  funext p
  by_cases h1 : w.heap p = none
  · by_cases h2 : w'.heap p = none
    · rw [h1, h2]
    · exact key p (h'.st.cover p (by rw [Ne, dat_none]; exact h2))
  · exact key p (h.st.cover p (by rw [Ne, dat_none]; exact h1))

/-! ### Construction and destruction of elements -/

theorem wp_elem {o : W Ptr} {p q : Ptr} {c : LNode Ptr} (hc : o.heap p = some c) (hp : p ≠ .null) (hv : c.val = some q)
    {Q : Ptr → W Ptr → Prop} (hq : Q q o) : wp (elem p) o Q := by
  unfold elem; simp only [wp_bind]; rw [wp_rd hc hp, hv]; exact hq

theorem wp_beginVal {o : W Ptr} {p q : Ptr} {c : LNode Ptr} (hc : o.heap p = some c) (hp : p ≠ .null) (hv : c.val = none)
    {Q : Unit → W Ptr → Prop} (hq : Q () (o.setHeap (upd o.heap p (some { c with val := some q })))) :
    wp (beginVal p q) o Q := by
  unfold beginVal; simp only [wp_bind]; rw [wp_rd hc hp, hv]; simp only; rw [wp_modCell hc hp]; exact hq

/-- Destruction of the element in node `p`. -/
theorem wp_destroyElem {ns : NS V} {σi : Sg V} {p q : Ptr} {lq : Lst V} {ow : Nat}
    (hp : p ≠ .null) (hd : dat ns.o.heap p = some (some q, ow)) (hi : Inv ns.i σi) (hq : σi q = some lq)
    (ho : ∀ e ∈ lq.els, e.own = lq.alloc) {Q : Unit → NS V → Prop}
    (hQ : ∀ (H : Heap Ptr) (i' : W V), nxt H = nxt ns.o.heap → prv H = prv ns.o.heap →
      dat H = upd (dat ns.o.heap) p (some (none, ow)) → (∀ r, r ≠ p → H r = ns.o.heap r) → Adv ns.i i' 0 →
      i'.err = ns.o.err → Inv i' (upd σi q none) → Q () ⟨ns.o.setHeap H, i'⟩) :
    wp (destroyElem p) ns Q := by
  obtain ⟨c, hc, hcv, -⟩ := dat_cell hd
  unfold destroyElem
  simp only [wp_bind, wp_onO, wp_onI]
  refine wp_elem hc hp hcv ?_
  refine wp_destroyList (hi.setErr _) hq ho ?_
  intro i' hadv herr hsp hi' _
  rw [setErr_eq (w := ns.o) herr]
  refine wp_destroyVal hp hd ?_
  intro H h1 h2 h3 h4
  exact hQ H i' h1 h2 h3 h4 hadv.ofErr herr hi'

/-- The inner list `q` was constructed from the list `t` as a copy or by a move. -/
def Made (copy : Bool) (w : W V) (σ : Sg V) (t q : Ptr) (σ' : Sg V) : Prop :=
  ∃ lt, σ t = some lt ∧ σ q = none ∧
    if copy then ∃ N : List (El V), N.map El.v = lt.els.map El.v ∧ (∀ e ∈ N, w.heap e.p = none ∧ e.own = defaultAlloc) ∧
      σ' = upd σ q (some ⟨defaultAlloc, N⟩)
    else σ' = upd (upd σ t (some ⟨lt.alloc, []⟩)) q (some ⟨lt.alloc, lt.els⟩)

theorem wp_copyElem {ns : NS V} {σi : Sg V} {p t : Ptr} {lt : Lst V} {c : LNode Ptr}
    (hp : p ≠ .null) (hc : ns.o.heap p = some c) (hcv : c.val = none) (hi : Inv ns.i σi) (ht : σi t = some lt)
    (he : ns.o.err = none) {Q : Unit → NS V → Prop}
    (hfail : ∀ (e : Option Err) (i' : W V), e.isSome → Adv ns.i i' 0 → Inv i' σi → ¬ Good ns.i → Q () ⟨setErr ns.o e, i'⟩)
    (hok : ∀ (q : Ptr) (i' : W V) (σi' : Sg V), Made true ns.i σi t q σi' → Adv ns.i i' 0 → Inv i' σi' →
      Q () ⟨ns.o.setHeap (upd ns.o.heap p (some { c with val := some q })), i'⟩) :
    wp (copyElem p t) ns Q := by
  unfold copyElem
  simp only [wp_bind, wp_onO, wp_onI, wp_failed]
  refine wp_newList (hi.setErr _) defaultAlloc ?_
  intro i1 hadv1 herr1 hsp1 hn hi1
  simp only [setErr_err, setErr_sp] at herr1 hsp1 hn hi1 ⊢
  rw [setErr_eq (w := ns.o) herr1]
  generalize Ptr.stk ns.i.sp = q at *
  refine wp_beginVal hc hp hcv ?_
  have hqt : q ≠ t := by rintro rfl; rw [hn] at ht; cases ht
  refine LL.wp_copyNothrow (hi1.setErr _) (upd_same _ _ _) (by simp) (t := t) (lt := lt)
    (by rw [upd_other _ _ (Ne.symm hqt)]; exact ht) hqt (by simpa using he) ?_
  intro i2 k N hadv2 hadd hN hi2
  rw [upd_upd] at hi2
  have hadv : Adv ns.i i2 0 := Adv.trans' (j := 0) (k := 0) hadv1.ofErr hadv2.ofErr (Nat.le_refl _)
  have hfr : ∀ e ∈ N, ns.i.heap e.p = none := by
    intro e hm
    apply Classical.byContradiction; intro hc
    refine hi.heap_mono hi1 ?_ _ hc (hadd.fresh e hm)
    intro u lu hu
    refine ⟨lu, ?_, fun _ h => h⟩
    rw [upd_other]; exact hu
    rintro rfl; rw [hn] at hu; cases hu
  by_cases h2 : i2.err = none
  · refine wp_if_neg (by simp [h2]) ?_
    rw [wp_pure]
    have := hok q i2 _ ⟨lt, ht, hn, N, ?_, fun e hm => ⟨hfr e hm, hadd.own e hm⟩, rfl⟩ hadv hi2
    · simp only [h2, setErr_setHeap]
      rw [setErr_eq (w := ns.o) (by rw [he])]; exact this
    · rw [hN, hadd.ok h2, List.take_length]
  · refine wp_if_pos (by simpa [Option.isSome_iff_ne_none] using h2) ?_
    refine wp_destroyElem (q := q) (ow := c.owner) hp (by simp [dat]) hi2 (upd_same _ _ _) hadd.own ?_
    intro H i3 n3 p3 d3 o3 hadv3 herr3 hi3
    rw [upd_upd, upd_self _ _ _ hn] at hi3
    simp only [setErr_heap, World.setHeap_heap] at n3 p3 d3 o3
    have e1 : H = ns.o.heap := by
      funext r
      by_cases hr : r = p
      · subst hr
        refine cell_ext hp ?_ ?_ ?_
        · rw [n3, nxt_upd hp, upd_same]; simp [nxt, hp, hc]
        · rw [p3, prv_upd hp, upd_same]; simp [prv, hp, hc]
        · rw [d3, upd_same]; simp [dat, hc, hcv]
      · rw [o3 r hr, upd_other _ _ hr]
    subst e1
    have := hfail i2.err i3 (by simpa [Option.isSome_iff_ne_none] using h2) (hadv.trans' hadv3 (Nat.le_refl _)) hi3 ?_
    · exact this
    · intro hg; exact h2 (hadd.good ((hadv1.ofErr.good hg).setErr _))

theorem wp_moveElem {ns : NS V} {σi : Sg V} {p t : Ptr} {lt : Lst V} {c : LNode Ptr}
    (hp : p ≠ .null) (hc : ns.o.heap p = some c) (hcv : c.val = none) (hi : Inv ns.i σi) (ht : σi t = some lt)
    {Q : Unit → NS V → Prop}
    (hok : ∀ (q : Ptr) (i' : W V) (σi' : Sg V), Made false ns.i σi t q σi' → Adv ns.i i' 0 → Inv i' σi' →
      Q () ⟨ns.o.setHeap (upd ns.o.heap p (some { c with val := some q })), i'⟩) :
    wp (moveElem p t) ns Q := by
  unfold moveElem
  simp only [wp_bind, wp_onO, wp_onI]
  refine wp_moveCtor (hi.setErr _) ht ?_
  intro i1 hadv herr hsp hn hne hi1
  simp only [setErr_err, setErr_sp] at herr hsp hn hne hi1 ⊢
  rw [setErr_eq (w := ns.o) herr]
  refine wp_beginVal hc hp hcv ?_
  exact hok _ i1 _ ⟨lt, ht, hn, rfl⟩ hadv.ofErr hi1

theorem wp_initElem {copy : Bool} {ns : NS V} {σi : Sg V} {p t : Ptr} {lt : Lst V} {c : LNode Ptr}
    (hp : p ≠ .null) (hc : ns.o.heap p = some c) (hcv : c.val = none) (hi : Inv ns.i σi) (ht : σi t = some lt)
    (he : ns.o.err = none) {Q : Unit → NS V → Prop}
    (hfail : ∀ (e : Option Err) (i' : W V), e.isSome → Adv ns.i i' 0 → Inv i' σi → ¬ Good ns.i → Q () ⟨setErr ns.o e, i'⟩)
    (hok : ∀ (q : Ptr) (i' : W V) (σi' : Sg V), Made copy ns.i σi t q σi' → Adv ns.i i' 0 → Inv i' σi' →
      Q () ⟨ns.o.setHeap (upd ns.o.heap p (some { c with val := some q })), i'⟩) :
    wp (initElem copy p t) ns Q := by
  unfold initElem
  cases copy with
  | true => exact wp_if_pos rfl (wp_copyElem hp hc hcv hi ht he hfail hok)
  | false => exact wp_if_neg (by simp) (wp_moveElem hp hc hcv hi ht hok)

/-! ### Insertion -/

theorem wp_createNode {copy : Bool} {ns : NS V} {σi : Sg V} {s t : Ptr} {lt : Lst V} {vv : Option Ptr} {ow : Nat}
    (hsn : s ≠ .null) (hs : dat ns.o.heap s = some (vv, ow)) (hi : Inv ns.i σi) (ht : σi t = some lt)
    (he : ns.o.err = none) {Q : Ptr → NS V → Prop}
    (hfail : ∀ ns' : NS V, ns'.o.err.isSome → Adv ns.o ns'.o 0 → ns'.o.heap = ns.o.heap → ns'.o.sp = ns.o.sp →
      Adv ns.i ns'.i 0 → Inv ns'.i σi → (¬ Good ns.i ∨ ¬ Good ns.o) → Q .null ns')
    (hok : ∀ (ns' : NS V) (a : Nat) (q : Ptr) (c : LNode Ptr) (σi' : Sg V), Adv ns.o ns'.o 0 →
      ns.o.heap (.dyn a) = none → ns'.o.heap = upd ns.o.heap (.dyn a) (some c) → c.val = some q → c.owner = ow →
      ns'.o.sp = ns.o.sp → ns'.o.err = none → Made copy ns.i σi t q σi' → Adv ns.i ns'.i 0 → Inv ns'.i σi' →
      Q (.dyn a) ns') :
    wp (createNode copy s t) ns Q := by
  obtain ⟨ch, hch, -, ho⟩ := dat_cell hs
  unfold createNode
  simp only [wp_bind, wp_onO, wp_failed]
  unfold allocNode
  simp only [wp_bind]
  rw [wp_rd hch hsn]
  apply wp_allocCell
  · intro hr
    refine wp_if_pos rfl ?_
    rw [wp_pure]
    refine hfail _ rfl ?_ rfl rfl (Adv.refl _ _) hi (.inr fun hg => hg.not_refused (.inl hr))
    exact ⟨rfl, Nat.le_refl _, Nat.le_succ _, Nat.le_refl _, Nat.le_refl _, Nat.le_refl _, fun a ha => .inl ha⟩
  · intro a ha hadr
    have hsa : s ≠ .dyn a := by rintro rfl; rw [hch] at ha; cases ha
    generalize hw1 : ({ ns.o with nAlloc := ns.o.nAlloc + 1, heap := _ } : W Ptr) = w1
    generalize hc1 : ({ ns.o.env.junk ns.o.nAlloc with val := none, owner := ch.owner } : LNode Ptr) = c1
    have hc1v : c1.val = none := by rw [← hc1]
    have hc1o : c1.owner = ow := by rw [← hc1]; exact ho
    have hw1h : w1.heap = upd ns.o.heap (.dyn a) (some c1) := by
      rw [← hw1, ← hc1]
    have hw1e : w1.err = none := by rw [← hw1]; exact he
    have hw1s : w1.sp = ns.o.sp := by rw [← hw1]
    have hadv1 : Adv ns.o w1 0 := by
      rw [← hw1]
      refine ⟨rfl, Nat.le_refl _, Nat.le_succ _, Nat.le_refl _, Nat.le_refl _, Nat.le_refl _, fun b hb => ?_⟩
      by_cases hab : b = a
      · subst hab; exact .inr ⟨ha, _, b, rfl, Nat.le_refl _, Nat.lt_succ_self _, hadr⟩
      · left; simpa [upd_other _ _ (show Ptr.dyn b ≠ .dyn a by simpa using hab)] using hb
    refine wp_if_neg (by simp [hw1e]) ?_
    simp only [wp_bind]
    refine wp_initElem (ns := ⟨w1, ns.i⟩) (c := c1) (by simp) (by rw [hw1h]; exact upd_same _ _ _) hc1v hi ht hw1e ?_ ?_
    · intro e i' hes hadvi hi' hng
      simp only [wp_onO, wp_failed]
      refine wp_if_pos hes ?_
      simp only [wp_bind, wp_onO]
      refine wp_putNode hsn (vv := vv) (o := ow) ?_ ?_ ?_
      · simp only [setErr_heap]; rw [hw1h, dat_upd, upd_other _ _ hsa]; exact hs
      · simp only [setErr_heap]; rw [hw1h, dat_upd, upd_same]; simp [hc1v, hc1o]
      · rw [wp_pure]
        refine hfail _ hes ?_ ?_ hw1s hadvi hi' (.inl hng)
        · refine (hadv1.toErr _).trans' (j := 0) (k := 0) (Adv.setHeap fun b hb => ?_) (Nat.le_refl _)
          intro hc; apply hb; rw [upd_apply]; split
          · rfl
          · exact hc
        · simp only [World.setHeap_heap, setErr_heap]; rw [hw1h, upd_upd, upd_self _ _ _ ha]
    · intro q i' σi' hm hadvi hi'
      simp only [wp_failed]
      refine wp_if_neg (by simp [hw1e]) ?_
      rw [wp_pure]
      refine hok _ a q { c1 with val := some q } σi' ?_ ha ?_ rfl hc1o hw1s hw1e hm hadvi hi'
      · refine hadv1.trans' (j := 0) (k := 0) (Adv.setHeap fun b hb => ?_) (Nat.le_refl _)
        intro hc; apply hb; rw [upd_other _ _ ?_]; exact hc
        intro h2; rw [h2, hw1h, upd_same] at hc; cases hc
      · simp only [World.setHeap_heap]; rw [hw1h, upd_upd]

/-- A node holding the value `v` is linked in front of `B`. -/
theorem wp_linkNode {w w1 : W Ptr} {σ : Sg Ptr} {s v : Ptr} {ls : Lst Ptr} {A B : List (El Ptr)} {a : Nat} {c : LNode Ptr}
    (h : Inv w σ) (hs : σ s = some ls) (hA : ls.els = A ++ B) (hadv : Adv w w1 0) (hnone : w.heap (.dyn a) = none)
    (hh : w1.heap = upd w.heap (.dyn a) (some c)) (hcv : c.val = some v) (hco : c.owner = ls.alloc) (hsp : w1.sp = w.sp)
    {Q : Ptr → W Ptr → Prop}
    (hok : ∀ w' : W Ptr, Adv w w' 0 → w'.sp = w.sp → w'.err = w1.err →
      Inv w' (upd σ s (some ⟨ls.alloc, A ++ ⟨.dyn a, v, ls.alloc⟩ :: B⟩)) → Q (.dyn a) w') :
    wp (linkNode (.dyn a) (posE s B)) w1 Q := by
  unfold linkNode
  simp only [wp_bind]
  have hd1 : dat w1.heap (.dyn a) = some (some v, ls.alloc) := by rw [hh, dat_upd, upd_same]; simp [hcv, hco]
  apply wp_initEmpty (p := .dyn a) hd1 (by simp)
  intro H2 n2 p2 d2
  rw [hh] at n2 p2 d2
  rw [nxt_upd (by simp), upd_upd] at n2
  rw [prv_upd (by simp), upd_upd] at p2
  rw [dat_upd] at d2
  simp only [Option.map_some, hcv, hco] at d2
  have fr2 : ∀ x y, Lk w.heap x y → Lk H2 x y := by
    intro x y hxy
    obtain ⟨h1, h2⟩ := hxy.of_none hnone
    unfold Lk; rw [n2, p2, upd_other _ _ h1, upd_other _ _ h2]; exact hxy
  have hon : ∀ x, On w.heap x → On H2 x := fun x ⟨a, b, h1, h2⟩ => ⟨a, b, fr2 _ _ h1, fr2 _ _ h2⟩
  have hnn : Lk H2 (.dyn a) (.dyn a) := by unfold Lk; rw [n2, p2]; simp
  have hpos := hon _ (h.on_pos hs hA)
  have hlk := fr2 _ _ (h.link hs hA)
  have hnp : Ptr.dyn a ≠ posE s B := ((h.link hs hA).of_none hnone).2.symm
  apply wp_checkNode hpos
  apply wp_inject hnn hlk hpos hnp
  intro H3 l1 l2 fr3 d3
  simp only [World.setHeap_heap] at d3 fr3
  rw [d2] at d3
  simp only [World.setHeap_setHeap]
  have hst : St H3 (upd σ s (some ⟨ls.alloc, A ++ ⟨.dyn a, v, ls.alloc⟩ :: B⟩)) :=
    h.st.addEl hs hA (n := ⟨.dyn a, v, ls.alloc⟩) ⟨a, rfl⟩ hnone d3 l1 l2
      (fun x y hxy hy => fr3 x y (fr2 x y hxy) (hxy.of_none hnone).2 hy)
  have hstk : ∀ i, H3 (.stk i) ≠ none → w.heap (.stk i) ≠ none := by
    intro i hi; rw [Ne, ← dat_none, d3, upd_other _ _ (by simp), dat_none] at hi; exact hi
  have hinv : Inv (w1.setHeap H3) (upd σ s (some ⟨ls.alloc, A ++ ⟨.dyn a, v, ls.alloc⟩ :: B⟩)) :=
    ⟨hst, fun i hi => by rw [World.setHeap_sp, hsp]; exact h.sp i (hstk i hi)⟩
  apply wp_checkNode
  · exact hinv.on_pos (upd_same _ _ _) (A := A) (B := ⟨.dyn a, v, ls.alloc⟩ :: B) rfl
  rw [wp_pure]
  refine hok _ ?_ hsp rfl hinv
  refine hadv.trans' (j := 0) (k := 0) (Adv.setHeap fun b hb => ?_) (Nat.le_refl _)
  rw [Ne, ← dat_none, d3] at hb
  rw [hh]
  by_cases hab : b = a
  · subst hab; simp
  · rw [upd_other _ _ (by simpa using hab)] at hb ⊢
    rw [dat_none] at hb; exact hb

theorem wp_emplace {copy : Bool} {ns : NS V} {σo : Sg Ptr} {σi : Sg V} {s t : Ptr} {ls : Lst Ptr} {lt : Lst V}
    {A B : List (El Ptr)} (h : Inv ns.o σo) (hs : σo s = some ls) (hA : ls.els = A ++ B) (hi : Inv ns.i σi)
    (ht : σi t = some lt) (he : ns.o.err = none) {Q : Ptr → NS V → Prop}
    (hfail : ∀ ns' : NS V, ns'.o.err.isSome → Adv ns.o ns'.o 0 → ns'.o.heap = ns.o.heap → ns'.o.sp = ns.o.sp →
      Inv ns'.o σo → Adv ns.i ns'.i 0 → Inv ns'.i σi → (¬ Good ns.i ∨ ¬ Good ns.o) → Q s ns')
    (hok : ∀ (ns' : NS V) (n q : Ptr) (σi' : Sg V), ns'.o.err = none → Adv ns.o ns'.o 0 → ns'.o.sp = ns.o.sp →
      ns.o.heap n = none → Inv ns'.o (upd σo s (some ⟨ls.alloc, A ++ ⟨n, q, ls.alloc⟩ :: B⟩)) →
      Made copy ns.i σi t q σi' → Adv ns.i ns'.i 0 → Inv ns'.i σi' → Q n ns') :
    wp (emplace copy s (posE s B) t) ns Q := by
  unfold emplace
  simp only [wp_bind, wp_failed]
  refine wp_createNode (h.st.null_ne hs) (h.st.hdr s ls hs).2 hi ht he ?_ ?_
  · intro ns' herr hadv hh hsp hadvi hi' hng
    refine wp_if_pos herr ?_
    rw [wp_onO]
    have h' : Inv ns'.o σo := ⟨by rw [hh]; exact h.st, fun i hi => by rw [hsp]; rw [hh] at hi; exact h.sp i hi⟩
    exact wp_end h' hs (hfail ns' herr hadv hh hsp h' hadvi hi' hng)
  · intro ns' a q c σi' hadv hnone hh hcv hco hsp herr hm hadvi hi'
    refine wp_if_neg (by simp [herr]) ?_
    rw [wp_onO]
    refine wp_linkNode h hs hA hadv hnone hh hcv hco hsp ?_
    intro w' hadv' hsp' herr' hinv
    exact hok ⟨w', ns'.i⟩ _ q σi' (herr'.trans herr) hadv' hsp' hnone hinv hm hadvi hi'

/-! ### Removal -/

theorem wp_unlink {w : W Ptr} {σ : Sg Ptr} {s : Ptr} {ls : Lst Ptr} {A B : List (El Ptr)} {e : El Ptr}
    (h : Inv w σ) (hs : σ s = some ls) (hA : ls.els = A ++ e :: B) {Q : Ptr → W Ptr → Prop}
    (hq : ∀ H1 : Heap Ptr, Lk H1 (lastP s (ptrs A)) (posE s B) →
      (∀ x y, Lk w.heap x y → y ≠ e.p → y ≠ posE s B → Lk H1 x y) → dat H1 = dat w.heap → Q (posE s B) (w.setHeap H1)) :
    wp (unlink e.p) w Q := by
  have hem : e ∈ ls.els := by simp [hA]
  have hA2 : ls.els = (A ++ [e]) ++ B := by simp [hA]
  have hl1 := h.link hs hA
  have hl2 := h.link hs hA2
  have o1 := h.on_pos hs hA
  have o2 := h.on_pos hs hA2
  simp only [ptrs_append, ptrs_cons, ptrs_nil, lastP_append, lastP] at hl2
  simp only [posE_cons] at hl1 o1
  have hse := h.st.hdr_ne hs hs hem
  have hon : On w.heap (lastP s (ptrs A)) := by
    rcases lastP_mem s (ptrs A) with h1 | h1
    · rw [h1]; exact h.st.on_hdr hs
    · exact (h.st.ring s ls hs).on (by rw [hA, ptrs_append]; simp [h1])
  have hne : lastP s (ptrs A) ≠ e.p := by
    have hn := h.st.ring_nodup hs
    rw [hA, ptrs_append] at hn
    apply lastP_ne (Ne.symm hse)
    simp only [ptrs_cons, List.nodup_cons, List.nodup_append, List.mem_cons] at hn
    intro hc; exact hn.2.2.2 _ hc _ (.inl rfl) rfl
  unfold unlink
  simp only [wp_bind]
  apply wp_checkNode o1
  rw [wp_getNext hl2.1]
  apply wp_checkNode o2
  apply wp_removeNode hl1 hl2 hne hon o2
  intro H1 l1 fr d1
  exact hq H1 l1 fr d1

theorem wp_erase {ns : NS V} {σo : Sg Ptr} {σi : Sg V} {s : Ptr} {ls : Lst Ptr} {A B : List (El Ptr)} {e : El Ptr}
    {lq : Lst V} (h : Inv ns.o σo) (hs : σo s = some ls) (hA : ls.els = A ++ e :: B) (ho : e.own = ls.alloc)
    (hi : Inv ns.i σi) (hq : σi e.v = some lq) (hoi : ∀ f ∈ lq.els, f.own = lq.alloc) {Q : Ptr → NS V → Prop}
    (hQ : ∀ ns' : NS V, Adv ns.o ns'.o 0 → ns'.o.err = ns.o.err → ns'.o.sp = ns.o.sp →
      Inv ns'.o (upd σo s (some ⟨ls.alloc, A ++ B⟩)) → ns'.o.heap e.p = none → Adv ns.i ns'.i 0 → 
      Inv ns'.i (upd σi e.v none) → Q (posE s B) ns') :
    wp (erase s e.p) ns Q := by
  have hem : e ∈ ls.els := by simp [hA]
  obtain ⟨⟨a, ha⟩, hd⟩ := h.st.el s ls hs e hem
  have hse := h.st.hdr_ne hs hs hem
  unfold erase
  simp only [wp_bind, wp_onO]
  refine wp_unlink h hs hA ?_
  intro H1 l1 fr d1
  refine wp_destroyElem (ns := ⟨ns.o.setHeap H1, ns.i⟩) (p := e.p) (q := e.v) (ow := e.own) (by rw [ha]; simp)
    (by simp only [World.setHeap_heap]; rw [d1]; exact hd) hi hq hoi ?_
  intro H2 i' n2 p2 d2 u2 hadvi herri hi'
  simp only [World.setHeap_heap] at n2 p2 d2 u2
  rw [ha]
  refine wp_putNode (h.st.null_ne hs) (vv := none) (o := ls.alloc) ?_ ?_ ?_
  · simp only [World.setHeap_heap]; rw [d2, upd_other _ _ (Ne.symm hse), d1]; exact (h.st.hdr s ls hs).2
  · simp only [World.setHeap_heap]; rw [← ha, d2, upd_same, ho]
  simp only [World.setHeap_heap, World.setHeap_setHeap, wp_pure]
  rw [← ha]
  have hen : e.p ≠ .null := by rw [ha]; simp
  have hsub : ∀ q, upd H2 e.p none q ≠ none → ns.o.heap q ≠ none := by
    intro q hq
    by_cases hqe : q = e.p
    · rw [hqe, upd_same] at hq; exact absurd rfl hq
    · rw [upd_other _ _ hqe, u2 q hqe] at hq; exact heap_of_dat d1 hq
  have hA2 : ls.els = (A ++ [e]) ++ B := by simp [hA]
  have hl1 := h.link hs hA
  have hl2 := h.link hs hA2
  simp only [ptrs_append, ptrs_cons, ptrs_nil, lastP_append, lastP] at hl2
  have hne : lastP s (ptrs A) ≠ e.p := by
    have hn := h.st.ring_nodup hs
    rw [hA, ptrs_append] at hn
    apply lastP_ne (Ne.symm hse)
    simp only [ptrs_cons, List.nodup_cons, List.nodup_append, List.mem_cons] at hn
    intro hc; exact hn.2.2.2 _ hc _ (.inl rfl) rfl
  have hpe : posE s B ≠ e.p := Ne.symm (h.pos_ne hs hA)
  refine hQ ⟨_, i'⟩ (Adv.setHeap fun b hb => hsub _ hb) rfl rfl ?_ (upd_same _ _ _) hadvi hi'
  apply h.setHeap _ fun i hi => hsub _ hi
  apply h.st.removeEl hs hA
  · rw [dat_upd, d2, d1]; simp
  · unfold Lk; rw [nxt_upd hen, prv_upd hen, n2, p2, upd_other _ _ hne, upd_other _ _ hpe]; exact l1
  · intro x y hxy h1 h2
    have hx : x ≠ e.p := by rintro rfl; exact h1 (hxy.inj_right hl2)
    unfold Lk; rw [nxt_upd hen, prv_upd hen, n2, p2, upd_other _ _ hx, upd_other _ _ h2]
    exact fr x y hxy h2 h1

/-! ### Destruction -/

/-- The lists `qs` are gone. -/
def without (σ : Sg V) (qs : List Ptr) : Sg V := fun q => if q ∈ qs then none else σ q

@[simp] theorem without_nil (σ : Sg V) : without σ [] = σ := by funext q; simp [without]

theorem without_cons (σ : Sg V) (q : Ptr) (qs : List Ptr) : without (upd σ q none) qs = without σ (q :: qs) := by
  funext r; simp only [without, upd_apply, List.mem_cons]
  by_cases h1 : r ∈ qs <;> by_cases h2 : r = q <;> simp [h1, h2]

theorem without_self {σ : Sg V} {qs : List Ptr} (h : ∀ q ∈ qs, σ q = none) : without σ qs = σ := by
  funext q; simp only [without]; split
  · next hq => exact (h q hq).symm
  · rfl

theorem _root_.Nestl.LC.Own.without {σ : Sg V} (h : Own σ) (qs : List Ptr) : Own (NL.without σ qs) := by
  intro s ls hs; unfold NL.without at hs; split at hs
  · cases hs
  · exact h s ls hs

theorem wp_destroyLoop {ns : NS V} {σi : Sg V} {s : Ptr} {B : List (El Ptr)} {ow : Nat} {vv : Option Ptr}
    (hsn : s ≠ .null) (hs : dat ns.o.heap s = some (vv, ow))
    (hel : ∀ e ∈ B, (∃ a, e.p = .dyn a) ∧ dat ns.o.heap e.p = some (some e.v, ow)) (hn : (s :: ptrs B).Nodup)
    (hch : Ch ns.o.heap (ptrs B ++ [s])) (hi : Inv ns.i σi) (ho : Own σi)
    (hal : ∀ e ∈ B, σi e.v ≠ none) (hnd : (B.map El.v).Nodup) {Q : Unit → NS V → Prop}
    (hQ : ∀ i' : W V, Adv ns.i i' 0 → Inv i' (without σi (B.map El.v)) →
      Q () ⟨ns.o.setHeap fun q => if q ∈ ptrs B then none else ns.o.heap q, i'⟩) :
    wp (destroyLoop s (posE s B)) ns Q := by
  induction B generalizing ns σi with
  | nil =>
    rw [destroyLoop]
    refine wp_if_neg (by simp) ?_
    simpa using hQ ns.i (Adv.refl _ _) (by simpa using hi)
  | cons e B ih =>
    obtain ⟨⟨a, ha⟩, hd⟩ := hel e (by simp)
    simp only [ptrs_cons, List.nodup_cons, List.mem_cons, not_or] at hn
    simp only [List.map_cons, List.nodup_cons] at hnd
    rw [destroyLoop]
    refine wp_if_pos (Ne.symm hn.1.1) ?_
    simp only [wp_bind, posE_cons, wp_onO]
    have hen : e.p ≠ .null := by rw [ha]; simp
    have hlk : Lk ns.o.heap e.p (posE s B) := by
      rw [ptrs_cons, List.cons_append, snoc_eq] at hch; exact hch.1
    rw [wp_getNext hlk.1]
    obtain ⟨lq, hlq⟩ := Option.ne_none_iff_exists'.1 (hal e (by simp))
    refine wp_destroyElem hen hd hi hlq (ho _ _ hlq) ?_
    intro H1 i1 n1 p1 d1 o1 hadv1 herr1 hi1
    rw [ha]
    refine wp_putNode hsn (o := ow) (vv := vv) ?_ ?_ ?_
    · simp only [World.setHeap_heap]; rw [d1, upd_other _ _ hn.1.1]; exact hs
    · simp only [World.setHeap_heap]; rw [← ha, d1, upd_same]
    have e1 : upd H1 (.dyn a) none = upd ns.o.heap e.p none := by
      rw [← ha]; funext q; by_cases hq : q = e.p
      · rw [hq]; simp
      · rw [upd_other _ _ hq, upd_other _ _ hq, o1 q hq]
    simp only [World.setHeap_heap, World.setHeap_setHeap]
    rw [e1]
    refine ih (ns := ⟨ns.o.setHeap (upd ns.o.heap e.p none), i1⟩) (σi := upd σi e.v none) ?_ ?_ ?_ ?_ hi1 ho.drop ?_ hnd.2 ?_
    · simp only [World.setHeap_heap]; rw [dat_upd, upd_other _ _ hn.1.1]; exact hs
    · intro f hf
      have hfe : f.p ≠ e.p := fun h => hn.2.1 (h ▸ mem_ptrs_of hf)
      simp only [World.setHeap_heap]; rw [dat_upd, upd_other _ _ hfe]
      exact hel f (by simp [hf])
    · simp only [List.nodup_cons]; exact ⟨hn.1.2, hn.2.2⟩
    · rw [ptrs_cons, List.cons_append, snoc_eq] at hch
      have hmem : ∀ q ∈ ptrs B ++ [s], q ≠ e.p := by
        intro q hq hqe; rw [List.mem_append, List.mem_singleton] at hq
        rcases hq with hq | hq
        · exact hn.2.1 (hqe ▸ hq)
        · exact hn.1.1 (hq.symm.trans hqe)
      have h2 := hch.2
      rw [← snoc_eq] at h2
      clear hch hQ ih
      simp only [World.setHeap_heap]
      generalize ptrs B ++ [s] = l at *
      cases l with
      | nil => trivial
      | cons x l =>
        induction l generalizing x with
        | nil => trivial
        | cons y l ih =>
          have hx := hmem x (by simp)
          have hy := hmem y (by simp)
          refine ⟨⟨by rw [nxt_upd hen, upd_other _ _ hx]; exact h2.1.1,
            by rw [prv_upd hen, upd_other _ _ hy]; exact h2.1.2⟩, ?_⟩
          exact ih y (fun q hq => hmem q (by simp [hq])) h2.2
    · intro f hf
      rw [upd_other]
      · exact hal f (by simp [hf])
      · intro hc; exact hnd.1 (hc ▸ List.mem_map_of_mem hf)
    · intro i2 hadv2 hi2
      simp only [World.setHeap_heap, World.setHeap_setHeap]
      have e2 : (fun q => if q ∈ ptrs B then none else upd ns.o.heap e.p none q) =
          fun q => if q ∈ ptrs (e :: B) then none else ns.o.heap q := by
        funext q
        by_cases h1 : q = e.p
        · subst h1; simp
        · simp [upd_other _ _ h1, h1]
      rw [e2]
      rw [without_cons] at hi2
      exact hQ i2 (hadv1.trans' hadv2 (Nat.le_refl _)) hi2

/-- The elements of the outer lists are distinct live inner lists. -/
structure Linked (σo : Sg Ptr) (σi : Sg V) : Prop where
  alive : ∀ s ls e, σo s = some ls → e ∈ ls.els → σi e.v ≠ none
  inj : ∀ s ls e t lt f, σo s = some ls → e ∈ ls.els → σo t = some lt → f ∈ lt.els → e.v = f.v → e.p = f.p

theorem nodup_map_of {α β γ : Type} {f : α → β} {g : α → γ} {l : List α} (hl : (l.map f).Nodup)
    (h : ∀ a ∈ l, ∀ b ∈ l, g a = g b → f a = f b) : (l.map g).Nodup := by
  induction l with
  | nil => simp
  | cons a l ih =>
    simp only [List.map_cons, List.nodup_cons, List.mem_map, not_exists, not_and] at hl ⊢
    refine ⟨fun b hb hab => hl.1 b hb ?_, ih hl.2 fun x hx y hy => h x (by simp [hx]) y (by simp [hy])⟩
    exact (h a (by simp) b (by simp [hb]) hab.symm).symm

theorem Linked.nodup {σo : Sg Ptr} {σi : Sg V} {s : Ptr} {ls : Lst Ptr} {H : Heap Ptr} (h : Linked σo σi) (hst : St H σo)
    (hs : σo s = some ls) : (ls.els.map El.v).Nodup :=
  nodup_map_of (hst.nodup s ls hs) fun _ ha _ hb hab => h.inj _ _ _ _ _ _ hs ha hs hb hab

theorem wp_destroyContent {ns : NS V} {σo : Sg Ptr} {σi : Sg V} {s : Ptr} {ls : Lst Ptr} (h : Inv ns.o σo)
    (hs : σo s = some ls) (ho : ∀ e ∈ ls.els, e.own = ls.alloc) (hi : Inv ns.i σi) (hoi : Own σi)
    (hal : ∀ e ∈ ls.els, σi e.v ≠ none) (hnd : (ls.els.map El.v).Nodup) {Q : Unit → NS V → Prop}
    (hQ : ∀ i' : W V, Adv ns.i i' 0 → Inv i' (without σi (ls.els.map El.v)) →
      Q () ⟨ns.o.setHeap fun q => if q ∈ ptrs ls.els then none else ns.o.heap q, i'⟩) :
    wp (destroyContent s) ns Q := by
  unfold destroyContent
  simp only [wp_bind, wp_onO]
  have hl : Lk ns.o.heap s (posE s ls.els) := h.link hs (A := []) rfl
  rw [wp_getNext hl.1]
  refine wp_destroyLoop (h.st.null_ne hs) (h.st.hdr s ls hs).2 ?_ (h.st.ring_nodup hs) ?_ hi hoi hal hnd hQ
  · intro e he; have := h.st.el s ls hs e he; rw [ho e he] at this; exact this
  · have := h.st.ring s ls hs
    unfold Ring at this; rw [snoc_eq] at this ⊢; exact this.2

theorem wp_destroy {ns : NS V} {σo : Sg Ptr} {σi : Sg V} {s : Ptr} {ls : Lst Ptr} (h : Inv ns.o σo)
    (hs : σo s = some ls) (ho : ∀ e ∈ ls.els, e.own = ls.alloc) (hi : Inv ns.i σi) (hoi : Own σi)
    (hal : ∀ e ∈ ls.els, σi e.v ≠ none) (hnd : (ls.els.map El.v).Nodup) {Q : Unit → NS V → Prop}
    (hQ : ∀ ns' : NS V, Adv ns.o ns'.o 0 → ns'.o.err = ns.o.err → ns'.o.sp = ns.o.sp → Inv ns'.o (upd σo s none) →
      Adv ns.i ns'.i 0 → Inv ns'.i (without σi (ls.els.map El.v)) → Q () ns') :
    wp (destroy s) ns Q := by
  unfold destroy
  simp only [wp_bind, wp_onO]
  refine wp_destroyContent h hs ho hi hoi hal hnd ?_
  intro i' hadvi hi'
  have hd := (h.st.hdr s ls hs).2
  obtain ⟨c, hc, -⟩ := dat_cell hd
  rw [wp_dropObj (c := c) (by simp [h.st.hdr_not_mem hs hs, hc])]
  simp only [World.setHeap_heap, World.setHeap_setHeap]
  have e1 : upd (fun q => if q ∈ ptrs ls.els then none else ns.o.heap q) s none =
      fun q => if q ∈ ptrs ls.els ∨ q = s then none else ns.o.heap q := by
    funext q; by_cases hqs : q = s
    · subst hqs; simp
    · simp [upd_other _ _ hqs, hqs]
  rw [e1]
  have hsub : ∀ q, (if q ∈ ptrs ls.els ∨ q = s then none else ns.o.heap q) ≠ none → ns.o.heap q ≠ none := by
    intro q hq; split at hq
    · exact absurd rfl hq
    · exact hq
  exact hQ ⟨_, i'⟩ (Adv.setHeap fun a ha => hsub _ ha) rfl rfl
    (h.setHeap (h.st.destroy hs) fun i hi => hsub _ hi) hadvi hi'

theorem wp_clear {ns : NS V} {σo : Sg Ptr} {σi : Sg V} {s : Ptr} {ls : Lst Ptr} (h : Inv ns.o σo)
    (hs : σo s = some ls) (ho : ∀ e ∈ ls.els, e.own = ls.alloc) (hi : Inv ns.i σi) (hoi : Own σi)
    (hal : ∀ e ∈ ls.els, σi e.v ≠ none) (hnd : (ls.els.map El.v).Nodup) {Q : Unit → NS V → Prop}
    (hQ : ∀ ns' : NS V, Adv ns.o ns'.o 0 → ns'.o.err = ns.o.err → ns'.o.sp = ns.o.sp →
      Inv ns'.o (upd σo s (some ⟨ls.alloc, []⟩)) →
      Adv ns.i ns'.i 0 → Inv ns'.i (without σi (ls.els.map El.v)) → Q () ns') :
    wp (clear s) ns Q := by
  unfold clear
  simp only [wp_bind, wp_onO]
  refine wp_destroyContent h hs ho hi hoi hal hnd ?_
  intro i' hadvi hi'
  have hd := (h.st.hdr s ls hs).2
  have hsm := h.st.hdr_not_mem hs hs
  have hsn := h.st.null_ne hs
  refine wp_initEmpty (p := s) (v := none) (o := ls.alloc)
    (by simp only [World.setHeap_heap]; unfold dat at hd ⊢; simpa only [if_neg hsm] using hd) hsn ?_
  intro H' hn hp hd'
  simp only [World.setHeap_heap, World.setHeap_setHeap] at hn hp hd' ⊢
  generalize hmid : (fun q => if q ∈ ptrs ls.els then none else ns.o.heap q) = Hm at *
  have e1 : (fun q => if q ∈ ptrs ls.els ∨ q = s then none else ns.o.heap q) = upd Hm s none := by
    funext q; rw [← hmid]; by_cases hqs : q = s
    · subst hqs; simp
    · simp [upd_other _ _ hqs, hqs]
  have hst := h.st.destroy hs
  rw [e1] at hst
  have hst2 := hst.addHdr (H' := H') (p := s) (a := ls.alloc) (h.st.hdr s ls hs).1 (by simp)
    (by rw [nxt_upd hsn, hn]; simp) (by rw [prv_upd hsn, hp]; simp) (by
      rw [dat_upd, hd', upd_upd, upd_self]; rw [← hmid]; unfold dat at hd ⊢; simpa only [if_neg hsm] using hd)
  rw [upd_upd] at hst2
  have hsub : ∀ q, H' q ≠ none → ns.o.heap q ≠ none := by
    intro q hq
    rw [Ne, ← dat_none, hd', dat_none, ← hmid] at hq
    intro hc; apply hq; simp [hc]
  exact hQ ⟨_, i'⟩ (Adv.setHeap fun a ha => hsub _ ha) rfl rfl (h.setHeap hst2 fun i hi => hsub _ hi) hadvi hi'

end Nestl.NL
