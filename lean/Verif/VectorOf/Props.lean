import Verif.VectorOf.Demo
set_option autoImplicit false
/-
C96: vectors of objects of any class.  The element class is a parameter (`Elem`, Verif/VectorOf/Rel.lean); the calls and their
preconditions are in Verif/VectorOf/Client.lean, their specification is `VC.Spec` (Verif/Vector/Client.lean).
-/
namespace Nestl.VO
open Nestl.Vec (W Sg ElemSize)
variable {S A X : Type} {E : Elem S A X} {s s' : NS S} {σ : Sg Ptr} {c : Call} {c' : VC.Call A} {r : VC.Res}

variable [ElemSize Ptr] in
/-- C96: every call whose precondition holds terminates without undefined behaviour: the vector uses the objects of its element
class only within their lifetime, constructs them only in raw storage, and destroys each of them exactly once. -/
theorem vectorOf_calls_safe (hr : Reach E s) (hv : Valid E s c) : ∃ r s', Runs (exec E.toElemOps c) (ready s) r s' ∧ Reach E s' := by
  obtain ⟨σ, h⟩ := hr.inv
  obtain ⟨c', hm⟩ := Call.Means.exists (blank := E.blank) fun q hq => (hv.2 q hq).1
  obtain ⟨r, s', σ', h1, -⟩ := h.call hv hm
  exact ⟨r, s', h1, .call hr hv h1⟩

open Demo in
example : Reach Elem.box Demo.s2 ∧ Valid Elem.box Demo.s2 (.pushBack Demo.v (.obj (.stk 0))) ∧
    Reach Elem.box Demo.s3 ∧ Valid Elem.box Demo.s3 (.pushMove Demo.v (.stk 1)) := ⟨Demo.r2, Demo.v2, Demo.r3, Demo.v3⟩

variable [ElemSize Ptr] in
/-- C96: in every reachable state each vector has a sequence of values. -/
theorem vectorOf_shows (hr : Reach E s) : ∃ B, Shows E s B ∧ ∀ B', Shows E s B' → B' = B := by
  obtain ⟨σ, h⟩ := hr.inv
  exact ⟨_, h.shows.2 rfl, fun B' hB => h.shows.1 hB⟩

open Demo in
example : Reach Elem.box Demo.s5 ∧ Values Elem.box Demo.s5 Demo.v [7, 8] ∧ Values Elem.box Demo.s5 Demo.u [7, 8] :=
  ⟨Demo.r5, Demo.vals5, Demo.vals5u⟩

variable [ElemSize Ptr] in
/-- C96: on the values of the elements, calls do what the specification of vectors of values says, whatever fails. -/
theorem vectorOf_calls_refine (hr : Reach E s) (hv : Valid E s c) (hrun : Runs (exec E.toElemOps c) (ready s) r s')
    (hm : c.Means E.blank (E.val s.i) c') {B : VC.AState A} (hB : Shows E s B) :
    ∃ B', Shows E s' B' ∧ VC.Spec B c' r s'.o.err.isSome B' := by
  obtain ⟨σ, h⟩ := hr.inv
  obtain ⟨r1, s1, σ', h1, h2, -, h3⟩ := h.call hv hm
  obtain ⟨rfl, rfl⟩ := Runs.det hrun h1
  obtain rfl := h.shows.1 hB
  exact ⟨_, h2.shows.2 rfl, h3⟩

open Demo in
/-- A call that fails: the boxes refuse to be copied, and the vector stays as it is. -/
example : Reach Elem.box Demo.s5 ∧ Valid Elem.box Demo.s5 (.reserve Demo.v 10) ∧
    (∃ r, Runs (exec boxOps (.reserve Demo.v 10)) (ready Demo.s5) r Demo.s6) ∧
    Call.Means 0 Demo.s5.i.box (.reserve Demo.v 10) (.reserve Demo.v 10) ∧ Demo.s6.o.err.isSome = true ∧
    Values Elem.box Demo.s6 Demo.v [7, 8] :=
  ⟨Demo.r5, Demo.v5, Demo.run5, rfl, by decide +kernel, Demo.vals6⟩

variable [ElemSize Ptr] in
/-- C96: outside of the vectors nothing happens: the objects of the client still exist and have the values they had, except that
an object that was moved into a vector without an error is empty now; and no object is left behind. -/
theorem vectorOf_calls_outside (hr : Reach E s) (hv : Valid E s c) (hrun : Runs (exec E.toElemOps c) (ready s) r s') :
    E.rest s'.i = E.rest s.i ∧
      (∀ q, ¬ IsElem s' q ∧ E.val s'.i q ≠ none ↔ ¬ IsElem s q ∧ E.val s.i q ≠ none) ∧
      ∀ q x y, ¬ IsElem s q → E.val s.i q = some x → E.val s'.i q = some y → c.After E.blank s'.o.err.isSome q x y := by
  obtain ⟨σ, h⟩ := hr.inv
  obtain ⟨c', hm⟩ := Call.Means.exists (blank := E.blank) fun q hq => (hv.2 q hq).1
  obtain ⟨r1, s1, σ', h1, h2, h3, -⟩ := h.call hv hm
  obtain ⟨rfl, rfl⟩ := Runs.det hrun h1
  have hfree : ∀ {s : NS S} {σ : Sg Ptr}, NInv E s σ → ∀ q, ¬ IsElem s q ∧ E.val s.i q ≠ none ↔ (outside E s).1 q ≠ none := by
    intro s σ h q
    by_cases hq : IsElem s q
    · rw [h.out_elem hq]; simp [hq]
    · rw [h.out hq]; simp [hq]
  have main : ∀ t, (outside E s').2 = (outside E s).2 → (∀ q, q ≠ t → (outside E s').1 q = (outside E s).1 q) →
      ((outside E s').1 t ≠ none ↔ (outside E s).1 t ≠ none) →
      (∀ x y, (outside E s).1 t = some x → (outside E s').1 t = some y → c.After E.blank s'.o.err.isSome t x y) →
      (∀ q x, q ≠ t → c.After E.blank s'.o.err.isSome q x x) →
    E.rest s'.i = E.rest s.i ∧
      (∀ q, ¬ IsElem s' q ∧ E.val s'.i q ≠ none ↔ ¬ IsElem s q ∧ E.val s.i q ≠ none) ∧
      ∀ q x y, ¬ IsElem s q → E.val s.i q = some x → E.val s'.i q = some y → c.After E.blank s'.o.err.isSome q x y := by
    intro t k1 k2 k3 k4 k5
    have k6 : ∀ q, ¬ IsElem s' q ∧ E.val s'.i q ≠ none ↔ ¬ IsElem s q ∧ E.val s.i q ≠ none := by
      intro q
      rw [hfree h q, hfree h2 q]
      by_cases e : q = t
      · rw [e]; exact k3
      · rw [k2 q e]
    refine ⟨k1, k6, ?_⟩
    intro q x y a1 a2 a3
    have a4 : (outside E s).1 q = some x := (h.out a1).trans a2
    have a5 : ¬ IsElem s' q := ((k6 q).2 ⟨a1, by rw [a2]; simp⟩).1
    have a6 : (outside E s').1 q = some y := (h2.out a5).trans a3
    by_cases e : q = t
    · subst e; exact k4 x y a4 a6
    · rw [k2 q e, a4] at a6
      cases a6
      exact k5 q x e
  have keep : Keep E (outside E s) s' → (∀ q x, c.After E.blank s'.o.err.isSome q x x) →
    E.rest s'.i = E.rest s.i ∧
      (∀ q, ¬ IsElem s' q ∧ E.val s'.i q ≠ none ↔ ¬ IsElem s q ∧ E.val s.i q ≠ none) ∧
      ∀ q x y, ¬ IsElem s q → E.val s.i q = some x → E.val s'.i q = some y → c.After E.blank s'.o.err.isSome q x y := by
    intro hk hc
    have hk : outside E s' = outside E s := hk
    refine main .null (by rw [hk]) (fun _ _ => by rw [hk]) (by rw [hk]) ?_ (fun q x _ => hc q x)
    intro x y a1 a2
    rw [hk, a1] at a2
    cases a2
    exact hc _ _
  cases c with
  | pushMove v t =>
    rcases h3 with ⟨h3, h4⟩ | ⟨h3, h4⟩
    · refine keep h3 ?_
      intro q x
      show if _ then _ else _
      rw [if_neg]
      rintro ⟨-, h5⟩
      rw [VC.isSome_some h4] at h5
      cases h5
    · have hk : outside E s' = movedOut E (outside E s) t := h3
      have ht := (hfree h t).1 ⟨(hv.2 t rfl).2, (hv.2 t rfl).1⟩
      refine main t (by rw [hk]; rfl) (fun q hq => ?_) ?_ ?_ ?_
      · rw [hk]; exact upd_other _ _ hq
      · rw [hk]; simp [movedOut, ht]
      · intro x y a1 a2
        rw [hk] at a2
        simp only [movedOut, upd_same, Option.some.injEq] at a2
        show if _ then _ else _
        rw [if_pos ⟨rfl, by rw [h4]; rfl⟩]
        exact a2.symm
      · intro q x hq
        show if _ then _ else _
        rw [if_neg (fun e => hq e.1)]
  | _ => exact keep h3 fun _ _ => rfl

open Demo in
/-- The box with the value 8 is moved into a vector. -/
example : Reach Elem.box Demo.s3 ∧ Valid Elem.box Demo.s3 (.pushMove Demo.v (.stk 1)) ∧
    (∃ r, Runs (exec boxOps (.pushMove Demo.v (.stk 1))) (ready Demo.s3) r Demo.s4) ∧ ¬ IsElem Demo.s3 (.stk 1) ∧
    Demo.s3.i.box (.stk 1) = some 8 ∧ Demo.s4.i.box (.stk 1) = some 0 ∧ Demo.s4.i.box (.stk 0) = some 7 :=
  ⟨Demo.r3, Demo.v3, Demo.run3, Demo.notElem Demo.r3 (by decide +kernel), by decide +kernel, by decide +kernel,
    by decide +kernel⟩

variable [ElemSize Ptr] in
/-- C96: the elements of the vectors are live objects, and no two elements are the same object. -/
theorem vectorOf_elements (hr : Reach E s) {v v' : Ptr} {qs qs' : List Ptr} {j j' : Nat} {q : Ptr} (ha : VC.Alive s.o v)
    (ha' : VC.Alive s.o v') (hv : Objs s v qs) (hv' : Objs s v' qs') (hj : qs[j]? = some q) :
    E.val s.i q ≠ none ∧ (qs'[j']? = some q → v' = v ∧ j' = j) := by
  obtain ⟨σ, h⟩ := hr.inv
  obtain ⟨x, hx⟩ := (VC.alive_iff h.outer).1 ha
  obtain ⟨x', hx'⟩ := (VC.alive_iff h.outer).1 ha'
  obtain rfl := (VC.contents_iff h.outer hx).1 hv
  obtain rfl := (VC.contents_iff h.outer hx').1 hv'
  exact ⟨h.live _ _ _ hx (List.mem_of_getElem? hj), fun hj' => h.uniq _ _ _ _ _ _ _ hx' hx hj' hj⟩

open Demo in
example : Reach Elem.box Demo.s5 ∧ VC.Alive Demo.s5.o Demo.v ∧ VC.Alive Demo.s5.o Demo.u ∧
    Objs Demo.s5 Demo.v [.stk 3, .stk 4] ∧ Objs Demo.s5 Demo.u [.stk 5, .stk 6] :=
  ⟨Demo.r5, Demo.alive (by decide +kernel), Demo.alive (by decide +kernel), Demo.o5, Demo.o5u⟩

variable [ElemSize Ptr] in
/-- C96: when all vectors have been destroyed, no element is left and no block. -/
theorem vectorOf_all_destroyed (hr : Reach E s) (hd : ∀ v, ¬ VC.Alive s.o v) : (∀ p, s.o.heap p = none) ∧ ∀ q, ¬ IsElem s q := by
  obtain ⟨σ, h⟩ := hr.inv
  refine ⟨?_, fun q hq => ?_⟩
  · intro p
    refine Classical.byContradiction fun h0 => ?_
    rcases h.outer.noLeak p h0 with h1 | ⟨v, h1, _⟩
    · exact hd _ h1
    · exact hd _ h1
  · obtain ⟨v, qs, h1, -⟩ := hq
    exact hd _ h1

open Demo in
example : Reach Elem.box Demo.s8 ∧ (∀ v, ¬ VC.Alive Demo.s8.o v) ∧ Demo.s8.o.nAlloc = 4 := ⟨Demo.r8, Demo.gone8, by decide +kernel⟩

variable [ElemSize Ptr] in
/-- C96: between the calls the client may change elements in place (through references and iterators); the vectors then have
the new values. -/
theorem vectorOf_client (hr : Reach E s) {i : S} (hi : E.inv i) (hl : ∀ q, IsElem s q → E.val i q ≠ none) :
    Reach E ⟨s.o, i⟩ ∧ ∀ v qs, Objs s v qs → Objs (⟨s.o, i⟩ : NS S) v qs :=
  ⟨.client hr hi hl, fun _ _ h => h⟩

open Demo in
/-- The value of the first element is changed. -/
example : Reach Elem.box Demo.s5 ∧ IsElem Demo.s5 (.stk 3) ∧
    Elem.box.inv { Demo.s5.i with box := upd Demo.s5.i.box (.stk 3) (some 1) } ∧
    ∀ q, IsElem Demo.s5 q → Elem.box.val { Demo.s5.i with box := upd Demo.s5.i.box (.stk 3) (some 1) } q ≠ none := ⟨Demo.r5, Demo.isElem5, Demo.set Demo.r5 Demo.isElem5 1⟩

end Nestl.VO
