import Verif.VectorOf.RangeDemo
set_option autoImplicit false
/-
C105: insertion of ranges of objects into vectors of objects.  The program and its preconditions are in Verif/VectorOf/Range.lean
(`rangeExec`, `RangeValid`), the specification is `VC.Spec` (Verif/Vector/Client.lean).
-/
namespace Nestl.VO
open Nestl.Vec (W ElemSize)
variable {S A X : Type} {E : Elem S A X} {s s' : NS S} {r : VC.Res} {v : Ptr} {i : Nat} {cs : List CArg} {xs : List A}

section sized
variable [ElemSize Ptr]

omit [ElemSize Ptr] in
/-- The elements of a range have values. -/
theorem range_values (hx : ∀ c, c ∈ cs → ∃ a, c.Is E s a) : ∃ xs, AreAll E s cs xs := by
  induction cs with
  | nil => exact ⟨[], trivial⟩
  | cons c cs ih =>
    obtain ⟨a, h1⟩ := hx c (by simp)
    obtain ⟨xs, h2⟩ := ih fun c hc => hx c (by simp [hc])
    exact ⟨a :: xs, h1, h2⟩

/-- A fresh error object: nothing else changes. -/
theorem Reach.ready (hr : Reach E s) (ha : VC.Alive s.o v) : Reach E (VO.ready s) := by
  obtain ⟨σ, h⟩ := hr.inv
  obtain ⟨y, hy⟩ := (VC.alive_iff h.outer).1 ha
  refine .call (c := .reserve v 0) (r := .unit) hr ⟨⟨ha, ?_⟩, fun _ k => k.elim⟩ ?_
  · unfold VC.Countable; simp
  · obtain ⟨⟨k, rfl⟩, h1⟩ := h.ready.outer.st.obj _ _ hy
    refine runs_bind_iff.2 ⟨(), _, ?_, rfl⟩
    unfold reserve
    refine runs_bind_iff.2 ⟨_, _, runs_onO (runs_rdObj.2 ⟨by simp, h1, rfl⟩), ?_⟩
    simp
    rfl

theorem NInv.objs_ready {σ : Vec.Sg Ptr} (h : NInv E s σ) (ha : VC.Alive s.o v) {qs : List Ptr} : Objs (VO.ready s) v qs ↔ Objs s v qs := by
  obtain ⟨y, hy⟩ := (VC.alive_iff h.outer).1 ha
  rw [h.objs hy, h.ready.objs hy]

theorem NInv.isElem_ready {σ : Vec.Sg Ptr} (h : NInv E s σ) {q : Ptr} : IsElem (VO.ready s) q ↔ IsElem s q := by
  constructor
  · rintro ⟨v, qs, h1, h2, h3⟩
    exact ⟨v, qs, h1, (h.objs_ready h1).1 h2, h3⟩
  · rintro ⟨v, qs, h1, h2, h3⟩
    exact ⟨v, qs, h1, (h.objs_ready h1).2 h2, h3⟩

theorem RangeValid.ready (hr : Reach E s) (hv : RangeValid E s v i cs) : RangeValid E (VO.ready s) v i cs := by
  obtain ⟨σ, h⟩ := hr.inv
  refine ⟨hv.alive, hv.pos.imp fun qs k => ⟨(h.objs_ready hv.alive).2 k.1, k.2⟩, fun c hc => ?_⟩
  obtain ⟨h1, h2, h3⟩ := hv.args c hc
  refine ⟨?_, h2, fun q hq => ⟨(h3 q hq).1, fun e => (h3 q hq).2 (h.isElem_ready.1 e)⟩⟩
  cases c with
  | obj t => trivial
  | fresh => trivial
  | elem u j => exact ⟨h1.1, h1.2.imp fun L k => ⟨(h.objs_ready h1.1).2 k.1, k.2⟩⟩

/-- The effect of the insertion of a range. -/
theorem range_run (hr : Reach E s) (hv : RangeValid E s v i cs) (hx : AreAll E s cs xs) :
    ∃ s', Runs (rangeExec E.toElemOps v i cs) (VO.ready s) .unit s' ∧
    RangeKeeps E v s s' ∧ ((s'.o.err = none ∨ (∃ qs, Objs s v qs ∧ i = qs.length) ∨ Sure E.toElemOps) → Reach E s' ∧
        ∀ B, Shows E s B → ∃ B', Shows E s' B' ∧ VC.Spec B (.insertVals v i xs) .unit s'.o.err.isSome B') := by
  obtain ⟨σ, h⟩ := hr.inv
  have hr' := hr.ready hv.alive
  have hv' := hv.ready hr
  have hk : RangeKeeps E v s (VO.ready s) := ⟨fun t qs _ k1 k2 => ⟨rfl, k1, (h.objs_ready k1).2 k2, fun _ _ => rfl⟩, rfl, fun _ _ _ k => k⟩
  obtain ⟨as, h1⟩ := evalArgs_runs (cs := cs) fun c hc => evalArg_runs hr' (hv'.args c hc).1
  obtain ⟨s', h2, h3, h4⟩ := range_loop cs hr' rfl hv' h1 (AreAll.keep hk hv.args hx)
  refine ⟨s', ?_, ⟨hk.others.trans h3.others, h3.rest, fun q a k1 k2 => h3.client q a (fun e => k1 (h.isElem_ready.1 e)) k2⟩, fun hok => ?_⟩
  · refine runs_bind_iff.2 ⟨as, _, h1, runs_bind_iff.2 ⟨(), s', ?_, rfl⟩⟩
    obtain ⟨y, hy⟩ := (VC.alive_iff h.outer).1 hv.alive
    obtain ⟨⟨k, rfl⟩, h5⟩ := h.ready.outer.st.obj _ _ hy
    obtain ⟨qs, h6, h7⟩ := hv.pos
    obtain rfl := (h.objs hy).1 h6
    refine runs_bind_iff.2 ⟨_, _, runs_onO (runs_rdObj.2 ⟨by simp, h5, rfl⟩), runs_bind_iff.2 ⟨(), _, ?_, h2⟩⟩
    simp only [assertM, h7, decide_true]
    rfl
  · obtain ⟨h5, h6⟩ := h4 (hok.imp id (Or.imp (fun ⟨qs, k⟩ => ⟨qs, (h.objs_ready hv.alive).2 k.1, k.2⟩) id))
    exact ⟨h5, fun B hB => h6 B (h.ready.shows.2 (h.shows.1 hB))⟩

/-- The elements of a valid range have values. -/
theorem RangeValid.values (hr : Reach E s) (hv : RangeValid E s v i cs) : ∃ xs, AreAll E s cs xs := by
  obtain ⟨σ, h⟩ := hr.inv
  refine range_values fun c hc => ?_
  obtain ⟨h1, -, h3⟩ := hv.args c hc
  cases c with
  | obj t => exact Option.ne_none_iff_exists'.1 (h3 t rfl).1
  | fresh => exact ⟨_, rfl⟩
  | elem u j =>
    obtain ⟨h1, L, h2, h4⟩ := h1
    obtain ⟨y, hy⟩ := (VC.alive_iff h.outer).1 h1
    obtain rfl := (h.objs hy).1 h2
    obtain ⟨a, ha⟩ := Option.ne_none_iff_exists'.1 (h.live _ _ _ hy (List.getElem_mem h4))
    exact ⟨a, _, _, h2, List.getElem?_eq_getElem h4, ha⟩

end sized

variable [ElemSize Ptr] in
/-- C105: the insertion of a range terminates without undefined behaviour, whatever fails. -/
theorem vectorOf_range_safe (hr : Reach E s) (hv : RangeValid E s v i cs) : ∃ r s', Runs (rangeExec E.toElemOps v i cs) (ready s) r s' := by
  obtain ⟨xs, hx⟩ := hv.values hr
  obtain ⟨s', h, -⟩ := range_run hr hv hx
  exact ⟨_, s', h⟩

open Demo in
example : Reach Elem.box f6 ∧ RangeValid Elem.box f6 Demo.v 1 [.elem Demo.u 1, .obj (.stk 0), .elem Demo.u 0] ∧ Reach Elem.box s5 ∧
    RangeValid Elem.box s5 Demo.v 0 [.obj (.stk 0)] := ⟨rf6, vf6, r5, vre5⟩

variable [ElemSize Ptr] in
/-- C105 (the full claim would cover failures in front of an element: `vectorOf_range_failure_violated`): if it succeeds, the insertion
of a range puts its values at the position, in their order; at the end of the vector, and at any position if copies of elements do not
fail, a failure leaves the values that were inserted before it. -/
theorem vectorOf_range_partial (hr : Reach E s) (hv : RangeValid E s v i cs) (hrun : Runs (rangeExec E.toElemOps v i cs) (ready s) r s')
    (hok : s'.o.err = none ∨ (∃ qs, Objs s v qs ∧ i = qs.length) ∨ Sure E.toElemOps) (hx : AreAll E s cs xs) {B : VC.AState A}
    (hB : Shows E s B) : Reach E s' ∧ ∃ B', Shows E s' B' ∧ VC.Spec B (.insertVals v i xs) r s'.o.err.isSome B' := by
  obtain ⟨s1, h1, -, h2⟩ := range_run hr hv hx
  obtain ⟨rfl, rfl⟩ := Runs.det hrun h1
  exact ⟨(h2 hok).1, (h2 hok).2 B hB⟩

open Demo in
/-- Elements of another vector and a box of the client are copied into the middle of a vector; copies run out at the end of a vector. -/
example : Reach Elem.box f6 ∧ RangeValid Elem.box f6 Demo.v 1 [.elem Demo.u 1, .obj (.stk 0), .elem Demo.u 0] ∧
    Runs (rangeExec boxOps Demo.v 1 [.elem Demo.u 1, .obj (.stk 0), .elem Demo.u 0]) (ready f6) .unit f7 ∧ f7.o.err = none ∧
    AreAll Elem.box f6 [.elem Demo.u 1, .obj (.stk 0), .elem Demo.u 0] [8, 7, 7] ∧ (∃ B, Shows Elem.box f6 B) ∧
    Values Elem.box f6 Demo.v [7, 7, 8] ∧ ((elems f7 Demo.v).map fun qs => qs.map f7.i.box) = some ([7, 8, 7, 7, 7, 8].map some) ∧
    Reach Elem.box s5 ∧ RangeValid Elem.box s5 Demo.v 2 [.obj (.stk 0), .obj (.stk 0)] ∧
    Runs (rangeExec boxOps Demo.v 2 [.obj (.stk 0), .obj (.stk 0)]) (ready s5) .unit q6 ∧ q6.o.err ≠ none ∧
    Objs s5 Demo.v [.stk 3, .stk 4] ∧ AreAll Elem.box s5 [.obj (.stk 0), .obj (.stk 0)] [7, 7] ∧
    ((elems q6 Demo.v).map fun qs => qs.map q6.i.box) = some ([7, 8, 7].map some) :=
  ⟨rf6, vf6, runf6, by decide +kernel, allf6, (vectorOf_shows rf6).imp fun _ h => h.1, valf6, by decide +kernel, r5, vq5, runq5, by decide +kernel, o5, allq5, by decide +kernel⟩

variable [ElemSize Ptr] in
/-- C105: whatever fails, the objects of the client keep their values. -/
theorem vectorOf_range_outside (hr : Reach E s) (hv : RangeValid E s v i cs) (hrun : Runs (rangeExec E.toElemOps v i cs) (ready s) r s') :
    E.rest s'.i = E.rest s.i ∧ ∀ q a, ¬ IsElem s q → E.val s.i q = some a → E.val s'.i q = some a := by
  obtain ⟨xs, hx⟩ := hv.values hr
  obtain ⟨s1, h1, h2, -⟩ := range_run hr hv hx
  obtain ⟨rfl, rfl⟩ := Runs.det hrun h1
  exact ⟨h2.rest, h2.client⟩

open Demo in
example : Reach Elem.box s5 ∧ RangeValid Elem.box s5 Demo.v 0 [.obj (.stk 0)] ∧
    Runs (rangeExec boxOps Demo.v 0 [.obj (.stk 0)]) (ready s5) .unit e7 ∧ e7.o.err ≠ none ∧ ¬ IsElem s5 (.stk 0) ∧ s5.i.box (.stk 0) = some 7 :=
  ⟨r5, vre5, runre5, by decide +kernel, notElem r5 (by decide +kernel), by decide +kernel⟩

variable [ElemSize Ptr] in
/-- C105: whatever fails, the other vectors keep their elements: the same objects with the same values. -/
theorem vectorOf_range_others (hr : Reach E s) (hv : RangeValid E s v i cs) (hrun : Runs (rangeExec E.toElemOps v i cs) (ready s) r s') :
    OthersKeep E v s s' := by
  obtain ⟨xs, hx⟩ := hv.values hr
  obtain ⟨s1, h1, h2, -⟩ := range_run hr hv hx
  obtain ⟨rfl, rfl⟩ := Runs.det hrun h1
  exact h2.others

open Demo in
example : Reach Elem.box s5 ∧ RangeValid Elem.box s5 Demo.v 0 [.obj (.stk 0)] ∧
    Runs (rangeExec boxOps Demo.v 0 [.obj (.stk 0)]) (ready s5) .unit e7 ∧ e7.o.err ≠ none ∧ Demo.u ≠ Demo.v ∧ VC.Alive s5.o Demo.u ∧
    Objs s5 Demo.u [.stk 5, .stk 6] :=
  ⟨r5, vre5, runre5, by decide +kernel, by decide, alive (by decide +kernel), objs r5 (alive (by decide +kernel)) (by decide +kernel)⟩

open Demo in
/-- C105: a failure in front of an element can break the vector: an element is lost, and the destructor of the vector then has undefined
behaviour. -/
theorem vectorOf_range_failure_violated : ∃ (s s' : NS Boxes), Reach Elem.box s ∧ RangeValid Elem.box s Demo.v 0 [.obj (.stk 0)] ∧
    Runs (rangeExec boxOps Demo.v 0 [.obj (.stk 0)]) (ready s) .unit s' ∧ s'.o.err ≠ none ∧ Objs s Demo.v [.stk 3, .stk 4] ∧
    (∀ qs, ¬ Objs s' Demo.v qs) ∧ s'.i.box (.stk 4) = none ∧ ∃ f, Faults (exec boxOps (.destroy Demo.v)) (ready s') f := by
  refine ⟨s5, e7, r5, vre5, runre5, by decide +kernel, o5, fun qs hq => ?_, by decide +kernel, ?_⟩
  · have h : elems e7 Demo.v = none := by decide +kernel
    unfold elems at h
    rw [show VC.walk Demo.v e7.o = _ from hq] at h
    cases h
  · have h : (match exec boxOps (.destroy Demo.v) (ready e7) with | some (.error _) => true | _ => false) = true := by decide +kernel
    unfold Faults
    split at h
    · rename_i f e
      exact ⟨f, e⟩
    · cases h

end Nestl.VO
