import Verif.VectorOf.Range
set_option autoImplicit false
/-
Concrete reachable states used by the examples beside the theorems of C105.
-/
namespace Nestl.VO.Demo
open Nestl.Vec (ElemSize)
variable {S A X : Type} {E : Elem S A X}

/-- The state after the insertion of a range. -/
def goR (E : ElemOps S) (v : Ptr) (i : Nat) (cs : List CArg) (s : NS S) : NS S :=
  match rangeExec E v i cs (ready s) with
  | some (.ok (_, s')) => s'
  | _ => s

/-- The insertion returns. -/
def okR (E : ElemOps S) (v : Ptr) (i : Nat) (cs : List CArg) (s : NS S) : Bool :=
  match rangeExec E v i cs (ready s) with
  | some (.ok (.unit, _)) => true
  | _ => false

theorem runsR {E : ElemOps S} {s : NS S} {v : Ptr} {i : Nat} {cs : List CArg} (h : okR E v i cs s = true) :
    Runs (rangeExec E v i cs) (ready s) .unit (goR E v i cs s) := by
  unfold okR at h
  unfold goR Runs
  split at h
  · rename_i s' e
    rw [e]
  · cases h

theorem isObj {s : NS Boxes} {t : Ptr} {a : Nat} (h : s.i.box t = some a) : CArg.Is Elem.box s (.obj t) a := h
theorem isElem {s : NS Boxes} {u q : Ptr} {j a : Nat} {qs : List Ptr} (ho : Objs s u qs) (hq : qs[j]? = some q) (h : s.i.box q = some a) :
    CArg.Is Elem.box s (.elem u j) a := ⟨qs, q, ho, hq, h⟩
theorem argObj {s : NS Boxes} {v t : Ptr} (h1 : s.i.box t ≠ none) (h2 : ¬ IsElem s t) :
    VC.ArgOk s.o (CArg.obj t).addr ∧ VC.Foreign v (CArg.obj t).addr ∧ ∀ q, (CArg.obj t).uses q → Elem.box.val s.i q ≠ none ∧ ¬ IsElem s q :=
  ⟨trivial, trivial, by rintro q rfl; exact ⟨h1, h2⟩⟩
theorem argElem {s : NS Boxes} {u v : Ptr} {j : Nat} {qs : List Ptr} (h1 : VC.Alive s.o u) (h2 : Objs s u qs) (h3 : j < qs.length) (h4 : u ≠ v) :
    VC.ArgOk s.o (CArg.elem u j).addr ∧ VC.Foreign v (CArg.elem u j).addr ∧
      ∀ q, (CArg.elem u j).uses q → Elem.box.val s.i q ≠ none ∧ ¬ IsElem s q :=
  ⟨⟨h1, qs, h2, h3⟩, h4, fun _ h => h.elim⟩

/-- Enough copies. -/
def f6 : NS Boxes := ⟨c6.o, { c6.i with left := 30 }⟩
theorem rf6 : Reach Elem.box f6 := more rc6 30
theorem of6 : Objs f6 v [.stk 3, .stk 8, .stk 7] := objs rf6 (alive (by decide +kernel)) (by decide +kernel)
theorem of6u : Objs f6 u [.stk 5, .stk 6] := objs rf6 (alive (by decide +kernel)) (by decide +kernel)
theorem valf6 : Values Elem.box f6 v [7, 7, 8] := values of6 (by decide +kernel)
/-- Elements of the other vector and a box, in front of the second element. -/
def f7 : NS Boxes := goR boxOps v 1 [.elem u 1, .obj (.stk 0), .elem u 0] f6
theorem vf6 : RangeValid Elem.box f6 v 1 [.elem u 1, .obj (.stk 0), .elem u 0] := by
  refine ⟨alive (by decide +kernel), ⟨_, of6, by decide⟩, fun c hc => ?_⟩
  have hu : VC.Alive f6.o u := alive (by decide +kernel)
  simp only [List.mem_cons, List.not_mem_nil, or_false] at hc
  rcases hc with rfl | rfl | rfl
  · exact argElem hu of6u (by decide) (by decide)
  · exact argObj (by decide +kernel) (notElem rf6 (by decide +kernel))
  · exact argElem hu of6u (by decide) (by decide)
theorem runf6 : Runs (rangeExec boxOps v 1 [.elem u 1, .obj (.stk 0), .elem u 0]) (ready f6) .unit f7 := runsR (by decide +kernel)
theorem allf6 : AreAll Elem.box f6 [.elem u 1, .obj (.stk 0), .elem u 0] [8, 7, 7] :=
  ⟨isElem (q := .stk 6) of6u rfl (by decide +kernel), isObj (by decide +kernel), isElem (q := .stk 5) of6u rfl (by decide +kernel), trivial⟩

/-- One copy is left: the second box cannot be appended. -/
def q6 : NS Boxes := goR boxOps v 2 [.obj (.stk 0), .obj (.stk 0)] s5
theorem vq5 : RangeValid Elem.box s5 v 2 [.obj (.stk 0), .obj (.stk 0)] := by
  refine ⟨alive (by decide +kernel), ⟨_, o5, by decide⟩, fun c hc => ?_⟩
  have : c = .obj (.stk 0) := by simpa using hc
  subst this
  exact argObj (by decide +kernel) (notElem r5 (by decide +kernel))
theorem runq5 : Runs (rangeExec boxOps v 2 [.obj (.stk 0), .obj (.stk 0)]) (ready s5) .unit q6 := runsR (by decide +kernel)
theorem allq5 : AreAll Elem.box s5 [.obj (.stk 0), .obj (.stk 0)] [7, 7] :=
  ⟨isObj (by decide +kernel), isObj (by decide +kernel), trivial⟩

/-- One copy is left: the insertion in front of the first element breaks the vector. -/
def e7 : NS Boxes := goR boxOps v 0 [.obj (.stk 0)] s5
theorem vre5 : RangeValid Elem.box s5 v 0 [.obj (.stk 0)] := by
  refine ⟨alive (by decide +kernel), ⟨_, o5, by decide⟩, fun c hc => ?_⟩
  have : c = .obj (.stk 0) := by simpa using hc
  subst this
  exact argObj (by decide +kernel) (notElem r5 (by decide +kernel))
theorem runre5 : Runs (rangeExec boxOps v 0 [.obj (.stk 0)]) (ready s5) .unit e7 := runsR (by decide +kernel)

end Nestl.VO.Demo
