import Verif.VectorOf.InsertLemmas
set_option autoImplicit false
/-
Concrete reachable states used by the examples beside the theorems of C104.
-/
namespace Nestl.VO.Demo
open Nestl.Vec (ElemSize)
variable {S A X : Type} {E : Elem S A X}

/-- The state after an insertion. -/
def goI (E : ElemOps S) (v : Ptr) (i : Nat) (x : Ins) (s : NS S) : NS S :=
  match insExec E v i x (ready s) with
  | some (.ok (_, s')) => s'
  | _ => s

/-- The insertion returns `r`. -/
def okI (E : ElemOps S) (v : Ptr) (i : Nat) (x : Ins) (s : NS S) (n : Nat) : Bool :=
  match insExec E v i x (ready s) with
  | some (.ok (.pos m, _)) => m == n
  | _ => false

theorem runsI {E : ElemOps S} {s : NS S} {v : Ptr} {i n : Nat} {x : Ins} (h : okI E v i x s n = true) :
    Runs (insExec E v i x) (ready s) (.pos n) (goI E v i x s) := by
  unfold okI at h
  unfold goI Runs
  split at h
  · rename_i m s' e
    rw [e]
    obtain rfl : m = n := by simpa using h
    rfl
  · cases h

theorem more {s : NS Boxes} (hr : Reach Elem.box s) (n : Nat) : Reach Elem.box ⟨s.o, { s.i with left := n }⟩ := by
  obtain ⟨σ, h⟩ := hr.inv
  refine .client hr (i := { s.i with left := n }) h.inv fun q hq => ?_
  obtain ⟨t, x, h1, h2⟩ := h.owned.1 (h.isElem.1 hq)
  exact h.live _ _ _ h1 h2

/-- The client lets more copies succeed. -/
def c5 : NS Boxes := ⟨s5.o, { s5.i with left := 4 }⟩
theorem rc5 : Reach Elem.box c5 := more r5 4
theorem oc5 : Objs c5 v [.stk 3, .stk 4] := objs rc5 (alive (by decide +kernel)) (by decide +kernel)
theorem oc5u : Objs c5 u [.stk 5, .stk 6] := objs rc5 (alive (by decide +kernel)) (by decide +kernel)
theorem capc5 : VC.HasCap c5.o v 3 := cap (by decide +kernel) (alive (by decide +kernel)) rc5
theorem sparec5 : VC.Spare c5.o v := ⟨_, 3, oc5, capc5, by decide⟩

/-- A copy of the first box is inserted in front of the second element. -/
def c6 : NS Boxes := goI boxOps v 1 (.copy (.obj (.stk 0))) c5
theorem vc5 : InsValid Elem.box c5 v 1 (.copy (.obj (.stk 0))) :=
  ⟨alive (by decide +kernel), ⟨_, oc5, by decide⟩, trivial, .inl trivial, fun q hq => by
    cases (show q = .stk 0 from hq); exact ⟨live (by decide +kernel), notElem rc5 (by decide +kernel)⟩⟩
theorem runc5 : Runs (insExec boxOps v 1 (.copy (.obj (.stk 0)))) (ready c5) (.pos 1) c6 := runsI (by decide +kernel)
theorem rc6 : Reach Elem.box c6 := .insert rc5 vc5 runc5 (.inl (by decide +kernel))
theorem oc6 : Objs c6 v [.stk 3, .stk 8, .stk 7] := objs rc6 (alive (by decide +kernel)) (by decide +kernel)
theorem valc6 : Values Elem.box c6 v [7, 7, 8] := values oc6 (by decide +kernel)
theorem capc6 : VC.HasCap c6.o v 3 := cap (by decide +kernel) (alive (by decide +kernel)) rc6

/-- A copy of the element in front of the position. -/
theorem vc5e : InsValid Elem.box c5 v 1 (.copy (.elem v 0)) :=
  ⟨alive (by decide +kernel), ⟨_, oc5, by decide⟩, ⟨alive (by decide +kernel), _, oc5, by decide⟩, .inr ⟨sparec5, 0, rfl, by decide⟩, fun _ h => h.elim⟩

/-- The first box is moved in front of the first element; the block is full. -/
theorem vc6 : InsValid Elem.box c6 v 0 (.move (.stk 0)) :=
  ⟨alive (by decide +kernel), ⟨_, oc6, by decide⟩, trivial, .inl trivial, fun q hq => by
    cases (show q = .stk 0 from hq); exact ⟨live (by decide +kernel), notElem rc6 (by decide +kernel)⟩⟩
/-- More copies. -/
def d6 : NS Boxes := ⟨c6.o, { c6.i with left := 9 }⟩
theorem rd6 : Reach Elem.box d6 := more rc6 9
theorem od6 : Objs d6 v [.stk 3, .stk 8, .stk 7] := objs rd6 (alive (by decide +kernel)) (by decide +kernel)
theorem vd6 : InsValid Elem.box d6 v 0 (.move (.stk 0)) :=
  ⟨alive (by decide +kernel), ⟨_, od6, by decide⟩, trivial, .inl trivial, fun q hq => by
    cases (show q = .stk 0 from hq); exact ⟨live (by decide +kernel), notElem rd6 (by decide +kernel)⟩⟩
def d7 : NS Boxes := goI boxOps v 0 (.move (.stk 0)) d6
theorem rund6 : Runs (insExec boxOps v 0 (.move (.stk 0))) (ready d6) (.pos 0) d7 := runsI (by decide +kernel)
theorem rd7 : Reach Elem.box d7 := .insert rd6 vd6 rund6 (.inl (by decide +kernel))

/-- One copy is left: the insertion in front of the first element moves the last one and fails with the next. -/
def e6 : NS Boxes := goI boxOps v 0 (.copy (.obj (.stk 0))) s5
theorem ve5 : InsValid Elem.box s5 v 0 (.copy (.obj (.stk 0))) :=
  ⟨alive (by decide +kernel), ⟨_, o5, by decide⟩, trivial, .inl trivial, fun q hq => by
    cases (show q = .stk 0 from hq); exact ⟨live (by decide +kernel), notElem r5 (by decide +kernel)⟩⟩
theorem rune5 : Runs (insExec boxOps v 0 (.copy (.obj (.stk 0)))) (ready s5) (.pos 2) e6 := runsI (by decide +kernel)

/-! ### Vectors of `shared_ptr` -/

/-- A vector of `shared_ptr`; the second request for memory is refused. -/
def g2 : NS (SP.W Nat) := ⟨VC.start { env with addr := fun n => if n = 0 then some 0 else none }, h1⟩
def g3 : NS (SP.W Nat) := go sharedOps (.create 0) g2
def g4 : NS (SP.W Nat) := go sharedOps (.pushBack v (.obj (.stk 0))) g3
def g5 : NS (SP.W Nat) := goI sharedOps v 0 (.copy (.obj (.stk 0))) g4
theorem rg2 : Reach Elem.shared g2 := .start ⟨noWeak1, fun _ _ _ => trivial⟩
theorem rg3 : Reach Elem.shared g3 := step rg2 ⟨trivial, fun _ h => h.elim⟩ (by decide +kernel)
theorem rg4 : Reach Elem.shared g4 := step rg3 ⟨⟨alive (by decide +kernel), trivial, .inl trivial⟩, by
  rintro q rfl; exact ⟨live (by decide +kernel), notElem rg3 (by decide +kernel)⟩⟩ (by decide +kernel)
theorem og4 : Objs g4 v [.stk 1] := objs rg4 (alive (by decide +kernel)) (by decide +kernel)
theorem vg4 : InsValid Elem.shared g4 v 0 (.copy (.obj (.stk 0))) :=
  ⟨alive (by decide +kernel), ⟨_, og4, by decide⟩, trivial, .inl trivial, by
    rintro q rfl; exact ⟨live (by decide +kernel), notElem rg4 (by decide +kernel)⟩⟩
theorem rung4 : Runs (insExec sharedOps v 0 (.copy (.obj (.stk 0)))) (ready g4) (.pos 1) g5 := runsI (by decide +kernel)

end Nestl.VO.Demo
