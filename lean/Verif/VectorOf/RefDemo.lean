import Verif.VectorOf.NestDemo
set_option autoImplicit false
/-
Concrete reachable states used by the examples beside the theorems of C102 and C103.
-/
namespace Nestl.VO.Demo
open Nestl.Vec (ElemSize)

/-- There is room for a third element and one copy left; then there is none. -/
def a6 : NS Boxes := go boxOps (.pushBack v (.obj (.stk 0))) s5
def a7 : NS Boxes := go boxOps (.resize v 1 .fresh) a6
def a8 : NS Boxes := go boxOps (.pushBack v (.obj (.stk 0))) a7

theorem va5 : Valid Elem.box s5 (.pushBack v (.obj (.stk 0))) :=
  ⟨⟨alive (by decide +kernel), trivial, .inl trivial⟩, fun q hq => by
    cases (show q = .stk 0 from hq); exact ⟨live (by decide +kernel), notElem r5 (by decide +kernel)⟩⟩
theorem ra6 : Reach Elem.box a6 := step r5 va5 (by decide +kernel)
theorem oa6 : Objs a6 v [.stk 3, .stk 4, .stk 7] := objs ra6 (alive (by decide +kernel)) (by decide +kernel)
theorem va6 : Valid Elem.box a6 (.resize v 1 .fresh) :=
  ⟨⟨alive (by decide +kernel), trivial, by unfold VC.Countable; decide, .inl trivial⟩, fun _ h => h.elim⟩
theorem ra7 : Reach Elem.box a7 := step ra6 va6 (by decide +kernel)
theorem oa7 : Objs a7 v [.stk 3] := objs ra7 (alive (by decide +kernel)) (by decide +kernel)
theorem va7 : Valid Elem.box a7 (.pushBack v (.obj (.stk 0))) :=
  ⟨⟨alive (by decide +kernel), trivial, .inl trivial⟩, fun q hq => by
    cases (show q = .stk 0 from hq); exact ⟨live (by decide +kernel), notElem ra7 (by decide +kernel)⟩⟩
theorem ra8 : Reach Elem.box a8 := step ra7 va7 (by decide +kernel)
theorem oa8 : Objs a8 v [.stk 3] := objs ra8 (alive (by decide +kernel)) (by decide +kernel)

theorem cap {s : NS Boxes} {v : Ptr} {n : Nat} (h : (match Vec.capacity v s.o with | some (.ok (m, _)) => some m | _ => none) = some n)
    (ha : VC.Alive s.o v) (hr : Reach Elem.box s) : VC.HasCap s.o v n := by
  obtain ⟨σ, hi⟩ := hr.inv
  obtain ⟨x, hx⟩ := (VC.alive_iff hi.outer).1 ha
  have h1 : Vec.capacity v s.o = some (.ok (x.cap, s.o)) := (VC.hasCap_iff hi.outer hx).2 rfl
  rw [h1] at h; cases h
  exact h1

theorem data {s : NS Boxes} {v p : Ptr} (h : (match Vec.begin_ v s.o with | some (.ok (m, _)) => some m | _ => none) = some p)
    (ha : VC.Alive s.o v) (hr : Reach Elem.box s) : VC.HasData s.o v p := by
  obtain ⟨σ, hi⟩ := hr.inv
  obtain ⟨x, hx⟩ := (VC.alive_iff hi.outer).1 ha
  have h1 : Vec.begin_ v s.o = some (.ok (x.start, s.o)) := (VC.hasData_iff hi.outer hx).2 rfl
  rw [h1] at h; cases h
  exact h1

theorem spare5 : VC.Spare s5.o v := ⟨_, 3, o5, cap (by decide +kernel) (alive (by decide +kernel)) r5, by decide⟩
theorem spare7 : VC.Spare a7.o v := ⟨_, 3, oa7, cap (by decide +kernel) (alive (by decide +kernel)) ra7, by decide⟩

/-- The client uses up copies: one is left. -/
def b3 : NS Boxes := ⟨s3.o, { s3.i with left := 1 }⟩
def b4 : NS Boxes := go boxOps (.pushBack v (.obj (.stk 0))) b3

theorem rb3 : Reach Elem.box b3 := by
  obtain ⟨σ, h⟩ := r3.inv
  refine .client (s := s3) r3 h.inv fun q hq => ?_
  obtain ⟨t, x, h1, h2⟩ := h.owned.1 (h.isElem.1 hq)
  exact h.live _ _ _ h1 h2
theorem vb3 : Valid Elem.box b3 (.pushBack v (.obj (.stk 0))) :=
  ⟨⟨alive (by decide +kernel), trivial, .inl trivial⟩, fun q hq => by
    cases (show q = .stk 0 from hq); exact ⟨live (by decide +kernel), notElem rb3 (by decide +kernel)⟩⟩
theorem rb4 : Reach Elem.box b4 := step rb3 vb3 (by decide +kernel)

/-- No memory. -/
def z0 : NS Boxes := ⟨VC.start { env with addr := fun _ => none }, s0.i⟩
def z1 : NS Boxes := go boxOps (.create 0) z0
def z2 : NS Boxes := go boxOps (.pushBack v (.obj (.stk 0))) z1

theorem rz0 : Reach Elem.box z0 := by
  obtain ⟨σ, h⟩ := r0.inv
  exact .start h.inv
theorem rz1 : Reach Elem.box z1 := step rz0 ⟨trivial, fun _ h => h.elim⟩ (by decide +kernel)
theorem vz1 : Valid Elem.box z1 (.pushBack v (.obj (.stk 0))) :=
  ⟨⟨alive (by decide +kernel), trivial, .inl trivial⟩, fun q hq => by
    cases (show q = .stk 0 from hq); exact ⟨live (by decide +kernel), notElem rz1 (by decide +kernel)⟩⟩

theorem shared_copy {q : Ptr} {i i' : SP.W Nat} {e : Err} : ¬ Runs (sharedOps.copy q) i (.error e) i' := by
  intro h
  obtain ⟨_, _, -, h⟩ := runs_bind_iff.1 h
  obtain ⟨_, _, -, h⟩ := runs_bind_iff.1 h
  cases h

end Nestl.VO.Demo
