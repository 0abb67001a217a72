import Verif.VectorOf.Lists
import Verif.VectorOf.Shared
set_option autoImplicit false
/-
Concrete reachable states used by the examples beside the theorems on nested containers.
-/
namespace Nestl.VO.Demo
open Nestl.Vec (ElemSize)

/-! ### A vector of vectors of boxes -/

/-- The client has the two vectors of boxes of `s5`. -/
def n0 : NS (NS Boxes) := ⟨VC.start env, s5⟩
/-- An outer vector. -/
def n1 : NS (NS Boxes) := go (vecOps boxOps) (.create 0) n0
/-- The first inner vector is moved into it. -/
def n2 : NS (NS Boxes) := go (vecOps boxOps) (.pushMove v v) n1
/-- The second one is to be copied into it, but a box refuses to be copied. -/
def n3 : NS (NS Boxes) := go (vecOps boxOps) (.pushBack v (.obj u)) n2

theorem nr0 : Reach (Elem.vector Elem.box) n0 := .start r5.inv
theorem nr1 : Reach (Elem.vector Elem.box) n1 := step nr0 ⟨trivial, fun _ h => h.elim⟩ (by decide +kernel)
theorem nv1 : Valid (Elem.vector Elem.box) n1 (.pushMove v v) :=
  ⟨⟨alive (by decide +kernel), trivial, .inl trivial⟩, by
    rintro q rfl; exact ⟨live (by decide +kernel), notElem nr1 (by decide +kernel)⟩⟩
theorem nr2 : Reach (Elem.vector Elem.box) n2 := step nr1 nv1 (by decide +kernel)
theorem nv2 : Valid (Elem.vector Elem.box) n2 (.pushBack v (.obj u)) :=
  ⟨⟨alive (by decide +kernel), trivial, .inl trivial⟩, by
    rintro q rfl; exact ⟨live (by decide +kernel), notElem nr2 (by decide +kernel)⟩⟩
theorem nr3 : Reach (Elem.vector Elem.box) n3 := step nr2 nv2 (by decide +kernel)

theorem no2 : Objs n2 v [.stk 3] := objs nr2 (alive (by decide +kernel)) (by decide +kernel)
theorem nvals2 : Values (Elem.vector Elem.box) n2 v [[7, 8]] := values no2 (by decide +kernel)
theorem no3 : Objs n3 v [.stk 3] := objs nr3 (alive (by decide +kernel)) (by decide +kernel)
theorem nvals3 : Values (Elem.vector Elem.box) n3 v [[7, 8]] := values no3 (by decide +kernel)
theorem nerr3 : n3.o.err.isSome = true := by decide +kernel

theorem nelem2 : IsElem n2 (.stk 3) := ⟨v, _, alive (by decide +kernel), no2, by simp⟩
theorem nclear2 : Valid Elem.box n2.i (.clear (.stk 3)) := ⟨alive (by decide +kernel), fun _ h => h.elim⟩

theorem NInv.budget {s : NS Boxes} {σ : Vec.Sg Ptr} (h : NInv Elem.box s σ) (k : Nat) :
    NInv Elem.box ⟨s.o, ⟨s.i.box, s.i.next, k⟩⟩ σ := ⟨h.outer, h.inv, h.live, h.uniq⟩

theorem Reach.budget {s : NS (NS Boxes)} (hr : Reach (Elem.vector Elem.box) s) (k : Nat) :
    Reach (Elem.vector Elem.box) ⟨s.o, ⟨s.i.o, ⟨s.i.i.box, s.i.i.next, k⟩⟩⟩ := by
  obtain ⟨σ, h⟩ := hr.inv
  obtain ⟨τ, h2⟩ := h.inv
  refine .client hr ⟨τ, NInv.budget h2 k⟩ ?_
  intro q hq
  obtain ⟨t, x, k1, k2⟩ := h.owned.1 (h.isElem.1 hq)
  exact h.live _ _ _ k1 k2

/-- From now on, boxes can be copied. -/
def n4 : NS (NS Boxes) := ⟨n2.o, ⟨n2.i.o, ⟨n2.i.i.box, n2.i.i.next, 50⟩⟩⟩
theorem nr4 : Reach (Elem.vector Elem.box) n4 := Reach.budget nr2 50
/-- `v.emplace_back_nothrow(err)` -/
def n5 : NS (NS Boxes) := go (vecOps boxOps) (.pushBack v .fresh) n4
theorem nv4 : Valid (Elem.vector Elem.box) n4 (.pushBack v .fresh) :=
  ⟨⟨alive (by decide +kernel), trivial, .inl trivial⟩, fun _ h => h.elim⟩
theorem nrun4 : ∃ r, Runs (exec (vecOps boxOps) (.pushBack v .fresh)) (ready n4) r n5 := runs (by decide +kernel)
theorem no4 : Objs n4 v [.stk 3] := objs nr4 (alive (by decide +kernel)) (by decide +kernel)

/-- The elements of an inner vector. -/
theorem objs2 {s : NS (NS Boxes)} {w : Ptr} {L : List Ptr} (hr : Reach (Elem.vector Elem.box) s) (ha : VC.Alive s.i.o w)
    (h : elems s.i w = some L) : Objs s.i w L := by
  obtain ⟨σ, hi⟩ := hr.inv
  obtain ⟨τ, hi⟩ := hi.inv
  obtain ⟨x, hx⟩ := (VC.alive_iff hi.outer).1 ha
  have h1 : VC.Contents s.i.o w x.els := (VC.contents_iff hi.outer hx).2 rfl
  unfold elems at h
  rw [show VC.walk w s.i.o = _ from h1] at h
  cases h
  exact h1

theorem no4i : Objs n4.i (.stk 3) [.stk 3, .stk 4] := objs2 nr4 (alive (by decide +kernel)) (by decide +kernel)

/-- The outer vector is destroyed, with its elements; then the client destroys its inner vectors. -/
def n6 : NS (NS Boxes) := go (vecOps boxOps) (.destroy v) n2
def n6' : NS (NS Boxes) := ⟨n6.o, go boxOps (.destroy v) n6.i⟩
def n7 : NS (NS Boxes) := ⟨n6'.o, go boxOps (.destroy u) n6'.i⟩
theorem nr6 : Reach (Elem.vector Elem.box) n6 := step nr2 ⟨alive (by decide +kernel), fun _ h => h.elim⟩ (by decide +kernel)
theorem ngone6 : ∀ v, ¬ VC.Alive n6.o v := gone nr6 (by decide +kernel)

theorem inner {s : NS (NS Boxes)} (hr : Reach (Elem.vector Elem.box) s) (hg : ∀ v, ¬ VC.Alive s.o v) {c : Call}
    (hv : Valid Elem.box s.i c) (h : okB boxOps c s.i = true) : Reach (Elem.vector Elem.box) ⟨s.o, go boxOps c s.i⟩ := by
  obtain ⟨σ, hi⟩ := hr.inv
  obtain ⟨τ, h2⟩ := hi.inv
  obtain ⟨c', hm⟩ := Call.Means.exists (blank := Elem.box.blank) fun q hq => (hv.2 q hq).1
  obtain ⟨r, i', τ', h3, h4, -⟩ := h2.call hv hm
  obtain ⟨r', h5⟩ := runs h
  obtain ⟨-, rfl⟩ := Runs.det h3 h5
  refine .client hr ⟨τ', h4⟩ ?_
  rintro q ⟨v, qs, h6, -⟩
  exact (hg v h6).elim

theorem nd6 : Valid Elem.box n6.i (.destroy v) := ⟨alive (by decide +kernel), fun _ h => h.elim⟩
theorem nok6 : okB boxOps (.destroy v) n6.i = true := by decide +kernel
theorem nr6' : Reach (Elem.vector Elem.box) n6' := inner nr6 ngone6 nd6 nok6
theorem ngone6' : ∀ v, ¬ VC.Alive n6'.o v := gone nr6' (by decide +kernel)
theorem nd6' : Valid Elem.box n6'.i (.destroy u) := ⟨alive (by decide +kernel), fun _ h => h.elim⟩
theorem nok6' : okB boxOps (.destroy u) n6'.i = true := by decide +kernel
theorem nr7 : Reach (Elem.vector Elem.box) n7 := inner nr6' ngone6' nd6' nok6'
theorem ngone7 : ∀ v, ¬ VC.Alive n7.o v := gone nr7 (by decide +kernel)
theorem ngone7i : ∀ v, ¬ VC.Alive n7.i.o v := by
  rintro v ⟨i, rfl, h1⟩
  obtain ⟨σ, hi⟩ := nr7.inv
  obtain ⟨τ, hi⟩ := hi.inv
  have h5 : i < n7.i.o.sp := by
    refine Classical.byContradiction fun hn => ?_
    obtain ⟨x, hx⟩ := (VC.alive_iff hi.outer).1 ⟨i, rfl, h1⟩
    have := hi.outer.top i (by omega)
    rw [hx] at this; cases this
  have h : ((List.range n7.i.o.sp).all fun i => !(n7.i.o.heap (.stk i)).isSome) = true := by decide +kernel
  have h7 := List.all_eq_true.1 h i (List.mem_range.2 h5)
  cases e : n7.i.o.heap (.stk i) with
  | none => exact h1 e
  | some x => rw [e] at h7; cases h7

/-! ### A vector of lists -/

/-- Unlimited memory. -/
def lenv : Env (LL.LNode Nat) := { addr := fun n => some n, ctor := fun _ => true, junk := fun _ => ⟨.null, .null, none, 0⟩ }

def l0 : NS (LL.W Nat) := ⟨VC.start env, LC.start lenv⟩
def l1 : NS (LL.W Nat) := go listOps (.create 0) l0
/-- `v.emplace_back_nothrow(err)` -/
def l2 : NS (LL.W Nat) := go listOps (.pushBack v .fresh) l1

theorem lr0 : Reach Elem.list l0 := .start ((LC.Hist.start (env := lenv)).sim.imp fun _ h => h.2)
theorem lr1 : Reach Elem.list l1 := step lr0 ⟨trivial, fun _ h => h.elim⟩ (by decide +kernel)
theorem lr2 : Reach Elem.list l2 :=
  step lr1 ⟨⟨alive (by decide +kernel), trivial, .inl trivial⟩, fun _ h => h.elim⟩ (by decide +kernel)
theorem lo2 : IsElem l2 (.stk 0) :=
  ⟨v, [.stk 0], alive (by decide +kernel), objs lr2 (alive (by decide +kernel)) (by decide +kernel), by simp⟩
/-- `v[0].push_back_nothrow(err, 5)` -/
theorem lv2 : LC.Valid l2.i (.pushBack (.stk 0) 5) := ⟨0, rfl, by
  have : (l2.i.heap (.stk 0)).isSome = true := by decide +kernel
  intro e; rw [e] at this; cases this⟩

/-! ### A vector of `shared_ptr` -/

/-- A `shared_ptr` to an object with the value 10. -/
def h1 : SP.W Nat := SP.Demo.go (.makeShared 0 10 []) (SP.start SP.Demo.env)
def h2 : NS (SP.W Nat) := ⟨VC.start env, h1⟩
def h3 : NS (SP.W Nat) := go sharedOps (.create 0) h2
def h4 : NS (SP.W Nat) := go sharedOps (.pushBack v (.obj (.stk 0))) h3

theorem hr1 : SP.Reach h1 := .step (r := some (.stk 0)) (.start SP.Demo.env) (c := .makeShared 0 10 []) trivial rfl
theorem noWeak1 : NoWeak h1 := ⟨hr1, by
  rintro b i z ⟨c, o, h1, h2, h3⟩
  rcases b with _ | j | j
  · cases h1
  · rcases j with _ | j <;> cases h1
  · rcases j with _ | j
    · cases h1; cases h2; cases h3
    · cases h1⟩
theorem hr2 : Reach Elem.shared h2 := .start ⟨noWeak1, fun _ _ _ => trivial⟩
theorem hr3 : Reach Elem.shared h3 := step hr2 ⟨trivial, fun _ h => h.elim⟩ (by decide +kernel)
theorem hv3 : Valid Elem.shared h3 (.pushBack v (.obj (.stk 0))) :=
  ⟨⟨alive (by decide +kernel), trivial, .inl trivial⟩, by
    rintro q rfl; exact ⟨live (by decide +kernel), notElem hr3 (by decide +kernel)⟩⟩
theorem hrun3 : ∃ r, Runs (exec sharedOps (.pushBack v (.obj (.stk 0)))) (ready h3) r h4 := runs (by decide +kernel)
theorem hr4 : Reach Elem.shared h4 := step hr3 hv3 (by decide +kernel)
theorem ho4 : IsElem h4 (.stk 1) :=
  ⟨v, [.stk 1], alive (by decide +kernel), objs hr4 (alive (by decide +kernel)) (by decide +kernel), by simp⟩
theorem hval4 : sharedVal h4.i (.stk 1) = some ⟨.dyn 0, .dyn 0⟩ := by decide +kernel

end Nestl.VO.Demo
