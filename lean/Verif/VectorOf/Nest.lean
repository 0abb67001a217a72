import Verif.VectorOf.Props
set_option autoImplicit false
/-
C96: vectors are an element class; so vectors can be nested to any depth.
-/
namespace Nestl.VO
open Nestl.Vec (W Obj Blk VCell Sg ElemSize newVec)
open Classical
variable {S A X : Type}

/-! ### Model -/

/-- The caller passes a fresh error object. -/
def clearErr : M (NS S) Unit := fun s => some (.ok ((), ready s))

/-- The error reported last. -/
def theErr : M (NS S) (Option Err) := fun s => some (.ok (s.o.err, s))

/-- `vector()`: vector.hpp:259-266. -/
def vecMake : M (NS S) Ptr := do
  clearErr
  onO (newVec Vec.defaultAlloc)

/-- Construction of a copy by 2-phase initialization: class_operations.hpp:41-65 with `destruction_scoped_guard`
(destroy.hpp:33-58); `two_phase_initializator<vector>` calls `copy_nothrow`: vector.hpp:211-221.
By intent: the function of that specialisation is named `construct`, while class_operations.hpp:45-58 looks for one named `init`;
it is taken to be `init` (as in list.hpp:622-633), as otherwise vectors cannot be copied into containers at all. -/
def vecCopy [ElemSize Ptr] (E : ElemOps S) (t : Ptr) : M (NS S) (Except Err Ptr) := do
  clearErr
  let d ← onO (newVec Vec.defaultAlloc)
  copyNothrow E d t
  match (← theErr) with
  | none => pure (.ok d)                        -- guard.release()
  | some e => do
    clearErr
    destroyVec E d                              -- ~guard
    pure (.error e)

/-- `vector(vector&&)`: vector.hpp:269-277. -/
def vecMove (t : Ptr) : M (NS S) Ptr := do
  clearErr
  onO (Vec.moveCtor t)

/-- `~vector()`: vector.hpp:279-284. -/
def vecDrop (E : ElemOps S) (t : Ptr) : M (NS S) Unit := do
  clearErr
  destroyVec E t

/-- The operations of `vector<T>` as an element class. -/
def vecOps [ElemSize Ptr] (E : ElemOps S) : ElemOps (NS S) := ⟨vecMake, vecCopy E, vecMove, vecDrop E⟩

/-! ### The contract -/

/-- The values of the elements of the vector `v`. -/
def vecVal (E : Elem S A X) (s : NS S) (v : Ptr) : Option (List A) :=
  match s.o.heap v with
  | some (.obj o) => some ((elsAt s.o o.start).filterMap (E.val s.i))
  | _ => none

variable [ElemSize Ptr] {E : Elem S A X} {s : NS S} {σ : Sg Ptr}

omit [ElemSize Ptr] in
theorem filterMap_slotsOf (xs : List Ptr) (n : Nat) : (Vec.slotsOf xs n).filterMap id = xs := by
  unfold Vec.slotsOf
  rw [List.filterMap_append, List.filterMap_map]
  simp

theorem NInv.vecVal (h : NInv E s σ) (v : Ptr) : vecVal E s v = (seqs E s.i σ v).map Prod.snd := by
  unfold VO.vecVal
  cases hx : σ v with
  | none =>
    have : seqs E s.i σ v = none := by simp [seqs, VC.abs, VO.lift, hx]
    rw [this]
    cases hh : s.o.heap v with
    | none => rfl
    | some c =>
      cases c with
      | blk b => rfl
      | obj o =>
        rcases h.outer.st.cover v (by rw [hh]; simp) with h1 | ⟨t, u, h1, rfl, h2⟩
        · exact (h1 hx).elim
        · rcases (h.outer.st.ok _ _ h1).blk with ⟨h3, -⟩ | ⟨-, h3⟩
          · exact (h2 h3).elim
          · rw [hh] at h3; cases h3
  | some x =>
    have h1 := (h.outer.st.obj _ _ hx).2
    have h2 : elsAt s.o x.start = x.els := by
      unfold elsAt
      have hok := h.outer.st.ok _ _ hx
      rcases hok.blk with ⟨h3, h4⟩ | ⟨-, h3⟩
      · rw [h3, h.outer.st.null]
        have := hok.len
        exact (List.eq_nil_of_length_eq_zero (by omega)).symm
      · rw [h3]; exact filterMap_slotsOf _ _
    rw [h1]
    simp only [Vec.Vec.obj, h2]
    simp [seqs, VC.abs, VO.lift, hx]

theorem NInv.vecAlive (h : NInv E s σ) {v : Ptr} (hv : VO.vecVal E s v ≠ none) : VC.Alive s.o v := by
  rw [VC.alive_iff h.outer]
  rw [h.vecVal v] at hv
  cases hx : σ v with
  | none => simp [seqs, VC.abs, VO.lift, hx] at hv
  | some x => exact ⟨x, rfl⟩

omit [ElemSize Ptr] in
theorem runs_clearErr {α : Type} {f : Unit → M (NS S) α} {r : α} {s' : NS S} :
    Runs (clearErr >>= f) s r s' ↔ Runs (f ()) (ready s) r s' := by
  rw [runs_bind_iff]
  constructor
  · rintro ⟨_, _, h1, h2⟩; cases h1; exact h2
  · intro h; exact ⟨_, _, rfl, h⟩

/-- A call whose result is a new vector. -/
theorem runs_obj {m : M (NS S) Ptr} {r : VC.Res} {s s' : NS S} (h : Runs (do pure (VC.Res.obj (← m))) s r s') :
    ∃ d, r = .obj d ∧ Runs m s d s' := by
  obtain ⟨d, t, h1, h2⟩ := runs_bind_iff.1 h
  cases h2
  exact ⟨d, rfl, h1⟩

theorem runs_unit {m : M (NS S) Unit} {r : VC.Res} {s s' : NS S} (h : Runs (do m; pure VC.Res.unit) s r s') : Runs m s () s' := by
  obtain ⟨d, t, h1, h2⟩ := runs_bind_iff.1 h
  cases h2
  exact h1

theorem NInv.create (h : NInv E s σ) (a : Nat) : ∃ d s' σ', Runs (onO (newVec a)) (VO.ready s) d s' ∧ NInv E s' σ' ∧ s'.o.err = none ∧
    outside E s' = outside E s ∧ VO.vecVal E s d = none ∧ VO.vecVal E s' = upd (VO.vecVal E s) d (some []) := by
  obtain ⟨r, s', σ', h1, h2, h3, h4⟩ := h.ready.step rfl (c := .create a) (c' := .create a) trivial rfl
  obtain ⟨d, rfl, h5⟩ := runs_obj h1
  obtain ⟨k1, d', k2, k3, k4⟩ := h4
  cases k2
  refine ⟨d, s', σ', h5, h2, VC.isSome_false.1 k1, h3, ?_, ?_⟩
  · rw [h.vecVal]
    have : seqs E s.i σ d = none := k3
    rw [this]; rfl
  · funext v
    rw [h2.vecVal, k4, upd_apply, upd_apply, h.vecVal]
    split <;> rfl

/-- The contract of vectors. -/
noncomputable def Elem.vector (E : Elem S A X) : Elem (NS S) (List A) ((Ptr → Option A) × X) where
  toElemOps := vecOps E.toElemOps
  inv s := ∃ σ, NInv E s σ
  val := vecVal E
  rest := outside E
  blank := []
  make_ok := by
    rintro s ⟨σ, h⟩
    obtain ⟨d, s', σ', h1, h2, -, h3, h4, h5⟩ := h.create Vec.defaultAlloc
    exact wp_iff_runs.2 ⟨d, s', runs_clearErr.2 h1, ⟨σ', h2⟩, h3, h4, h5⟩
  move_ok := by
    rintro s q a ⟨σ, h⟩ hq
    have ha : VC.Alive (VO.ready s).o q := h.vecAlive (by rw [hq]; simp)
    obtain ⟨r, s', σ', h1, h2, h3, h4⟩ := h.ready.step rfl (c := .move q) (c' := .move q) ha rfl
    obtain ⟨d, rfl, h5⟩ := runs_obj h1
    obtain ⟨k1, d', al, L, k2, k3, k4, k5⟩ := h4
    cases k2
    have hL : L = a := by
      rw [h.vecVal] at hq
      rw [show seqs E s.i σ q = some (al, L) from k4] at hq
      exact Option.some.inj hq
    subst hL
    refine wp_iff_runs.2 ⟨d, s', runs_clearErr.2 h5, ⟨σ', h2⟩, h3, ?_, ?_⟩
    · rw [h.vecVal, show seqs E s.i σ d = none from k3]; rfl
    · funext v
      rw [h2.vecVal, k5]
      simp only [upd_apply]
      split
      · rfl
      · split
        · rfl
        · exact (h.vecVal v).symm
  drop_ok := by
    rintro s q ⟨σ, h⟩ hq
    have ha : VC.Alive (VO.ready s).o q := h.vecAlive hq
    obtain ⟨r, s', σ', h1, h2, h3, h4⟩ := h.ready.step rfl (c := .destroy q) (c' := .destroy q) ha rfl
    obtain ⟨k1, al, L, k2, k3⟩ := h4
    refine wp_iff_runs.2 ⟨(), s', runs_clearErr.2 (runs_unit h1), ⟨σ', h2⟩, h3, ?_⟩
    funext v
    rw [h2.vecVal, k3]
    simp only [upd_apply]
    split
    · rfl
    · exact (h.vecVal v).symm
  copy_ok := by
    rintro s q a ⟨σ, h⟩ hq
    obtain ⟨d, s1, σ1, h1, h2, he, h3, h4, h5⟩ := h.create Vec.defaultAlloc
    have hne : q ≠ d := by rintro rfl; rw [h4] at hq; cases hq
    have hd : VC.Alive s1.o d := h2.vecAlive (by rw [h5]; simp)
    have hq1 : vecVal E s1 q = some a := by rw [h5, upd_other _ _ hne]; exact hq
    have hqa : VC.Alive s1.o q := h2.vecAlive (by rw [hq1]; simp)
    obtain ⟨r, s2, σ2, k1, k2, k3, k4⟩ := h2.step he (c := .copy d q) (c' := .copy d q) ⟨hd, hqa⟩ rfl
    obtain ⟨al, L, bl, N, k, k5, k6, k7, k8, k9⟩ := k4
    have hN : N = a := by
      rw [h2.vecVal, show seqs E s1.i σ1 q = some (bl, N) from k6] at hq1
      exact Option.some.inj hq1
    subst hN
    have hv2 : vecVal E s2 = upd (vecVal E s) d (some (N.take k)) := by
      funext v
      rw [k2.vecVal, k9]
      simp only [upd_apply]
      split
      · rfl
      · rename_i hv
        rw [← h2.vecVal, h5, upd_other _ _ hv]
    have hout : outside E s2 = outside E s := Eq.trans k3 h3
    cases hE : s2.o.err with
    | none =>
      refine wp_iff_runs.2 ⟨.ok d, s2, runs_clearErr.2 (runs_bind_iff.2 ⟨_, _, h1, runs_bind_iff.2 ⟨_, _, runs_unit k1,
        runs_bind_iff.2 ⟨s2.o.err, s2, rfl, ?_⟩⟩⟩), ⟨σ2, k2⟩, hout, h4, ?_⟩
      · rw [hE]; rfl
      · rw [hv2, k8 (by rw [hE]; rfl), List.take_length]
    | some e =>
      have hd2 : VC.Alive (VO.ready s2).o d := k2.vecAlive (v := d) (by rw [hv2]; simp)
      obtain ⟨r', s3, σ3, j1, j2, j3, j4⟩ := k2.ready.step rfl (c := .destroy d) (c' := .destroy d) hd2 rfl
      obtain ⟨j5, al', L', j6, j7⟩ := j4
      refine wp_iff_runs.2 ⟨.error e, s3, runs_clearErr.2 (runs_bind_iff.2 ⟨_, _, h1, runs_bind_iff.2 ⟨_, _, runs_unit k1,
        runs_bind_iff.2 ⟨s2.o.err, s2, rfl, ?_⟩⟩⟩), ⟨σ3, j2⟩, Eq.trans j3 hout, ?_⟩
      · rw [hE]
        exact runs_clearErr.2 (runs_bind_iff.2 ⟨_, _, runs_unit j1, rfl⟩)
      · funext v
        rw [j2.vecVal, j7]
        simp only [upd_apply]
        split
        · rename_i hv
          rw [hv]
          exact h4.symm
        · rename_i hv
          show ((seqs E s2.i σ2 v).map Prod.snd) = _
          rw [← k2.vecVal, hv2, upd_other _ _ hv]

end Nestl.VO
