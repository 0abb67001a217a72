import Verif.ListOf.Props
import Verif.VectorOf.NestProps
set_option autoImplicit false
/-
C97: lists of objects are an element class themselves, so lists and vectors can be nested in each other to any depth.
-/
namespace Nestl.LO
open Nestl.VO (Elem ElemOps runs_bind_iff)
open Nestl.NO
open Nestl.LL (Sg)
open Classical
variable {S A X : Type}

/-! ### Model -/

/-- The caller passes a fresh error object. -/
def clearErr : M (ST S) Unit := fun s => some (.ok ((), ready s))

/-- The error reported last. -/
def theErr : M (ST S) (Option Err) := fun s => some (.ok (s.o.err, s))

/-- `list()`: list.hpp:669-675. -/
def listMake : M (ST S) Ptr := do
  clearErr
  onO (LL.newList LL.defaultAlloc)

/-- Construction of a copy by 2-phase initialization: class_operations.hpp:41-65 with `destruction_scoped_guard`
(destroy.hpp:33-58); `two_phase_initializator<list>` calls `copy_nothrow`: list.hpp:622-633. -/
def listCopy (E : ElemOps S) (t : Ptr) : M (ST S) (Except Err Ptr) := do
  clearErr
  let d ← onO (LL.newList LL.defaultAlloc)
  copyNothrow E d t
  match (← theErr) with
  | none => pure (.ok d)                        -- guard.release()
  | some e => do
    clearErr
    destroyList E d                             -- ~guard
    pure (.error e)

/-- `list(list&&)`: list.hpp:677-684. -/
def listMove (t : Ptr) : M (ST S) Ptr := do
  clearErr
  onO (LL.moveCtor t)

/-- `~list()`: list.hpp:686-690. -/
def listDrop (E : ElemOps S) (t : Ptr) : M (ST S) Unit := do
  clearErr
  destroyList E t

/-- The operations of `list<T>` as an element class. -/
def listOps (E : ElemOps S) : ElemOps (ST S) := ⟨listMake, listCopy E, listMove, listDrop E⟩

/-! ### The contract -/

/-- The values of the elements of the list `l`. -/
noncomputable def listVal (E : Elem S A X) (s : ST S) (l : Ptr) : Option (List A) :=
  if h : LC.Alive s.o l ∧ ∃ L, Values E s l L then some (h.2.choose.map Prod.snd) else none

variable {E : Elem S A X} {s s' : ST S} {σ : Sg Ptr}

theorem NInv.listVal (h : NInv E s σ) : listVal E s = VO.seqOf (seqs E s.i σ) := by
  funext l
  unfold LO.listVal VO.seqOf
  cases hx : σ l with
  | none =>
    rw [dif_neg, seqs_none hx]
    · rfl
    · rintro ⟨h3, -⟩
      obtain ⟨ls, h4⟩ := (LC.alive_iff h.outer).1 h3
      rw [hx] at h4; cases h4
  | some ls =>
    have h3 : LC.Alive s.o l ∧ ∃ L, Values E s l L := ⟨(LC.alive_iff h.outer).2 ⟨ls, hx⟩, _, (h.values hx).2 rfl⟩
    rw [dif_pos h3, seqs_some hx, (h.values hx).1 h3.2.choose_spec]
    rfl

theorem NInv.seqs_alive (h : NInv E s σ) {l : Ptr} : LC.Alive s.o l ↔ seqs E s.i σ l ≠ none := (h.shows.2 rfl).1 l

theorem NInv.seqs_alloc (h : NInv E s σ) {l : Ptr} {a : Nat} {L : List (Ptr × A)} (hl : seqs E s.i σ l = some (a, L)) :
    LC.HasAlloc s.o l a := ((h.shows.2 rfl).2 _ _ _ hl).1

theorem NInv.listAlive (h : NInv E s σ) {l : Ptr} (hl : LO.listVal E s l ≠ none) : LC.Alive s.o l := by
  rw [h.listVal] at hl
  exact h.seqs_alive.2 fun e => hl (VO.seqOf_none.2 e)

theorem runs_clearErr {α : Type} {f : Unit → M (ST S) α} {r : α} : Runs (clearErr >>= f) s r s' ↔ Runs (f ()) (ready s) r s' := by
  rw [runs_bind_iff]
  constructor
  · rintro ⟨_, _, h1, h2⟩; cases h1; exact h2
  · intro h; exact ⟨_, _, rfl, h⟩

theorem runs_obj {m : M (ST S) Ptr} {r : LC.Res} (h : Runs (do pure (LC.Res.obj (← m))) s r s') : ∃ d, r = .obj d ∧ Runs m s d s' := by
  obtain ⟨d, t, h1, h2⟩ := runs_bind_iff.1 h
  cases h2
  exact ⟨d, rfl, h1⟩

theorem runs_unit {m : M (ST S) Unit} {r : LC.Res} (h : Runs (do m; pure LC.Res.unit) s r s') : Runs m s () s' := by
  obtain ⟨d, t, h1, h2⟩ := runs_bind_iff.1 h
  cases h2
  exact h1

theorem NInv.create (h : NInv E s σ) : ∃ d s' σ', Runs (onO (LL.newList LL.defaultAlloc)) (LO.ready s) d s' ∧ NInv E s' σ' ∧
    s'.o.err = none ∧ outside E s' = outside E s ∧ seqs E s.i σ d = none ∧
    seqs E s'.i σ' = upd (seqs E s.i σ) d (some (LL.defaultAlloc, [])) := by
  obtain ⟨r, s', σ', h1, h2, h3, h4⟩ := h.ready.step rfl (c := .create LL.defaultAlloc) (c' := .create LL.defaultAlloc) trivial rfl
    fun _ h => h.elim
  obtain ⟨d, rfl, h5⟩ := runs_obj h1
  obtain ⟨k1, d', k2, k3, k4⟩ := h4
  cases k2
  exact ⟨d, s', σ', h5, h2, by simpa using k1, h3, k3, k4⟩

/-- The contract of lists: their values are the sequences of the values of their elements. -/
noncomputable def listOf (E : Elem S A X) : Elem (ST S) (List A) ((Ptr → Option A) × X) where
  toElemOps := listOps E.toElemOps
  inv s := ∃ σ, NInv E s σ
  val := listVal E
  rest := outside E
  blank := []
  make_ok := by
    rintro s ⟨σ, h⟩
    obtain ⟨d, s', σ', h1, h2, -, h3, h4, h5⟩ := h.create
    refine wp_iff_runs.2 ⟨d, s', runs_clearErr.2 h1, ⟨σ', h2⟩, h3, ?_, ?_⟩
    · rw [h.listVal]; exact VO.seqOf_none.2 h4
    · rw [h.listVal, h2.listVal, h5, VO.seqOf_upd]; rfl
  move_ok := by
    rintro s q a ⟨σ, h⟩ hq
    have ha : LC.Alive (LO.ready s).o q := h.listAlive (by rw [hq]; simp)
    obtain ⟨r, s', σ', h1, h2, h3, h4⟩ := h.ready.step rfl (c := .move q) (c' := .move q) ha rfl fun _ h => h.elim
    obtain ⟨d, rfl, h5⟩ := runs_obj h1
    obtain ⟨k1, d', al, L, k2, k3, k4, k5⟩ := h4
    cases k2
    have k3 : seqs E s.i σ d = none := k3
    have k4 : seqs E s.i σ q = some (al, L) := k4
    have k5 : seqs E s'.i σ' = upd (upd (seqs E s.i σ) q (some (al, []))) d (some (al, L)) := k5
    rw [h.listVal] at hq
    have hL : L.map Prod.snd = a := by simpa [VO.seqOf, k4] using hq
    refine wp_iff_runs.2 ⟨d, s', runs_clearErr.2 h5, ⟨σ', h2⟩, h3, ?_, ?_⟩
    · rw [h.listVal]; exact VO.seqOf_none.2 k3
    · rw [h.listVal, h2.listVal, k5, VO.seqOf_upd, VO.seqOf_upd, ← hL]; rfl
  drop_ok := by
    rintro s q ⟨σ, h⟩ hq
    have ha : LC.Alive (LO.ready s).o q := h.listAlive hq
    obtain ⟨r, s', σ', h1, h2, h3, h4⟩ := h.ready.step rfl (c := .destroy q) (c' := .destroy q) ha rfl fun _ h => h.elim
    obtain ⟨k1, al, L, k2, k3⟩ := h4
    have k3 : seqs E s'.i σ' = upd (seqs E s.i σ) q none := k3
    refine wp_iff_runs.2 ⟨(), s', runs_clearErr.2 (runs_unit h1), ⟨σ', h2⟩, h3, ?_⟩
    rw [h.listVal, h2.listVal, k3, VO.seqOf_upd]; rfl
  copy_ok := by
    rintro s q a ⟨σ, h⟩ hq
    obtain ⟨d, s1, σ1, h1, h2, he, h3, h4, h5⟩ := h.create
    rw [h.listVal] at hq
    have hqB : seqs E s.i σ q ≠ none := fun hn => by rw [VO.seqOf_none.2 hn] at hq; cases hq
    have hne : d ≠ q := by rintro rfl; exact hqB h4
    have hd : seqs E s1.i σ1 d = some (LL.defaultAlloc, []) := by rw [h5]; exact upd_same _ _ _
    have hq1 : seqs E s1.i σ1 q = seqs E s.i σ q := by rw [h5]; exact upd_other _ _ (Ne.symm hne)
    obtain ⟨r, s2, σ2, k1, k2, k3, k4⟩ := h2.step he (c := .copy d q) (c' := .copy d q) ⟨h2.seqs_alive.2 (by rw [hd]; simp),
      h2.seqs_alive.2 (by rw [hq1]; exact hqB), .inl (h2.seqs_alloc hd), hne⟩ rfl fun _ h => h.elim
    obtain ⟨a', L, b, M, k, N, k5, k6, k7, k8, k9, k10⟩ := k4
    have hM : M.map Prod.snd = a := by
      rw [hq1] at k6
      simpa [VO.seqOf, k6] using hq
    have hv2 : seqs E s2.i σ2 = upd (seqs E s.i σ) d (some (a', N)) := by rw [k10, h5, upd_upd]
    have hout : outside E s2 = outside E s := Eq.trans k3 h3
    cases hE : s2.o.err with
    | none =>
      have hk : k = M.length := by
        rcases Nat.lt_or_ge k M.length with hlt | hge
        · have := k8.2 hlt; rw [hE] at this; cases this
        · omega
      refine wp_iff_runs.2 ⟨.ok d, s2, runs_clearErr.2 (runs_bind_iff.2 ⟨_, _, h1, runs_bind_iff.2 ⟨_, _, runs_unit k1,
        runs_bind_iff.2 ⟨s2.o.err, s2, rfl, ?_⟩⟩⟩), ⟨σ2, k2⟩, hout, ?_, ?_⟩
      · rw [hE]; rfl
      · rw [h.listVal]; exact VO.seqOf_none.2 h4
      · rw [h.listVal, k2.listVal, hv2, VO.seqOf_upd]
        have : N.map Prod.snd = a := by
          have := k9.1
          rw [← hM]
          rw [hk] at this
          rw [this]
          exact List.take_of_length_le (by simp)
        simp [this]
    | some e =>
      have hd2 : LC.Alive (LO.ready s2).o d := k2.seqs_alive.2 (by rw [hv2]; simp)
      obtain ⟨r', s3, σ3, j1, j2, j3, j4⟩ := k2.ready.step rfl (c := .destroy d) (c' := .destroy d) hd2 rfl fun _ h => h.elim
      obtain ⟨j5, al', L', j6, j7⟩ := j4
      have j7 : seqs E s3.i σ3 = upd (seqs E s2.i σ2) d none := j7
      refine wp_iff_runs.2 ⟨.error e, s3, runs_clearErr.2 (runs_bind_iff.2 ⟨_, _, h1, runs_bind_iff.2 ⟨_, _, runs_unit k1,
        runs_bind_iff.2 ⟨s2.o.err, s2, rfl, ?_⟩⟩⟩), ⟨σ3, j2⟩, Eq.trans j3 hout, ?_⟩
      · rw [hE]
        exact runs_clearErr.2 (runs_bind_iff.2 ⟨_, _, runs_unit j1, rfl⟩)
      · show LO.listVal E s3 = LO.listVal E s
        rw [h.listVal, j2.listVal, j7, hv2, upd_upd, VO.seqOf_upd]
        funext p
        rw [upd_apply]
        split
        · rename_i e; subst e; exact (VO.seqOf_none.2 h4).symm
        · rfl

end Nestl.LO
