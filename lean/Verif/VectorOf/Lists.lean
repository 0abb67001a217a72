import Verif.VectorOf.Nest
import Verif.LinkedList.PropLemmas
set_option autoImplicit false
/-
C96: lists are an element class, so `vector<list<V>>`, `vector<vector<list<V>>>`, … are covered.
-/
namespace Nestl.VO
open Nestl.LC (AState Alive abs Contents)
open Classical
variable {V : Type}

/-! ### Model -/

/-- The caller passes a fresh error object. -/
def lClearErr : M (LL.W V) Unit := fun w => some (.ok ((), LC.ready w))

/-- The error reported last. -/
def lErr : M (LL.W V) (Option Err) := fun w => some (.ok (w.err, w))

/-- `list()`: list.hpp:669-675. -/
def listMake : M (LL.W V) Ptr := do
  lClearErr
  LL.newList LL.defaultAlloc

/-- Construction of a copy by 2-phase initialization: class_operations.hpp:41-65 with `destruction_scoped_guard`
(destroy.hpp:33-58); `two_phase_initializator<list>` calls `copy_nothrow`: list.hpp:622-633. -/
def listCopy (t : Ptr) : M (LL.W V) (Except Err Ptr) := do
  lClearErr
  let d ← LL.newList LL.defaultAlloc
  LL.copyNothrow d t
  match (← lErr) with
  | none => pure (.ok d)                        -- guard.release()
  | some e => do
    lClearErr
    LL.destroyList d                            -- ~guard
    pure (.error e)

/-- `list(list&&)`: list.hpp:677-684. -/
def listMove (t : Ptr) : M (LL.W V) Ptr := do
  lClearErr
  LL.moveCtor t

/-- `~list()`: list.hpp:686-690. -/
def listDrop (t : Ptr) : M (LL.W V) Unit := do
  lClearErr
  LL.destroyList t

/-- The operations of `list<V>` as an element class. -/
def listOps : ElemOps (LL.W V) := ⟨listMake, listCopy, listMove, listDrop⟩

/-! ### The contract -/

/-- The live lists and the sequences of their values. -/
noncomputable def listVal (w : LL.W V) (l : Ptr) : Option (List V) :=
  if h : Alive w l ∧ ∃ L, Contents w l L then some (h.2.choose.map Prod.snd) else none

variable {w w' : LL.W V} {B B' : AState V}

/-- The values of the lists `B`. -/
def seqOf (B : AState V) (l : Ptr) : Option (List V) := (B l).map fun x => x.2.map Prod.snd

theorem listVal_eq (h : LC.Sim w B) : listVal w = seqOf B := by
  obtain ⟨σ, h1, h2, rfl⟩ := h
  funext l
  unfold listVal seqOf
  cases hl : σ l with
  | none =>
    rw [dif_neg, LC.abs_none.2 hl]
    · rfl
    · rintro ⟨h3, -⟩
      obtain ⟨ls, h4⟩ := (LC.alive_iff h1).1 h3
      rw [hl] at h4; cases h4
  | some ls =>
    have hc := (LC.contents_iff h1 hl).2 rfl
    have h3 : Alive w l ∧ ∃ L, Contents w l L := ⟨(LC.alive_iff h1).2 ⟨ls, hl⟩, _, hc⟩
    rw [dif_pos h3, LC.abs_some hl]
    have := (Runs.det h3.2.choose_spec hc).1
    rw [this]; rfl

theorem seqOf_upd (l : Ptr) (x : Option (Nat × List (Ptr × V))) :
    seqOf (upd B l x) = upd (seqOf B) l (x.map fun y => y.2.map Prod.snd) := by
  funext p
  simp only [seqOf, upd_apply]
  split <;> rfl

theorem seqOf_none {l : Ptr} : seqOf B l = none ↔ B l = none := by simp [seqOf]

theorem sim_alive (h : LC.Sim w B) {l : Ptr} : Alive w l ↔ B l ≠ none := by
  obtain ⟨σ, h1, -, rfl⟩ := h
  rw [LC.alive_iff h1, Ne, LC.abs_none, ← Ne, Option.ne_none_iff_exists']

theorem sim_hasAlloc (h : LC.Sim w B) {l : Ptr} {a : Nat} {L : List (Ptr × V)} (hl : B l = some (a, L)) : LC.HasAlloc w l a := by
  obtain ⟨σ, h1, -, rfl⟩ := h
  obtain ⟨l', h2, -⟩ := LC.abs_inv hl
  exact (LC.hasAlloc_iff h1 h2).2 rfl

theorem l_clearErr {α : Type} {f : Unit → M (LL.W V) α} {r : α} {w' : LL.W V} :
    Runs (lClearErr >>= f) w r w' ↔ Runs (f ()) (LC.ready w) r w' := by
  rw [runs_bind_iff]
  constructor
  · rintro ⟨_, _, h1, h2⟩; cases h1; exact h2
  · intro h; exact ⟨_, _, rfl, h⟩

theorem l_obj {m : M (LL.W V) Ptr} {r : LC.Res} (h : Runs (do pure (LC.Res.obj (← m))) w r w') : ∃ d, r = .obj d ∧ Runs m w d w' := by
  obtain ⟨d, t, h1, h2⟩ := runs_bind_iff.1 h
  cases h2
  exact ⟨d, rfl, h1⟩

theorem l_unit {m : M (LL.W V) Unit} {r : LC.Res} (h : Runs (do m; pure LC.Res.unit) w r w') : Runs m w () w' := by
  obtain ⟨d, t, h1, h2⟩ := runs_bind_iff.1 h
  cases h2
  exact h1

/-- A call, as a run. -/
theorem l_call (h : LC.Sim w B) {c : LC.Call V} (hv : LC.Valid w c) : ∃ r w' B', Runs (LC.exec c) (LC.ready w) r w' ∧
    LC.Sim w' B' ∧ LC.Spec B c r w'.err.isSome B' := by
  obtain ⟨r, w', h1, B', h2, h3, -⟩ := (h.call hv).runs
  exact ⟨r, w', B', h1, h3, h2⟩

theorem l_call' (h : LC.Sim w B) (he : w.err = none) {c : LC.Call V} (hv : LC.Valid w c) : ∃ r w' B', Runs (LC.exec c) w r w' ∧
    LC.Sim w' B' ∧ LC.Spec B c r w'.err.isSome B' := by
  obtain ⟨σ, h1, h2, rfl⟩ := h
  obtain ⟨r, w', h3, B', h4, h5, -⟩ := (LC.exec_sim h1 h2 he hv).runs
  exact ⟨r, w', B', h3, h5, h4⟩

theorem l_create (h : LC.Sim w B) : ∃ d w', Runs (LL.newList LL.defaultAlloc) (LC.ready w) d w' ∧ w'.err = none ∧ B d = none ∧
    LC.Sim w' (upd B d (some (LL.defaultAlloc, []))) := by
  obtain ⟨r, w', B', h1, h2, h3⟩ := l_call h (c := .create LL.defaultAlloc) trivial
  obtain ⟨d, rfl, h4⟩ := l_obj h1
  obtain ⟨k1, d', k2, k3, k4⟩ := h3
  cases k2
  subst k4
  exact ⟨d, w', h4, by simpa using k1, k3, h2⟩

/-- The contract of lists: their values are the sequences of their elements. -/
noncomputable def Elem.list : Elem (LL.W V) (List V) Unit where
  toElemOps := listOps
  inv w := ∃ B, LC.Sim w B
  val := listVal
  rest _ := ()
  blank := []
  make_ok := by
    rintro w ⟨B, h⟩
    obtain ⟨d, w', h1, -, h2, h3⟩ := l_create h
    refine wp_iff_runs.2 ⟨d, w', l_clearErr.2 h1, ⟨_, h3⟩, rfl, ?_, ?_⟩
    · rw [listVal_eq h]; exact seqOf_none.2 h2
    · rw [listVal_eq h, listVal_eq h3, seqOf_upd]; rfl
  move_ok := by
    rintro w q a ⟨B, h⟩ hq
    rw [listVal_eq h] at hq
    have ha : Alive w q := (sim_alive h).2 fun hn => by rw [seqOf_none.2 hn] at hq; cases hq
    obtain ⟨r, w', B', h1, h2, h3⟩ := l_call h (c := .move q) ha
    obtain ⟨d, rfl, h4⟩ := l_obj h1
    obtain ⟨k1, d', al, L, k2, k3, k4, rfl⟩ := h3
    cases k2
    have hL : L.map Prod.snd = a := by simpa [seqOf, k4] using hq
    refine wp_iff_runs.2 ⟨d, w', l_clearErr.2 h4, ⟨_, h2⟩, rfl, ?_, ?_⟩
    · rw [listVal_eq h]; exact seqOf_none.2 k3
    · rw [listVal_eq h, listVal_eq h2, seqOf_upd, seqOf_upd, ← hL]; rfl
  drop_ok := by
    rintro w q ⟨B, h⟩ hq
    rw [listVal_eq h] at hq
    have ha : Alive w q := (sim_alive h).2 fun hn => hq (seqOf_none.2 hn)
    obtain ⟨r, w', B', h1, h2, h3⟩ := l_call h (c := .destroy q) ha
    obtain ⟨k1, al, L, k2, rfl⟩ := h3
    refine wp_iff_runs.2 ⟨(), w', l_clearErr.2 (l_unit h1), ⟨_, h2⟩, rfl, ?_⟩
    rw [listVal_eq h, listVal_eq h2, seqOf_upd]; rfl
  copy_ok := by
    rintro w q a ⟨B, h⟩ hq
    rw [listVal_eq h] at hq
    obtain ⟨d, w1, h1, h2, h3, h4⟩ := l_create h
    have hqB : B q ≠ none := fun hn => by rw [seqOf_none.2 hn] at hq; cases hq
    have hne : d ≠ q := by rintro rfl; exact hqB h3
    have hd : (upd B d (some (LL.defaultAlloc, []))) d = some (LL.defaultAlloc, []) := upd_same _ _ _
    obtain ⟨r, w2, B2, k1, k2, k3⟩ := l_call' h4 h2 (c := .copy d q) ⟨(sim_alive h4).2 (by rw [hd]; simp),
      (sim_alive h4).2 (by rw [upd_other _ _ (Ne.symm hne)]; exact hqB), .inl (sim_hasAlloc h4 hd), hne⟩
    obtain ⟨a', L, b, M, k, N, k4, k5, k6, k7, k8, rfl⟩ := k3
    have hM : M.map Prod.snd = a := by
      rw [upd_other _ _ (Ne.symm hne)] at k5
      simpa [seqOf, k5] using hq
    cases hE : w2.err with
    | none =>
      have hk : k = M.length := by
        rcases Nat.lt_or_ge k M.length with hlt | hge
        · have := k7.2 hlt; rw [hE] at this; cases this
        · omega
      refine wp_iff_runs.2 ⟨.ok d, w2, l_clearErr.2 (runs_bind_iff.2 ⟨_, _, h1, runs_bind_iff.2 ⟨_, _, l_unit k1,
        runs_bind_iff.2 ⟨w2.err, w2, rfl, ?_⟩⟩⟩), ⟨_, k2⟩, rfl, ?_, ?_⟩
      · rw [hE]; rfl
      · rw [listVal_eq h]; exact seqOf_none.2 h3
      · rw [listVal_eq h, listVal_eq k2, seqOf_upd, seqOf_upd, upd_upd]
        have : N.map Prod.snd = a := by
          have := k8.1
          rw [← hM]
          rw [hk] at this
          rw [this]
          exact List.take_of_length_le (by simp)
        simp [this]
    | some e =>
      obtain ⟨r', w3, B3, j1, j2, j3⟩ := l_call k2 (c := .destroy d) ((sim_alive k2).2 (by simp))
      obtain ⟨j4, al, L', j5, rfl⟩ := j3
      refine wp_iff_runs.2 ⟨.error e, w3, l_clearErr.2 (runs_bind_iff.2 ⟨_, _, h1, runs_bind_iff.2 ⟨_, _, l_unit k1,
        runs_bind_iff.2 ⟨w2.err, w2, rfl, ?_⟩⟩⟩), ⟨_, j2⟩, rfl, ?_⟩
      · rw [hE]
        exact l_clearErr.2 (runs_bind_iff.2 ⟨_, _, l_unit j1, rfl⟩)
      · show listVal w3 = listVal w
        rw [listVal_eq h, listVal_eq j2, upd_upd, upd_upd, seqOf_upd]
        funext p
        rw [upd_apply]
        split
        · rename_i e; subst e; exact (seqOf_none.2 h3).symm
        · rfl

end Nestl.VO
