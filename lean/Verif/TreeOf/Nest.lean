import Verif.TreeOf.Props
import Verif.ListOf.NestProps
set_option autoImplicit false
/-
C99: sets of objects are an element class themselves, so sets, lists and vectors can be nested in each other to any depth.
-/
namespace Nestl.TO
open Nestl.VO (Elem ElemOps runs_bind_iff)
open Nestl.NO
open Nestl.Set (Alive put)
open Nestl.Full (FCall UsesAlloc)
open Classical
variable {S A X : Type}

/-! ### Model -/

/-- The caller passes a fresh error object. -/
def clearErr : M (ST S) Unit := fun s => some (.ok ((), ready s))

/-- The error reported last. -/
def theErr : M (ST S) (Option Err) := fun s => some (.ok (s.o.err, s))

/-- `set()`: set.hpp:143-147. -/
def setMake : M (ST S) Ptr := do
  clearErr
  onO (RB.newTree LL.defaultAlloc)

/-- Construction of a copy by 2-phase initialization: class_operations.hpp:41-65 with `destruction_scoped_guard`
(destroy.hpp:33-58).  nestl has no `two_phase_initializator` for sets: this is the one that a client writes in order to copy containers
of sets, after the model of the one for lists (list.hpp:622-633); it calls `copy_nothrow` (set.hpp:186-192).  Calls that only move
their elements do not use it. -/
def setCopy (E : ElemOps S) (t : Ptr) : M (ST S) (Except Err Ptr) := do
  clearErr
  let d ← onO (RB.newTree LL.defaultAlloc)
  copyNothrow E false d t
  match (← theErr) with
  | none => pure (.ok d)                        -- guard.release()
  | some e => do
    clearErr
    destroyTree E d                             -- ~guard
    pure (.error e)

/-- `set(set&&)`: set.hpp:155-159. -/
def setMove (t : Ptr) : M (ST S) Ptr := do
  clearErr
  onO (RB.moveCtor t)

/-- `~set()`, the destructor of `rb_tree`: rbt.hpp:1022-1026. -/
def setDrop (E : ElemOps S) (t : Ptr) : M (ST S) Unit := do
  clearErr
  destroyTree E t

/-- The operations of `set<T>` as an element class. -/
def setOps (E : ElemOps S) : ElemOps (ST S) := ⟨setMake, setCopy E, setMove, setDrop E⟩

/-! ### The contract -/

/-- The values of the elements of the set `t`, in the order of iteration. -/
noncomputable def setVal (E : Elem S A X) (s : ST S) (t : Ptr) : Option (List A) :=
  if h : Alive s.o t ∧ ∃ L, Values E s t L then some (h.2.choose.map Prod.snd) else none

variable {E : Elem S A X} {s s' : ST S} {B : AState A}

theorem put_eq {α : Type} (f : Ptr → Option α) (p : Ptr) (v : Option α) : put f p v = upd f p v := by
  funext q
  unfold put upd
  rfl

theorem setVal_eq (hB : Shows E s B) : setVal E s = VO.seqOf B := by
  funext t
  unfold setVal VO.seqOf
  cases hx : B t with
  | none =>
    rw [dif_neg]
    · rfl
    · rintro ⟨h3, -⟩
      exact (hB.1 t).1 h3 hx
  | some x =>
    obtain ⟨a, L⟩ := x
    have h2 := (hB.2 _ _ _ hx).2
    have h3 : Alive s.o t ∧ ∃ L, Values E s t L := ⟨(hB.1 t).2 (by rw [hx]; simp), _, h2⟩
    rw [dif_pos h3, values_unique h3.2.choose_spec h2]
    rfl

theorem setAlive {t : Ptr} (hl : setVal E s t ≠ none) : Alive s.o t := by
  unfold setVal at hl
  split at hl
  · rename_i h; exact h.1
  · exact (hl rfl).elim

theorem runs_clearErr {α : Type} {f : Unit → M (ST S) α} {r : α} : Runs (clearErr >>= f) s r s' ↔ Runs (f ()) (ready s) r s' := by
  rw [runs_bind_iff]
  constructor
  · rintro ⟨_, _, h1, h2⟩; cases h1; exact h2
  · intro h; exact ⟨_, _, rfl, h⟩

theorem runs_obj {m : M (ST S) Ptr} {r : Res} (h : Runs (do pure (Res.obj (← m))) s r s') : ∃ d, r = .obj d ∧ Runs m s d s' := by
  obtain ⟨d, t, h1, h2⟩ := runs_bind_iff.1 h
  cases h2
  exact ⟨d, rfl, h1⟩

theorem runs_unit {m : M (ST S) Unit} {r : Res} (h : Runs (do m; pure Res.unit) s r s') : Runs m s () s' := by
  obtain ⟨d, t, h1, h2⟩ := runs_bind_iff.1 h
  cases h2
  exact h1

/-- Calls without arguments and without a comparator. -/
theorem NInv.bare (h : NInv E s) (he : s.o.err = Option.none) (hB : Shows E s B) (c : Call S A) (c' : FCall A)
    (hv : Full.FValid (fun _ _ => false) s.o c.addr) (hok : c.insertOk) (hc : c.ord = Option.none) (hm : c.Means E.blank (E.val s.i) c')
    (hmv : ∀ q, ¬ c.moves q) (hout : ∀ q, ¬ c.outer q) :
    ∃ r s' B', Runs (exec E.toElemOps c) s r s' ∧ NInv E s' ∧ Effect E (outside E s) c r s' ∧ Shows E s' B' ∧
      Spec c.lt B c' r s'.o.err.isSome B' :=
  h.step he hB hv hok (fun o ho => by rw [hc] at ho; cases ho) hm (fun q hq => (hmv q hq).elim) fun q hq => (hout q hq).elim

theorem NInv.create (h : NInv E s) (hB : Shows E s B) : ∃ d s', Runs (onO (RB.newTree LL.defaultAlloc)) (TO.ready s) d s' ∧ NInv E s' ∧
    s'.o.err = Option.none ∧ outside E s' = outside E s ∧ B d = Option.none ∧ Shows E s' (upd B d (some (LL.defaultAlloc, []))) := by
  obtain ⟨r, s', B', h1, h2, h3, h4, h5⟩ := h.ready.bare rfl (h.shows_ready hB) (.create LL.defaultAlloc) (.multi (.base (.create LL.defaultAlloc)))
    trivial trivial rfl rfl (fun _ h => h) fun _ h => h
  obtain ⟨d, rfl, h6⟩ := runs_obj h1
  obtain ⟨d', k1, k2, k3, rfl⟩ := h5
  cases k1
  rw [put_eq] at h4
  exact ⟨d, s', h6, h2, by simpa using k3, h3, k2, h4⟩

/-- The contract of sets: their values are the sequences of the values of their elements. -/
noncomputable def setOf (E : Elem S A X) : Elem (ST S) (List A) ((Ptr → Option A) × X) where
  toElemOps := setOps E.toElemOps
  inv s := NInv E s
  val := setVal E
  rest := outside E
  blank := []
  make_ok := by
    intro s h
    obtain ⟨B, hB, -⟩ := h.shows
    obtain ⟨d, s', h1, h2, -, h3, h4, h5⟩ := h.create hB
    refine wp_iff_runs.2 ⟨d, s', runs_clearErr.2 h1, h2, h3, ?_, ?_⟩
    · rw [setVal_eq hB]; exact VO.seqOf_none.2 h4
    · rw [setVal_eq hB, setVal_eq h5, VO.seqOf_upd]; rfl
  move_ok := by
    intro s q a h hq
    obtain ⟨B, hB, -⟩ := h.shows
    have ha : Alive (TO.ready s).o q := setAlive (E := E) (s := s) (by rw [hq]; simp)
    obtain ⟨r, s', B', h1, h2, h3, h4, h5⟩ := h.ready.bare rfl (h.shows_ready hB) (.move q) (.multi (.base (.move q))) ha trivial rfl rfl
      (fun _ h => h) fun _ h => h
    obtain ⟨d, rfl, h6⟩ := runs_obj h1
    obtain ⟨d', al, L, k1, k2, k3, k4, rfl⟩ := h5
    cases k1
    rw [put_eq, put_eq] at h4
    rw [setVal_eq hB] at hq
    have hL : L.map Prod.snd = a := by simpa [VO.seqOf, k3] using hq
    have hne : q ≠ d := by rintro rfl; rw [k2] at k3; cases k3
    refine wp_iff_runs.2 ⟨d, s', runs_clearErr.2 h6, h2, h3, ?_, ?_⟩
    · rw [setVal_eq hB]; exact VO.seqOf_none.2 k2
    · rw [setVal_eq hB, setVal_eq h4, VO.seqOf_upd, VO.seqOf_upd, ← hL, upd_comm _ _ _ hne]; rfl
  drop_ok := by
    intro s q h hq
    obtain ⟨B, hB, -⟩ := h.shows
    have ha : Alive (TO.ready s).o q := setAlive (E := E) (s := s) hq
    obtain ⟨r, s', B', h1, h2, h3, h4, h5⟩ := h.ready.bare rfl (h.shows_ready hB) (.destroy q) (.multi (.base (.destroy q))) ha trivial rfl rfl
      (fun _ h => h) fun _ h => h
    obtain ⟨-, -, -, rfl⟩ := h5
    rw [put_eq] at h4
    refine wp_iff_runs.2 ⟨(), s', runs_clearErr.2 (runs_unit h1), h2, h3, ?_⟩
    rw [setVal_eq hB, setVal_eq h4, VO.seqOf_upd]; rfl
  copy_ok := by
    intro s q a h hq
    obtain ⟨B, hB, -⟩ := h.shows
    obtain ⟨d, s1, h1, h2, he, h3, h4, hB1⟩ := h.create hB
    rw [setVal_eq hB] at hq
    have hqB : B q ≠ none := fun hn => by rw [VO.seqOf_none.2 hn] at hq; cases hq
    have hne : d ≠ q := by rintro rfl; exact hqB h4
    have hda : Alive s1.o d := (hB1.1 d).2 (by simp)
    have hqa : Alive s1.o q := (hB1.1 q).2 (by rw [upd_other _ _ (Ne.symm hne)]; exact hqB)
    obtain ⟨r, s2, B2, k1, k2, k3, hB2, k4⟩ := h2.bare he hB1 (.copy false d q) (.multi (.base (.copy false d q))) ⟨hda, hqa⟩ trivial rfl rfl
      (fun _ h => h) fun _ h => h
    obtain ⟨rfl, ⟨e, -⟩ | ⟨o, o', L, L', L2, -, k5, k6, rfl, k7⟩⟩ := k4
    · exact (hne e).elim
    rw [put_eq, upd_upd] at hB2
    rw [upd_other _ _ (Ne.symm hne)] at k6
    have hM : L'.map Prod.snd = a := by simpa [VO.seqOf, k6] using hq
    have hout : outside E s2 = outside E s := Eq.trans k3 h3
    cases hE : s2.o.err with
    | none =>
      refine wp_iff_runs.2 ⟨.ok d, s2, runs_clearErr.2 (runs_bind_iff.2 ⟨_, _, h1, runs_bind_iff.2 ⟨_, _, runs_unit k1,
        runs_bind_iff.2 ⟨s2.o.err, s2, rfl, ?_⟩⟩⟩), k2, hout, ?_, ?_⟩
      · rw [hE]; rfl
      · rw [setVal_eq hB]; exact VO.seqOf_none.2 h4
      · rw [setVal_eq hB, setVal_eq hB2, VO.seqOf_upd]
        rw [hE] at k7
        have k7 : L2.map Prod.snd = L'.map Prod.snd := k7
        simp [k7, hM]
    | some e =>
      have hd2 : Alive (TO.ready s2).o d := (hB2.1 d).2 (by simp)
      obtain ⟨r', s3, B3, j1, j2, j3, j4, j5⟩ := k2.ready.bare rfl (k2.shows_ready hB2) (.destroy d) (.multi (.base (.destroy d))) hd2 trivial rfl rfl
        (fun _ h => h) fun _ h => h
      obtain ⟨-, -, -, rfl⟩ := j5
      rw [put_eq, upd_upd] at j4
      refine wp_iff_runs.2 ⟨.error e, s3, runs_clearErr.2 (runs_bind_iff.2 ⟨_, _, h1, runs_bind_iff.2 ⟨_, _, runs_unit k1,
        runs_bind_iff.2 ⟨s2.o.err, s2, rfl, ?_⟩⟩⟩), j2, Eq.trans j3 hout, ?_⟩
      · rw [hE]
        exact runs_clearErr.2 (runs_bind_iff.2 ⟨_, _, runs_unit j1, rfl⟩)
      · show setVal E s3 = setVal E s
        rw [setVal_eq hB, setVal_eq j4, VO.seqOf_upd]
        funext p
        rw [upd_apply]
        split
        · rename_i e; subst e; exact (VO.seqOf_none.2 h4).symm
        · rfl

end Nestl.TO
