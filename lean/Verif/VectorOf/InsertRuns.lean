import Verif.VectorOf.Sums
set_option autoImplicit false
/-
Runs of insertions into vectors of objects: which memory they use and what they ask the allocator for.
-/
namespace Nestl.VO
open Nestl.Vec (W VCell Obj Blk Sg rdObj setObj rdBlk slotRd slotPut deallocate allocate ElemSize maxBytes wrap)

variable {S A X : Type} {E : ElemOps S} {s s' s1 : NS S} {p v : Ptr} {i n k pos : Nat} {o : Obj} {a : Arg}

theorem works_shift {lo : Nat} (hl : lo ≤ i) (k : Nat) : ∀ {s s' : NS S} {r : Bool}, s.o.err = none → Runs (shift E p i k) s r s' →
    Works E p lo s s' ∧ s'.o.err.isSome = !r := by
  induction k with
  | zero => intro s s' r he h; cases h; exact ⟨.refl _, by rw [he]; rfl⟩
  | succ k ih =>
    intro s s' r he h
    obtain ⟨_, s1, h1, h2⟩ := runs_bind_iff.1 h
    obtain ⟨h3, -⟩ := works_construct (lo := lo) (by omega) h1
    obtain ⟨b, s2, h4, h5⟩ := runs_bind_iff.1 h2
    obtain ⟨rfl, rfl⟩ := of_failed h4
    split at h5
    · rename_i hb; cases h5; exact ⟨h3, hb⟩
    · rename_i hb
      obtain ⟨_, s3, h6, h7⟩ := runs_bind_iff.1 h5
      obtain ⟨h8, h9⟩ := works_destroySlot (lo := lo) (by omega) h6
      have h10 : s2.o.err = none := by simpa using hb
      obtain ⟨h11, h12⟩ := ih (h9.trans h10) h7
      exact ⟨(h3.trans h8).trans h11, h12⟩

/-- What an insertion with room for another element leaves: other memory is as it was, and so are the slots in front of the position. -/
structure Placed (v : Ptr) (o : Obj) (pos : Nat) (s s' : NS S) : Prop where
  other : ∀ y, y ≠ v → y ≠ o.start → s'.o.heap y = s.o.heap y
  obj : (s'.o.err ≠ none ∧ s'.o.heap v = some (.obj o)) ∨ (s'.o.err = none ∧ s'.o.heap v = some (.obj { o with fin := o.fin + 1 }))
  blk : ∀ b, s.o.heap o.start = some (.blk b) → ∃ b', s'.o.heap o.start = some (.blk b') ∧ ∀ j, j < pos → b'.slots[j]? = b.slots[j]?

/-- The part of `insert_value` behind the reallocation. -/
theorem runs_place {x y r : Nat} (he : s.o.err = none) (hv : s.o.heap v = some (.obj o))
    (h : Runs (do
      if !(← shift E o.start pos (o.fin - pos)) then pure x else do
      construct E o.start pos a
      if (← failed) then pure x else do
      onO (setObj v { o with fin := o.fin + 1 })
      pure y) s r s') : Calm E s s' ∧ s'.o.sp = s.o.sp ∧ Placed v o pos s s' := by
  obtain ⟨b, s1, h1, h2⟩ := runs_bind_iff.1 h
  obtain ⟨hw, hb⟩ := works_shift (Nat.le_refl _) _ he h1
  cases b with
  | false =>
    simp only [Bool.not_false, if_true] at h2
    cases h2
    exact ⟨hw.calm, hw.sp, fun y h1 h2 => hw.heap y h2, .inl ⟨by (intro e; rw [e] at hb; cases hb), hw.isObj.2 hv⟩, hw.blk⟩
  | true =>
    simp only [Bool.not_true, Bool.false_eq_true, if_false] at h2
    obtain ⟨_, s2, h3, h4⟩ := runs_bind_iff.1 h2
    obtain ⟨hw2, h5⟩ := works_construct (Nat.le_refl _) h3
    have hw3 := hw.trans hw2
    obtain ⟨c, s3, h6, h7⟩ := runs_bind_iff.1 h4
    obtain ⟨rfl, rfl⟩ := of_failed h6
    cases he3 : s3.o.err with
    | some e =>
      simp only [he3, Option.isSome_some, if_true] at h7
      cases h7
      exact ⟨hw3.calm, hw3.sp, fun y h1 h2 => hw3.heap y h2, .inl ⟨by simp [he3], hw3.isObj.2 hv⟩, hw3.blk⟩
    | none =>
      simp only [he3, Option.isSome_none, Bool.false_eq_true, if_false] at h7
      obtain ⟨_, s4, h8, h9⟩ := runs_bind_iff.1 h7
      cases h9
      obtain ⟨w, h10, rfl⟩ := of_onO h8
      obtain ⟨h11, rfl⟩ := runs_setObj h10
      refine ⟨hw3.calm.trans (.upd h11 rfl), hw3.sp, fun y h1 h2 => ?_, .inr ⟨he3, upd_same _ _ _⟩, fun b hb => ?_⟩
      · show upd s3.o.heap _ _ y = _
        rw [upd_other _ _ h1, hw3.heap y h2]
      · have hne : o.start ≠ v := by intro e; rw [← e, hb] at hv; cases hv
        obtain ⟨b', h12, h13⟩ := hw3.blk b hb
        exact ⟨b', (upd_other _ _ hne).trans h12, h13⟩

section sized
variable [ElemSize Ptr]

/-- `insert_value` on a vector with room for another element. -/
theorem runs_insert_room {r : Nat} (he : s.o.err = none) (hv : s.o.heap v = some (.obj o)) (hc : o.fin < o.cap)
    (h : Runs (insertValue E v pos a) s r s') : Calm E s s' ∧ s'.o.sp = s.o.sp ∧ Placed v o pos s s' := by
  unfold insertValue growIfFull at h
  obtain ⟨o', s1, h1, h2⟩ := runs_bind_iff.1 h
  obtain ⟨rfl, rfl⟩ := of_rdObj h1 hv
  obtain ⟨_, s3, h7, h8⟩ := runs_bind_iff.1 h2
  obtain ⟨-, rfl⟩ := of_assert h7
  obtain ⟨b, s4, h9, h10⟩ := runs_bind_iff.1 h8
  obtain ⟨o', s1, h15, h16⟩ := runs_bind_iff.1 h9
  obtain ⟨rfl, rfl⟩ := of_rdObj h15 hv
  rw [if_neg (by omega)] at h16
  cases h16
  simp only [Bool.false_eq_true, if_false] at h10
  obtain ⟨o', s1, h11, h12⟩ := runs_bind_iff.1 h10
  obtain ⟨rfl, rfl⟩ := of_rdObj h11 hv
  obtain ⟨_, s5, h13, h14⟩ := runs_bind_iff.1 h12
  obtain ⟨-, rfl⟩ := of_assert h13
  exact runs_place he hv h14

/-- `insert_value` on a full vector: if the reallocation fails, the position and the argument do not matter. -/
theorem runs_insert_full {r : Nat} (he : s.o.err = none) (hv : s.o.heap v = some (.obj o)) (hc : o.fin = o.cap)
    (h : Runs (insertValue E v pos a) s r s') : ∃ s1, Fair E (some (growTo o.cap (wrap (o.cap + 1)))) s s1 ∧ s1.o.sp = s.o.sp ∧
      Moved v o (growTo o.cap (wrap (o.cap + 1))) s s1 ∧
      ((s1.o.err ≠ none ∧ s' = s1 ∧ ∀ a', Runs (insertValue E v o.fin a') s r s') ∨
        ∃ o', s1.o.err = none ∧ s1.o.heap v = some (.obj o') ∧ o'.fin = o.fin ∧ o.fin < o'.cap ∧
        Calm E s1 s' ∧ s'.o.sp = s1.o.sp ∧ Placed v o' pos s1 s') := by
  have hall := h
  unfold insertValue at h
  obtain ⟨o', s1, h1, h2⟩ := runs_bind_iff.1 h
  obtain ⟨rfl, rfl⟩ := of_rdObj h1 hv
  obtain ⟨_, s3, h7, h8⟩ := runs_bind_iff.1 h2
  obtain ⟨-, rfl⟩ := of_assert h7
  obtain ⟨b, s4, h9, h10⟩ := runs_bind_iff.1 h8
  have hg := h9
  unfold growIfFull at h9
  obtain ⟨o', s1, h11, h12⟩ := runs_bind_iff.1 h9
  obtain ⟨rfl, rfl⟩ := of_rdObj h11 hv
  rw [if_pos hc.symm] at h12
  obtain ⟨_, s5, h13, h14⟩ := runs_bind_iff.1 h12
  obtain ⟨rfl, rfl⟩ := of_failed h14
  obtain ⟨k1, k2, k3, k4⟩ := runs_grow he hv h13
  refine ⟨s4, k2, k3, k4, ?_⟩
  cases he4 : s4.o.err with
  | some e =>
    simp only [he4, Option.isSome_some, if_true] at h10 hg
    cases h10
    refine .inl ⟨by simp, rfl, fun a' => ?_⟩
    unfold insertValue
    refine runs_bind_iff.2 ⟨_, _, h1, runs_bind_iff.2 ⟨(), _, ?_, runs_bind_iff.2 ⟨_, _, hg, ?_⟩⟩⟩
    · simp [assertM]; rfl
    · rfl
  | none =>
    simp only [he4, Option.isSome_none, Bool.false_eq_true, if_false] at h10
    rcases k4 with ⟨k4, -⟩ | ⟨-, x, -, k5, -⟩
    · exact (k4 he4).elim
    obtain ⟨o', s1, h15, h16⟩ := runs_bind_iff.1 h10
    obtain ⟨rfl, rfl⟩ := of_rdObj h15 k5
    obtain ⟨_, s3, h17, h18⟩ := runs_bind_iff.1 h16
    obtain ⟨-, rfl⟩ := of_assert h17
    exact .inr ⟨_, rfl, k5, rfl, by simp only; omega, runs_place he4 k5 h18⟩

/-- An insertion asks for memory if the vector is full. -/
theorem fair_insert {r : Nat} (he : s.o.err = none) (hv : s.o.heap v = some (.obj o)) (hle : o.fin ≤ o.cap)
    (h : Runs (insertValue E v pos a) s r s') :
    Fair E (if o.fin = o.cap then some (growTo o.cap (wrap (o.cap + 1))) else none) s s' := by
  split
  · rename_i hc
    obtain ⟨s1, h1, -, -, h2⟩ := runs_insert_full he hv hc h
    rcases h2 with ⟨-, rfl, -⟩ | ⟨o', -, -, -, -, h3, -⟩
    · exact h1
    · exact h1.calm h3
  · exact (runs_insert_room he hv (by omega) h).1.fair he

end sized

end Nestl.VO
