import Verif.Vector.Props2
import Verif.Vector.Told
import Verif.VectorOf.Runs
set_option autoImplicit false
/-
How many requests and constructions the programs of `vector` make.
-/
namespace Nestl.Vec
open Nestl.VO (runs_rdObj runs_rdBlk runs_setObj runs_modCell runs_allocate runs_deallocate of_assert)
variable {V : Type} {w w' w1 w2 : W V} {s t p : Ptr} {o u : Obj} {i j k n pos : Nat} {a : Arg V}

/-- Between `w` and `w'` exactly `i` requests and at most `j` constructions were made; exactly `j` if there is no error. -/
structure Spent (w w' : W V) (i j : Nat) : Prop where
  allocs : w'.nAlloc = w.nAlloc + i
  upto : w'.nCtor ≤ w.nCtor + j
  all : w'.err = none → w'.nCtor = w.nCtor + j

theorem Spent.still (h : Still w w') : Spent w w' 0 0 := ⟨h.allocs, by rw [h.ctors]; omega, fun _ => h.ctors⟩

theorem Spent.trans {i' j' : Nat} (h : Spent w w1 i j) (he : w1.err = none) (h' : Spent w1 w2 i' j') : Spent w w2 (i + i') (j + j') := by
  have h1 := h.all he
  refine ⟨by rw [h'.allocs, h.allocs]; omega, by have := h'.upto; omega, fun h2 => by have := h'.all h2; omega⟩

/-- After an error nothing more is constructed. -/
theorem Spent.fail (h : Spent w w' i j) (he : w'.err ≠ none) (k : Nat) : Spent w w' i (j + k) :=
  ⟨h.allocs, by have := h.upto; omega, fun h1 => absurd h1 he⟩

theorem Spent.quiet (h : Spent w w1 i j) (h' : Still w1 w2) : Spent w w2 i j :=
  ⟨h'.allocs.trans h.allocs, by rw [h'.ctors]; exact h.upto, fun h1 => h'.ctors.trans (h.all (h'.err ▸ h1))⟩

theorem Spent.after (h' : Still w w1) (h : Spent w1 w2 i j) : Spent w w2 i j :=
  ⟨by rw [← h'.allocs]; exact h.allocs, by rw [← h'.ctors]; exact h.upto, by rw [← h'.ctors]; exact h.all⟩

theorem Spent.cast {i' j' : Nat} (h : Spent w w' i j) (hi : i = i') (hj : j = j') : Spent w w' i' j' := hi ▸ hj ▸ h

/-- All vector objects are as they were. -/
def Objs (w w' : W V) : Prop := ∀ s o, w.heap s = some (.obj o) → w'.heap s = some (.obj o)

theorem Objs.refl (w : W V) : Objs w w := fun _ _ h => h
theorem Objs.trans (h : Objs w w1) (h' : Objs w1 w2) : Objs w w2 := fun s o hs => h' s o (h s o hs)

theorem Objs.upd {b : Blk V} {c : Option (VCell V)} (hp : w.heap p = some (.blk b)) : Objs w (w.setHeap (upd w.heap p c)) := by
  intro s o hs
  have : s ≠ p := by intro e; rw [e, hp] at hs; cases hs
  rw [World.setHeap_heap, upd_other _ _ this]; exact hs

theorem runs_slotRd {v : V} (h : Runs (slotRd p i) w v w') : w' = w := by
  unfold slotRd at h
  obtain ⟨b, w1, h1, h2⟩ := runs_steps h
  obtain ⟨-, -, rfl⟩ := runs_rdBlk.1 h1
  split at h2
  · cases h2
  · cases h2
  · cases h2; rfl

theorem runs_argVal {v : V} (h : Runs (argVal a) w v w') : w' = w := by
  cases a with
  | lit x => cases h; rfl
  | ref p i => exact runs_slotRd h

theorem objs_slotPut {v : V} {r : Unit} (h : Runs (slotPut p i v) w r w') : Objs w w' := by
  unfold slotPut at h
  obtain ⟨b, w1, h1, h2⟩ := runs_steps h
  obtain ⟨-, hb, rfl⟩ := runs_rdBlk.1 h1
  split at h2
  · cases h2
  · cases h2
  · obtain ⟨-, c, h3, rfl⟩ := runs_modCell.1 h2
    exact .upd hb

theorem objs_destroySlot {r : Unit} (h : Runs (destroySlot p i) w r w') : Objs w w' := by
  unfold destroySlot at h
  obtain ⟨b, w1, h1, h2⟩ := runs_steps h
  obtain ⟨-, hb, rfl⟩ := runs_rdBlk.1 h1
  split at h2
  · cases h2
  · cases h2
  · obtain ⟨-, c, h3, rfl⟩ := runs_modCell.1 h2
    exact .upd hb

theorem objs_destroyRange {r : Unit} (h : Runs (destroyRange p i n) w r w') : Objs w w' := by
  induction n generalizing i w with
  | zero => cases h; exact .refl _
  | succ n ih =>
    unfold destroyRange at h
    obtain ⟨_, w1, h1, h2⟩ := runs_steps h
    exact (objs_destroySlot h1).trans (ih h2)

theorem objs_deallocate {r : Unit} {al : Nat} (h : Runs (deallocate al p n) w r w') : Objs w w' := by
  rcases runs_deallocate.1 h with ⟨-, rfl⟩ | ⟨_, b, -, hb, -, -, -, rfl⟩
  · exact .refl _
  · exact .upd hb

/-- The construction of an element. -/
theorem runs_construct {r : Unit} (he : w.err = none) (h : Runs (construct p i a) w r w') : Spent w w' 0 1 ∧ Objs w w' := by
  unfold construct at h
  obtain ⟨v, w1, h1, h2⟩ := runs_steps h
  obtain rfl := runs_argVal h1
  obtain ⟨b, w2, h3, h4⟩ := runs_steps h2
  unfold Runs tryCtor at h3
  simp only at h3
  split at h3
  · cases h3
    simp only [if_true] at h4
    have hq := Quiet.slotPut _ _ _ _ _ _ h4
    exact ⟨⟨hq.allocs, Nat.le_of_eq hq.ctors, fun _ => hq.ctors⟩, fun s o hs => objs_slotPut h4 s o hs⟩
  · cases h3
    simp only [Bool.false_eq_true, if_false] at h4
    cases h4
    exact ⟨⟨rfl, Nat.le_refl _, fun h => by cases h⟩, .refl _⟩

theorem runs_ucLoop {as : List (Arg V)} {r : Nat × Bool} (he : w.err = none) (h : Runs (ucLoop p i as) w r w') :
    Spent w w' 0 as.length ∧ Objs w w' ∧ (r.2 = true ↔ w'.err = none) := by
  induction as generalizing i w with
  | nil =>
    cases h
    exact ⟨.still (.refl _), .refl _, by simp [he]⟩
  | cons a as ih =>
    unfold ucLoop at h
    obtain ⟨_, w1, h1, h2⟩ := runs_steps h
    obtain ⟨b, w2, h3, h4⟩ := runs_steps h2
    cases h3
    obtain ⟨k1, k2⟩ := runs_construct he h1
    cases hw : w1.err with
    | some e =>
      simp only [hw, Option.isSome_some, if_true] at h4
      cases h4
      exact ⟨(k1.fail (by rw [hw]; simp) as.length).cast rfl (by simp; omega), k2, by simp [hw]⟩
    | none =>
      simp only [hw, Option.isSome_none, Bool.false_eq_true, if_false] at h4
      obtain ⟨k3, k4, k5⟩ := ih hw h4
      exact ⟨(k1.trans hw k3).cast rfl (by simp; omega), k2.trans k4, k5⟩

theorem runs_uninitCopy {as : List (Arg V)} {r : Nat} (he : w.err = none) (h : Runs (uninitCopy as p i) w r w') :
    Spent w w' 0 as.length ∧ Objs w w' := by
  unfold uninitCopy at h
  obtain ⟨x, w1, h1, h2⟩ := runs_steps h
  obtain ⟨k1, k2, -⟩ := runs_ucLoop he h1
  split at h2
  · cases h2; exact ⟨k1, k2⟩
  · obtain ⟨_, w2, h3, h4⟩ := runs_steps h2
    cases h4
    exact ⟨k1.quiet (Quiet.destroyRange _ _ _ _ _ _ h3), k2.trans (objs_destroyRange h3)⟩

theorem runs_shift {r : Bool} (he : w.err = none) (h : Runs (shift p i k) w r w') :
    Spent w w' 0 k ∧ Objs w w' ∧ (r = true ↔ w'.err = none) := by
  induction k generalizing w with
  | zero =>
    cases h
    exact ⟨.still (.refl _), .refl _, by simp [he]⟩
  | succ k ih =>
    unfold shift at h
    obtain ⟨_, w1, h1, h2⟩ := runs_steps h
    obtain ⟨b, w2, h3, h4⟩ := runs_steps h2
    cases h3
    obtain ⟨k1, k2⟩ := runs_construct he h1
    cases hw : w1.err with
    | some e =>
      simp only [hw, Option.isSome_some, if_true] at h4
      cases h4
      exact ⟨(k1.fail (by rw [hw]; simp) k).cast rfl (by omega), k2, by simp [hw]⟩
    | none =>
      simp only [hw, Option.isSome_none, Bool.false_eq_true, if_false] at h4
      obtain ⟨_, w3, h5, h6⟩ := runs_steps h4
      have hq := Quiet.destroySlot _ _ _ _ _ h5
      obtain ⟨k3, k4, k5⟩ := ih (hq.err.trans hw) h6
      exact ⟨(k1.trans hw (.after hq k3)).cast rfl (by omega), k2.trans ((objs_destroySlot h5).trans k4), k5⟩

theorem refs_length (p : Ptr) (i n : Nat) : (refs p i n : List (Arg V)).length = n := by simp [refs]

section sized
variable [ElemSize V]

/-- The vector `s` has a block of `n` slots now, or there is an error. -/
def Has (w' : W V) (s : Ptr) (o : Obj) (n : Nat) : Prop :=
  w'.err = none → ∃ p, w'.heap s = some (.obj { o with start := p, cap := n })

theorem spent_doReserve {r : Unit} (he : w.err = none) (ho : w.heap s = some (.obj o)) (h : Runs (doReserve s n) w r w') :
    Spent w w' 1 o.fin ∧ Has w' s o n := by
  unfold doReserve at h
  obtain ⟨o', w1, h1, h2⟩ := runs_steps h
  obtain ⟨-, h3, rfl⟩ := runs_rdObj.1 h1
  rw [ho] at h3; cases h3
  obtain ⟨p, w2, h4, h5⟩ := runs_steps h2
  obtain ⟨b, w3, h6, h7⟩ := runs_steps h5
  cases h6
  rcases runs_allocate h4 with ⟨rfl, -⟩ | ⟨x, b, -, -, h8, rfl, rfl⟩
  · simp only [Option.isSome_some, if_true] at h7
    cases h7
    exact ⟨⟨rfl, Nat.le_add_right _ _, fun h => by cases h⟩, fun h => by cases h⟩
  · rw [if_neg (by simp [he])] at h7
    obtain ⟨m, w4, h9, h10⟩ := runs_steps h7
    obtain ⟨k1, k2⟩ := runs_uninitCopy (by exact he) h9
    rw [refs_length] at k1
    have hk : Spent w1 w4 1 o.fin := ⟨by rw [k1.allocs], k1.upto, k1.all⟩
    obtain ⟨c, w5, h11, h12⟩ := runs_steps h10
    cases h11
    cases hw : w4.err with
    | some e =>
      simp only [hw, Option.isSome_some, if_true] at h12
      have hq := Quiet.deallocate _ _ _ _ _ _ h12
      exact ⟨hk.quiet hq, fun h => by rw [hq.err, hw] at h; cases h⟩
    | none =>
      simp only [hw, Option.isSome_none, Bool.false_eq_true, if_false] at h12
      obtain ⟨_, w6, h13, h14⟩ := runs_steps h12
      obtain ⟨_, w7, h15, h16⟩ := runs_steps h14
      have hq := ((Quiet.destroyRange _ _ _ _ _ _ h13).trans (Quiet.deallocate _ _ _ _ _ _ h15)).trans (Quiet.setObj _ _ _ _ _ h16)
      obtain ⟨-, rfl⟩ := runs_setObj h16
      exact ⟨hk.quiet hq, fun _ => ⟨_, upd_same _ _ _⟩⟩

theorem spent_reserve {r : Unit} (he : w.err = none) (ho : w.heap s = some (.obj o)) (h : Runs (reserve s n) w r w') :
    (n ≤ o.cap ∧ w' = w) ∨ (o.cap < n ∧ Spent w w' 1 o.fin ∧ Has w' s o n) := by
  unfold reserve at h
  obtain ⟨o', w1, h1, h2⟩ := runs_steps h
  obtain ⟨-, h3, rfl⟩ := runs_rdObj.1 h1
  rw [ho] at h3; cases h3
  split at h2
  · cases h2; exact .inl ⟨‹_›, rfl⟩
  · exact .inr ⟨by omega, spent_doReserve he ho h2⟩

theorem spent_shrink {r : Unit} (he : w.err = none) (ho : w.heap s = some (.obj o)) (h : Runs (shrinkToFit s) w r w') :
    (o.cap ≤ o.fin ∧ w' = w) ∨ (o.fin < o.cap ∧ Spent w w' 1 o.fin ∧ Has w' s o o.fin) := by
  unfold shrinkToFit at h
  obtain ⟨o', w1, h1, h2⟩ := runs_steps h
  obtain ⟨-, h3, rfl⟩ := runs_rdObj.1 h1
  rw [ho] at h3; cases h3
  split at h2
  · exact .inr ⟨by omega, spent_doReserve he ho h2⟩
  · cases h2; exact .inl ⟨by omega, rfl⟩

theorem spent_grow {r : Unit} (he : w.err = none) (ho : w.heap s = some (.obj o)) (h : Runs (grow s n) w r w') :
    Spent w w' 1 o.fin ∧ ∃ m, o.cap < m ∧ n ≤ m ∧ Has w' s o m := by
  unfold grow at h
  obtain ⟨o', w1, h1, h2⟩ := runs_steps h
  obtain ⟨-, h3, rfl⟩ := runs_rdObj.1 h1
  rw [ho] at h3; cases h3
  obtain ⟨_, w2, h5, h6⟩ := runs_steps h2
  obtain ⟨h7, rfl⟩ := of_assert h5
  simp only [gt_iff_lt, decide_eq_true_eq] at h7
  rcases spent_reserve he ho h6 with ⟨h8, -⟩ | ⟨-, h9, h10⟩
  · omega
  · refine ⟨h9, _, h7, ?_, h10⟩
    split <;> omega

/-- The number of requests of an insertion and of the elements it copies to a new block. -/
def Obj.full (o : Obj) : Nat := if o.cap = o.fin then 1 else 0

theorem spent_growIfFull {b : Bool} (he : w.err = none) (ho : w.heap s = some (.obj o)) (h : Runs (growIfFull s) w b w') :
    Spent w w' o.full (o.full * o.fin) ∧ (b = true ↔ w'.err ≠ none) ∧
      (w'.err = none → ∃ p m, (o.cap ≠ o.fin → m = o.cap) ∧ w'.heap s = some (.obj { o with start := p, cap := m })) := by
  unfold growIfFull at h
  obtain ⟨o', w1, h1, h2⟩ := runs_steps h
  obtain ⟨-, h3, rfl⟩ := runs_rdObj.1 h1
  rw [ho] at h3; cases h3
  split at h2
  · rename_i hf
    obtain ⟨_, w2, h4, h5⟩ := runs_steps h2
    cases h5
    obtain ⟨k1, m, k2, -, k3⟩ := spent_grow he ho h4
    refine ⟨k1.cast (by simp [Obj.full, hf]) (by simp [Obj.full, hf]), by cases w'.err <;> simp, fun h6 => ?_⟩
    obtain ⟨p, h7⟩ := k3 h6
    exact ⟨p, m, fun h8 => absurd hf h8, h7⟩
  · rename_i hf
    cases h2
    exact ⟨(Spent.still (.refl _)).cast (by simp [Obj.full, hf]) (by simp [Obj.full, hf]), by simp [he],
      fun _ => ⟨o.start, o.cap, fun _ => rfl, ho⟩⟩

/-- Insertion of an element before the one at `pos`. -/
theorem spent_insertValue {r : Nat} (he : w.err = none) (ho : w.heap s = some (.obj o)) (h : Runs (insertValue s pos a) w r w') :
    Spent w w' o.full (o.full * o.fin + (o.fin - pos) + 1) ∧
      (w'.err = none → ∃ p m, (o.cap ≠ o.fin → m = o.cap) ∧ w'.heap s = some (.obj { o with start := p, fin := o.fin + 1, cap := m })) := by
  unfold insertValue at h
  obtain ⟨o', w1, h1, h2⟩ := runs_steps h
  obtain ⟨-, h3, rfl⟩ := runs_rdObj.1 h1
  rw [ho] at h3; cases h3
  obtain ⟨_, w2, h4, h5⟩ := runs_steps h2
  obtain ⟨-, rfl⟩ := of_assert h4
  obtain ⟨b, w3, h6, h7⟩ := runs_steps h5
  obtain ⟨k1, k2, k3⟩ := spent_growIfFull he ho h6
  cases b with
  | true =>
    simp only [if_true] at h7
    cases h7
    have hne := k2.1 rfl
    exact ⟨(k1.fail hne (o.fin - pos + 1)).cast rfl (by omega), fun h => absurd h hne⟩
  | false =>
    simp only [Bool.false_eq_true, if_false] at h7
    have he3 : w3.err = none := Classical.byContradiction fun h => by cases k2.2 h
    obtain ⟨p, m, k5, k6⟩ := k3 he3
    obtain ⟨o', w4, h8, h9⟩ := runs_steps h7
    obtain ⟨-, h10, rfl⟩ := runs_rdObj.1 h8
    rw [k6] at h10; cases h10
    obtain ⟨_, w5, h11, h12⟩ := runs_steps h9
    obtain ⟨-, rfl⟩ := of_assert h11
    obtain ⟨c, w6, h13, h14⟩ := runs_steps h12
    obtain ⟨k7, k8, k9⟩ := runs_shift he3 h13
    have k10 := (k1.trans he3 k7).cast (Nat.add_zero _) rfl
    cases c with
    | false =>
      simp only [Bool.not_false, if_true] at h14
      cases h14
      have hne : w'.err ≠ none := fun h => by cases k9.2 h
      exact ⟨k10.fail hne 1, fun h => absurd h hne⟩
    | true =>
      simp only [Bool.not_true, Bool.false_eq_true, if_false] at h14
      have he6 := k9.1 rfl
      obtain ⟨_, w7, h15, h16⟩ := runs_steps h14
      obtain ⟨k11, k12⟩ := runs_construct he6 h15
      have k13 := (k10.trans he6 k11).cast (Nat.add_zero _) rfl
      obtain ⟨d, w8, h17, h18⟩ := runs_steps h16
      cases h17
      cases hw : w7.err with
      | some e =>
        simp only [hw, Option.isSome_some, if_true] at h18
        cases h18
        exact ⟨k13, fun h => by rw [hw] at h; cases h⟩
      | none =>
        simp only [hw, Option.isSome_none, Bool.false_eq_true, if_false] at h18
        obtain ⟨_, w9, h19, h20⟩ := runs_steps h18
        cases h20
        have hq := Quiet.setObj _ _ _ _ _ h19
        obtain ⟨-, rfl⟩ := runs_setObj h19
        exact ⟨k13.quiet hq, fun _ => ⟨p, m, k5, upd_same _ _ _⟩⟩

theorem spent_pushBack {r : Unit} (he : w.err = none) (ho : w.heap s = some (.obj o)) (h : Runs (pushBack s a) w r w') :
    Spent w w' o.full (o.full * o.fin + 1) ∧
      (w'.err = none → ∃ p m, (o.cap ≠ o.fin → m = o.cap) ∧ w'.heap s = some (.obj { o with start := p, fin := o.fin + 1, cap := m })) := by
  unfold pushBack at h
  obtain ⟨o', w1, h1, h2⟩ := runs_steps h
  obtain ⟨-, h3, rfl⟩ := runs_rdObj.1 h1
  rw [ho] at h3; cases h3
  obtain ⟨z, w2, h4, h5⟩ := runs_steps h2
  cases h5
  obtain ⟨k1, k2⟩ := spent_insertValue he ho h4
  exact ⟨k1.cast rfl (by omega), k2⟩

/-- Appending with sufficient capacity. -/
theorem spent_assignIter {as : List (Arg V)} {r : Unit} (he : w.err = none) (ho : w.heap s = some (.obj o)) (hc : o.fin + as.length ≤ o.cap)
    (h : Runs (assignIter s as) w r w') : Spent w w' 0 as.length := by
  induction as generalizing w o with
  | nil => cases h; exact .still (.refl _)
  | cons a as ih =>
    unfold assignIter at h
    simp only [List.length_cons] at hc
    obtain ⟨_, w1, h1, h2⟩ := runs_steps h
    obtain ⟨b, w2, h3, h4⟩ := runs_steps h2
    cases h3
    obtain ⟨k1, k2⟩ := spent_pushBack he ho h1
    have hf : o.full = 0 := if_neg (by omega)
    rw [hf] at k1
    have k1 := k1.cast rfl (by omega : 0 * o.fin + 1 = 1)
    cases hw : w1.err with
    | some e =>
      simp only [hw, Option.isSome_some, if_true] at h4
      cases h4
      exact (k1.fail (by rw [hw]; simp) as.length).cast rfl (by simp; omega)
    | none =>
      simp only [hw, Option.isSome_none, Bool.false_eq_true, if_false] at h4
      obtain ⟨p, m, k3, k4⟩ := k2 hw
      have k3 := k3 (by omega)
      exact (k1.trans hw (ih hw k4 (by simp only; omega) h4)).cast rfl (by simp; omega)

omit [ElemSize V] in
theorem spent_resizeLoop {r : Unit} (he : w.err = none) (h : Runs (resizeLoop s a n) w r w') : Spent w w' 0 n := by
  induction n generalizing w with
  | zero => cases h; exact .still (.refl _)
  | succ n ih =>
    unfold resizeLoop at h
    obtain ⟨o', w1, h1, h2⟩ := runs_steps h
    obtain ⟨-, -, rfl⟩ := runs_rdObj.1 h1
    obtain ⟨_, w2, h3, h4⟩ := runs_steps h2
    obtain ⟨k1, -⟩ := runs_construct he h3
    obtain ⟨b, w3, h5, h6⟩ := runs_steps h4
    cases h5
    cases hw : w2.err with
    | some e =>
      simp only [hw, Option.isSome_some, if_true] at h6
      cases h6
      exact (k1.fail (by rw [hw]; simp) n).cast rfl (by omega)
    | none =>
      simp only [hw, Option.isSome_none, Bool.false_eq_true, if_false] at h6
      obtain ⟨_, w4, h7, h8⟩ := runs_steps h6
      have hq := Quiet.setObj _ _ _ _ _ h7
      exact (k1.trans hw (.after hq (ih (hq.err.trans hw) h8))).cast rfl (by omega)

theorem spent_resize {r : Unit} (he : w.err = none) (ho : w.heap s = some (.obj o)) (h : Runs (resize s n a) w r w') :
    if o.fin < n then Spent w w' 1 n else Spent w w' 0 0 := by
  unfold resize at h
  obtain ⟨o', w1, h1, h2⟩ := runs_steps h
  obtain ⟨-, h3, rfl⟩ := runs_rdObj.1 h1
  rw [ho] at h3; cases h3
  split at h2
  · rw [if_neg (by omega)]
    exact .still (Quiet.bind (Quiet.destroyRange _ _ _) (fun _ => Quiet.setObj _ _) _ _ _ h2)
  · rw [if_pos (by omega)]
    obtain ⟨_, w2, h4, h5⟩ := runs_steps h2
    obtain ⟨k1, -⟩ := spent_grow he ho h4
    obtain ⟨b, w3, h6, h7⟩ := runs_steps h5
    cases h6
    cases hw : w2.err with
    | some e =>
      simp only [hw, Option.isSome_some, if_true] at h7
      cases h7
      exact (k1.fail (by rw [hw]; simp) (n - o.fin)).cast rfl (by omega)
    | none =>
      simp only [hw, Option.isSome_none, Bool.false_eq_true, if_false] at h7
      exact (k1.trans hw (spent_resizeLoop hw h7)).cast rfl (by omega)

omit [ElemSize V] in
/-- After `vector tmp; tmp.swap(s);` the vector `s` has no block. -/
theorem runs_emptied {r : Ptr} {r' : Unit} (hne : s ≠ .stk w.sp) (h : Runs (newVec defaultAlloc) w r w1)
    (h' : Runs (swap r s) w1 r' w2) : ∃ al, w2.heap s = some (.obj ⟨al, .null, 0, 0⟩) := by
  cases h
  unfold swap swapData at h'
  obtain ⟨o1, x1, h1, h2⟩ := runs_steps h'
  obtain ⟨-, e1, rfl⟩ := runs_rdObj.1 h1
  obtain ⟨o2, x2, h3, h4⟩ := runs_steps h2
  obtain ⟨-, e2, rfl⟩ := runs_rdObj.1 h3
  obtain ⟨_, x3, h5, h6⟩ := runs_steps h4
  obtain ⟨-, rfl⟩ := runs_setObj h5
  obtain ⟨o3, x4, h7, h8⟩ := runs_steps h6
  obtain ⟨-, e3, rfl⟩ := runs_rdObj.1 h7
  obtain ⟨_, x5, h9, h10⟩ := runs_steps h8
  obtain ⟨-, rfl⟩ := runs_setObj h9
  obtain ⟨o4, x6, h11, h12⟩ := runs_steps h10
  obtain ⟨-, e4, rfl⟩ := runs_rdObj.1 h11
  obtain ⟨o5, x7, h13, h14⟩ := runs_steps h12
  obtain ⟨-, e5, rfl⟩ := runs_rdObj.1 h13
  obtain ⟨_, x8, h15, h16⟩ := runs_steps h14
  obtain ⟨-, rfl⟩ := runs_setObj h15
  obtain ⟨o6, x9, h17, h18⟩ := runs_steps h16
  obtain ⟨-, e6, rfl⟩ := runs_rdObj.1 h17
  obtain ⟨-, rfl⟩ := runs_setObj h18
  simp only [upd_same] at e1
  cases e1
  simp only [World.setHeap_heap, upd_other _ _ hne.symm, upd_same] at e4
  cases e4
  exact ⟨_, upd_same _ _ _⟩

/-- `grow`, appending and the destruction of the old elements, as in `assign_nothrow`. -/
theorem spent_fill {as : List (Arg V)} {al : Nat} {p t : Ptr} {k : M (W V) Unit} {r : Unit} (he : w.err = none)
    (ho : w.heap s = some (.obj ⟨al, p, 0, 0⟩))
    (hk : ∀ w1 r w2, w1.err = none → (∃ o, w1.heap s = some (.obj o) ∧ o.fin = 0 ∧ as.length ≤ o.cap) → Runs k w1 r w2 → Spent w1 w2 0 as.length)
    (h : Runs (do
      grow s as.length
      if (← hasErr) then pure () else k
      destroyVec t) w r w') : Spent w w' 1 as.length := by
  obtain ⟨_, w1, h1, h2⟩ := runs_steps h
  obtain ⟨k1, m, -, k2, k3⟩ := spent_grow he ho h1
  obtain ⟨b, w2, h3, h4⟩ := runs_steps h2
  cases h3
  cases hw : w1.err with
  | some e =>
    simp only [hw, Option.isSome_some, if_true] at h4
    exact ((k1.fail (by rw [hw]; simp) as.length).cast rfl (by simp)).quiet (Quiet.destroyVec _ _ _ _ h4)
  | none =>
    simp only [hw, Option.isSome_none, Bool.false_eq_true, if_false] at h4
    obtain ⟨q, k4⟩ := k3 hw
    obtain ⟨_, w3, h5, h6⟩ := runs_steps h4
    exact ((k1.trans hw (hk _ _ _ hw ⟨_, k4, rfl, k2⟩ h5)).cast rfl (by simp)).quiet (Quiet.destroyVec _ _ _ _ h6)

theorem spent_assignN {r : Unit} (he : w.err = none) (hne : s ≠ .stk w.sp) (h : Runs (assignN s n a) w r w') : Spent w w' 1 n := by
  unfold assignN at h
  obtain ⟨t, w1, h1, h2⟩ := runs_steps h
  obtain ⟨_, w2, h3, h4⟩ := runs_steps h2
  obtain ⟨al, ho⟩ := runs_emptied hne h1 h3
  have hq := (Quiet.newVec _ _ _ _ h1).trans (Quiet.swap _ _ _ _ _ h3)
  obtain ⟨o', w3, h5, h6⟩ := runs_steps h4
  obtain ⟨-, h7, rfl⟩ := runs_rdObj.1 h5
  obtain ⟨_, w4, h8, h9⟩ := runs_steps h6
  obtain ⟨-, rfl⟩ := of_assert h8
  have hl : (List.replicate n a).length = n := List.length_replicate
  rw [← hl] at h9
  refine .after hq ((spent_fill (as := List.replicate n a) (hq.err.trans he) ho ?_ h9).cast rfl hl)
  rintro x r y hx ⟨o, h10, h11, h12⟩ h13
  rw [hl, assignLoop_eq] at h13
  exact spent_assignIter hx h10 (by omega) h13

theorem spent_assignRandom {as : List (Arg V)} {r : Unit} (he : w.err = none) (hne : s ≠ .stk w.sp) (h : Runs (assignRandom s as) w r w') :
    Spent w w' 1 as.length := by
  unfold assignRandom at h
  obtain ⟨t, w1, h1, h2⟩ := runs_steps h
  obtain ⟨_, w2, h3, h4⟩ := runs_steps h2
  obtain ⟨al, ho⟩ := runs_emptied hne h1 h3
  have hq := (Quiet.newVec _ _ _ _ h1).trans (Quiet.swap _ _ _ _ _ h3)
  obtain ⟨o', w3, h5, h6⟩ := runs_steps h4
  obtain ⟨-, h7, rfl⟩ := runs_rdObj.1 h5
  obtain ⟨_, w4, h8, h9⟩ := runs_steps h6
  obtain ⟨-, rfl⟩ := of_assert h8
  refine .after hq (spent_fill (as := as) (r := r) (t := t) (k := do assertM ((← rdObj s).fin = 0); assignIter s as) (hq.err.trans he) ho ?_ ?_)
  · rintro x r y hx ⟨o, h10, h11, h12⟩ h13
    obtain ⟨o', x1, h14, h15⟩ := runs_steps h13
    obtain ⟨-, h16, rfl⟩ := runs_rdObj.1 h14
    obtain ⟨_, x2, h17, h18⟩ := runs_steps h15
    obtain ⟨-, rfl⟩ := of_assert h17
    exact spent_assignIter hx h10 (by omega) h18
  · simpa only [bind_assoc] using h9

end sized
end Nestl.Vec
