import Verif.VectorOf.Runs
set_option autoImplicit false
/-
What the programs of vectors of objects ask the allocator for, and which memory they use.
-/
namespace Nestl.VO
open Nestl.Vec (W VCell Obj Blk rdObj setObj rdBlk slotRd slotPut deallocate allocate newVec swapData ElemSize maxBytes wrap)
open Nestl.NO (runs_dropObj)

variable {S α β : Type} [ElemSize Ptr] {E : ElemOps S} {s s' s1 s2 : NS S} {p v : Ptr} {i n k : Nat} {o : Obj} {a : Arg}

/-- The allocator refuses a request for `n` elements: they are too large, or it has no memory. -/
def Refused (w : W Ptr) (n : Nat) : Prop :=
  maxBytes < wrap (n * ElemSize.size Ptr) ∨ ∀ x, w.env.addr w.nAlloc = some x → w.heap (.dyn x) ≠ none

/-- The program asks for memory at most once, for `ask` elements, and it reports what has happened. -/
structure Fair (E : ElemOps S) (ask : Option Nat) (s s' : NS S) : Prop where
  env : s'.o.env = s.o.env
  allocs : s'.o.nAlloc = s.o.nAlloc + if ask.isSome then 1 else 0
  dyn : ∀ x, s'.o.heap (.dyn x) ≠ none → s.o.heap (.dyn x) ≠ none ∨ (ask.isSome ∧ s.o.env.addr s.o.nAlloc = some x)
  good : s'.o.err = none → ∀ n, ask = some n → wrap (n * ElemSize.size Ptr) ≤ maxBytes ∧ s.o.env.addr s.o.nAlloc ≠ none
  bad : ∀ e, s'.o.err = some e → (e = .badAlloc ∧ ∃ n, ask = some n ∧ Refused s.o n) ∨ ∃ q i i', Runs (E.copy q) i (.error e) i'

/-- Nothing is asked for. -/
structure Calm (E : ElemOps S) (s s' : NS S) : Prop where
  env : s'.o.env = s.o.env
  allocs : s'.o.nAlloc = s.o.nAlloc
  dyn : ∀ x, s'.o.heap (.dyn x) ≠ none → s.o.heap (.dyn x) ≠ none
  err : s'.o.err = s.o.err ∨ ∃ e q i i', s'.o.err = some e ∧ Runs (E.copy q) i (.error e) i'

omit [ElemSize Ptr] in
theorem Works.calm {lo : Nat} (h : Works E p lo s s') : Calm E s s' :=
  ⟨h.env, h.allocs, fun x hx e => hx (h.dom.2 e), h.err⟩

omit [ElemSize Ptr] in
theorem Calm.refl (s : NS S) : Calm E s s := ⟨rfl, rfl, fun _ h => h, .inl rfl⟩

omit [ElemSize Ptr] in
theorem Calm.trans (h : Calm E s s1) (h' : Calm E s1 s2) : Calm E s s2 where
  env := h'.env.trans h.env
  allocs := h'.allocs.trans h.allocs
  dyn x hx := h.dyn x (h'.dyn x hx)
  err := by
    rcases h'.err with h1 | h1
    · rw [h1]; exact h.err
    · exact .inr h1

omit [ElemSize Ptr] in
/-- A step that changes the memory only. -/
theorem Calm.of_heap {w : W Ptr} {j : S} (h1 : w.env = s.o.env) (h2 : w.nAlloc = s.o.nAlloc) (h3 : w.err = s.o.err)
    (h4 : ∀ x, w.heap (.dyn x) ≠ none → s.o.heap (.dyn x) ≠ none) : Calm E s ⟨w, j⟩ := ⟨h1, h2, h4, .inl h3⟩

omit [ElemSize Ptr] in
theorem Calm.upd {w : W Ptr} {j : S} {x : Ptr} {c : Option (VCell Ptr)} (hx : s.o.heap x ≠ none) (hw : w = s.o.setHeap (upd s.o.heap x c)) :
    Calm E s ⟨w, j⟩ := by
  subst hw
  refine .of_heap rfl rfl rfl fun y hy => ?_
  simp only [World.setHeap, upd_apply] at hy
  split at hy
  · rename_i e; rw [e]; exact hx
  · exact hy

theorem Calm.fair (h : Calm E s s') (he : s.o.err = none) : Fair E none s s' where
  env := h.env
  allocs := h.allocs
  dyn x hx := .inl (h.dyn x hx)
  good _ n hn := by cases hn
  bad e h1 := by
    rcases h.err with h2 | ⟨e', q, i, i', h2, h3⟩
    · rw [h1, he] at h2; cases h2
    · rw [h1] at h2; cases h2; exact .inr ⟨q, i, i', h3⟩

theorem Fair.calm {ask : Option Nat} (h : Fair E ask s s1) (h' : Calm E s1 s2) : Fair E ask s s2 where
  env := h'.env.trans h.env
  allocs := h'.allocs.trans h.allocs
  dyn x hx := h.dyn x (h'.dyn x hx)
  good he := by
    rcases h'.err with h1 | ⟨e, _, _, _, h1, -⟩
    · exact h.good (h1 ▸ he)
    · rw [he] at h1; cases h1
  bad e he := by
    rcases h'.err with h1 | ⟨e', q, i, i', h1, h2⟩
    · exact h.bad e (h1 ▸ he)
    · rw [he] at h1; cases h1; exact .inr ⟨q, i, i', h2⟩

theorem Calm.then {ask : Option Nat} (h : Calm E s s1) (he : s1.o.err = s.o.err) (h' : Fair E ask s1 s2) : Fair E ask s s2 where
  env := h'.env.trans h.env
  allocs := by rw [h'.allocs, h.allocs]
  dyn x hx := by
    rcases h'.dyn x hx with h1 | h1
    · exact .inl (h.dyn x h1)
    · rw [h.env, h.allocs] at h1; exact .inr h1
  good he n hn := by
    have := h'.good he n hn
    rw [h.env, h.allocs] at this
    exact this
  bad e he := by
    rcases h'.bad e he with ⟨h1, n, h2, h3⟩ | h1
    · refine .inl ⟨h1, n, h2, ?_⟩
      rcases h3 with h3 | h3
      · exact .inl h3
      · rw [h.env, h.allocs] at h3
        exact .inr fun x hx => h.dyn x (h3 x hx)
    · exact .inr h1

/-! ### Reallocation -/

/-- What a reallocation to `n` elements leaves: either there is an error and everything is as it was, or the vector has a new block. -/
def Moved (v : Ptr) (o : Obj) (n : Nat) (s s' : NS S) : Prop :=
  (s'.o.err ≠ none ∧ ∀ x, s.o.heap x ≠ none → s'.o.heap x = s.o.heap x) ∨
    (s'.o.err = none ∧ ∃ x, s.o.heap (.dyn x) = none ∧ s'.o.heap v = some (.obj { o with start := .dyn x, cap := n }) ∧
      ∀ y, y ≠ v → y ≠ o.start → y ≠ .dyn x → s'.o.heap y = s.o.heap y)

theorem runs_doReserve {r : Unit} (he : s.o.err = none) (hv : s.o.heap v = some (.obj o)) (h : Runs (doReserve E v n) s r s') :
    Fair E (some n) s s' ∧ s'.o.sp = s.o.sp ∧ Moved v o n s s' := by
  unfold doReserve at h
  obtain ⟨o', s1, h1, h2⟩ := runs_bind_iff.1 h
  obtain ⟨w1, h3, rfl⟩ := of_onO h1
  obtain ⟨-, h4, rfl⟩ := runs_rdObj.1 h3
  rw [hv] at h4; cases h4
  obtain ⟨p, s2, h5, h6⟩ := runs_bind_iff.1 h2
  obtain ⟨w2, h7, rfl⟩ := of_onO h5
  obtain ⟨b, s3, h8, h9⟩ := runs_bind_iff.1 h6
  obtain ⟨rfl, rfl⟩ := of_failed h8
  rcases runs_allocate h7 with ⟨rfl, h10⟩ | ⟨x, b, h10, h11, h12, rfl, rfl⟩
  · simp only [Option.isSome_some, if_true] at h9
    cases h9
    refine ⟨⟨rfl, rfl, fun x hx => .inl hx, fun h => (by cases h), fun e h => ?_⟩, rfl, .inl ⟨by simp, fun _ _ => rfl⟩⟩
    cases h
    exact .inl ⟨rfl, n, rfl, h10⟩
  · rw [if_neg (by simp [he])] at h9
    obtain ⟨m, s4, h13, h14⟩ := runs_bind_iff.1 h9
    have hw := works_uninitCopy h13
    have hF0 : Fair E (some n) s ⟨{ s.o with nAlloc := s.o.nAlloc + 1, heap := upd s.o.heap (.dyn x) (some (.blk b)) }, s.i⟩ := by
      refine ⟨rfl, rfl, fun y hy => ?_, fun _ m hm => ?_, fun e h => ?_⟩
      · simp only [upd_apply] at hy
        split at hy
        · rename_i e; cases e; exact .inr ⟨rfl, h11⟩
        · exact .inl hy
      · cases hm; exact ⟨h10, by rw [h11]; simp⟩
      · rw [show s.o.err = some e from h] at he; cases he
    have hF := hF0.calm hw.calm
    have hsame : ∀ y, y ≠ .dyn x → s4.o.heap y = s.o.heap y := fun y hy => (hw.heap y hy).trans (upd_other _ _ hy)
    obtain ⟨b', hb', -⟩ := hw.blk b (upd_same _ _ _)
    obtain ⟨c, s5, h15, h16⟩ := runs_bind_iff.1 h14
    obtain ⟨rfl, rfl⟩ := of_failed h15
    cases he4 : s5.o.err with
    | some e =>
      simp only [he4, Option.isSome_some, if_true] at h16
      obtain ⟨w6, h17, rfl⟩ := of_onO h16
      rcases runs_deallocate.1 h17 with ⟨h18, -⟩ | ⟨_, b1, -, h18, -, -, -, rfl⟩
      · cases h18
      · refine ⟨hF.calm (.upd (by rw [h18]; simp) rfl), hw.sp, .inl ⟨by simp [World.setHeap, he4], fun y hy => ?_⟩⟩
        have hyx : y ≠ .dyn x := fun e => hy (e ▸ h12)
        show upd s5.o.heap _ _ y = _
        rw [upd_other _ _ hyx, hsame y hyx]
    | none =>
      simp only [he4, Option.isSome_none, Bool.false_eq_true, if_false] at h16
      obtain ⟨_, s6, h17, h18⟩ := runs_bind_iff.1 h16
      obtain ⟨hw2, he6⟩ := works_destroyRange (lo := 0) _ (Nat.zero_le _) h17
      obtain ⟨_, s7, h19, h20⟩ := runs_bind_iff.1 h18
      obtain ⟨w7, h21, rfl⟩ := of_onO h19
      obtain ⟨w8, h22, rfl⟩ := of_onO h20
      obtain ⟨h23, rfl⟩ := runs_setObj h22
      have hC : Calm E s6 ⟨w7, s6.i⟩ ∧ w7.err = s6.o.err ∧ w7.sp = s6.o.sp ∧ ∀ y, y ≠ o.start → w7.heap y = s6.o.heap y := by
        rcases runs_deallocate.1 h21 with ⟨-, rfl⟩ | ⟨_, b1, -, k1, -, -, -, rfl⟩
        · exact ⟨.refl _, rfl, rfl, fun _ _ => rfl⟩
        · exact ⟨.upd (by rw [k1]; simp) rfl, rfl, rfl, fun y hy => upd_other _ _ hy⟩
      refine ⟨((hF.calm hw2.calm).calm hC.1).calm (.upd h23 rfl), hC.2.2.1.trans (hw2.sp.trans hw.sp),
        .inr ⟨hC.2.1.trans (he6.trans he4), x, h12, upd_same _ _ _, fun y h1 h2 h3 => ?_⟩⟩
      show upd w7.heap _ _ y = _
      rw [upd_other _ _ h1, hC.2.2.2 y h2, hw2.heap y h2, hsame y h3]

/-- The capacity that `grow` asks for: vector.hpp:796-811. -/
def growTo (cap required : Nat) : Nat :=
  if wrap (wrap (cap + 1) * 3) / 2 < required then required else wrap (wrap (cap + 1) * 3) / 2

theorem runs_reserve {r : Unit} (he : s.o.err = none) (hv : s.o.heap v = some (.obj o)) (h : Runs (reserve E v n) s r s') :
    (n ≤ o.cap ∧ s' = s) ∨ (o.cap < n ∧ Fair E (some n) s s' ∧ s'.o.sp = s.o.sp ∧ Moved v o n s s') := by
  unfold reserve at h
  obtain ⟨o', s1, h1, h2⟩ := runs_bind_iff.1 h
  obtain ⟨w1, h3, rfl⟩ := of_onO h1
  obtain ⟨-, h4, rfl⟩ := runs_rdObj.1 h3
  rw [hv] at h4; cases h4
  split at h2
  · cases h2; exact .inl ⟨‹_›, rfl⟩
  · exact .inr ⟨by omega, runs_doReserve he hv h2⟩

theorem runs_shrink {r : Unit} (he : s.o.err = none) (hv : s.o.heap v = some (.obj o)) (h : Runs (shrinkToFit E v) s r s') :
    (o.cap ≤ o.fin ∧ s' = s) ∨ (o.fin < o.cap ∧ Fair E (some o.fin) s s' ∧ s'.o.sp = s.o.sp ∧ Moved v o o.fin s s') := by
  unfold shrinkToFit at h
  obtain ⟨o', s1, h1, h2⟩ := runs_bind_iff.1 h
  obtain ⟨w1, h3, rfl⟩ := of_onO h1
  obtain ⟨-, h4, rfl⟩ := runs_rdObj.1 h3
  rw [hv] at h4; cases h4
  split at h2
  · exact .inr ⟨by omega, runs_doReserve he hv h2⟩
  · cases h2; exact .inl ⟨by omega, rfl⟩

theorem runs_grow {r : Unit} (he : s.o.err = none) (hv : s.o.heap v = some (.obj o)) (h : Runs (grow E v n) s r s') :
    o.cap < growTo o.cap n ∧ Fair E (some (growTo o.cap n)) s s' ∧ s'.o.sp = s.o.sp ∧ Moved v o (growTo o.cap n) s s' := by
  unfold grow at h
  obtain ⟨o', s1, h1, h2⟩ := runs_bind_iff.1 h
  obtain ⟨w1, h3, rfl⟩ := of_onO h1
  obtain ⟨-, h4, rfl⟩ := runs_rdObj.1 h3
  rw [hv] at h4; cases h4
  obtain ⟨_, s2, h5, h6⟩ := runs_bind_iff.1 h2
  obtain ⟨h7, rfl⟩ := of_assert h5
  have h7 : o.cap < growTo o.cap n := by simpa [growTo] using h7
  rcases runs_reserve he hv h6 with ⟨h8, -⟩ | h8
  · have : growTo o.cap n ≤ o.cap := h8
    omega
  · exact h8

/-! ### Elements at the end -/

/-- What the construction of an element behind the last one leaves. -/
def Added (v : Ptr) (o : Obj) (s s' : NS S) : Prop :=
  (s'.o.err ≠ none ∧ s'.o.heap = s.o.heap) ∨
    (s'.o.err = s.o.err ∧ s'.o.heap v = some (.obj { o with fin := o.fin + 1 }) ∧ v ≠ o.start ∧
      (∀ y, y ≠ v → y ≠ o.start → s'.o.heap y = s.o.heap y) ∧
      ∃ b b' q, s.o.heap o.start = some (.blk b) ∧ s'.o.heap o.start = some (.blk b') ∧ b'.slots[o.fin]? = some (some q) ∧
        ∀ j, j < o.fin → b'.slots[j]? = b.slots[j]?)

omit [ElemSize Ptr] in
/-- The end of `insert_value` and a step of `do_resize`. -/
theorem runs_add {γ : Type} {x y : γ} {r : γ} (he : s.o.err = none) (hv : s.o.heap v = some (.obj o))
    (h : Runs (do construct E o.start o.fin a; if (← failed) then pure x else do onO (setObj v { o with fin := o.fin + 1 }); pure y) s r s') :
    Calm E s s' ∧ s'.o.sp = s.o.sp ∧ Added v o s s' := by
  obtain ⟨_, s1, h1, h2⟩ := runs_bind_iff.1 h
  obtain ⟨hw, h3⟩ := works_construct (Nat.le_refl _) h1
  obtain ⟨c, s2, h4, h5⟩ := runs_bind_iff.1 h2
  obtain ⟨rfl, rfl⟩ := of_failed h4
  rcases h3 with ⟨h3, b', q, h6, h7⟩ | ⟨h3, h6⟩
  · rw [h3, he] at h5
    simp only [Option.isSome_none, Bool.false_eq_true, if_false] at h5
    obtain ⟨_, s3, h8, h9⟩ := runs_bind_iff.1 h5
    cases h9
    obtain ⟨w, h10, rfl⟩ := of_onO h8
    obtain ⟨h11, rfl⟩ := runs_setObj h10
    have hb : ∃ b, s.o.heap o.start = some (.blk b) := by
      apply Classical.byContradiction; intro hn
      have := hw.obj fun b hb => hn ⟨b, hb⟩
      rw [h6] at this
      exact hn ⟨_, this.symm⟩
    obtain ⟨b, hb⟩ := hb
    have hne : v ≠ o.start := by intro e; rw [e, hb] at hv; cases hv
    obtain ⟨b1, h12, h13⟩ := hw.blk b hb
    rw [h6] at h12; cases h12
    refine ⟨hw.calm.trans (.upd h11 rfl), hw.sp, .inr ⟨h3, upd_same _ _ _, hne, fun y h1 h2 => ?_, b, b', q, hb, ?_, h7, h13⟩⟩
    · show upd s2.o.heap _ _ y = _
      rw [upd_other _ _ h1, hw.heap y h2]
    · show upd s2.o.heap _ _ _ = _
      rw [upd_other _ _ hne.symm, h6]
  · have : s2.o.err.isSome = true := by cases e : s2.o.err <;> simp_all
    simp only [this, if_true] at h5
    cases h5
    exact ⟨hw.calm, hw.sp, .inl ⟨h3, h6⟩⟩

/-- `push_back` on a vector with room for another element. -/
theorem runs_push_room {r : Unit} (he : s.o.err = none) (hv : s.o.heap v = some (.obj o)) (hc : o.fin < o.cap)
    (h : Runs (pushBack E v a) s r s') : Calm E s s' ∧ s'.o.sp = s.o.sp ∧ Added v o s s' := by
  unfold pushBack at h
  obtain ⟨o', s1, h1, h2⟩ := runs_bind_iff.1 h
  obtain ⟨w1, h3, rfl⟩ := of_onO h1
  obtain ⟨-, h4, rfl⟩ := runs_rdObj.1 h3
  rw [hv] at h4; cases h4
  obtain ⟨z, s2, h5, h6⟩ := runs_bind_iff.1 h2
  cases h6
  unfold insertValue growIfFull at h5
  obtain ⟨o', s1, h1, h2⟩ := runs_bind_iff.1 h5
  obtain ⟨w1, h3, rfl⟩ := of_onO h1
  obtain ⟨-, h4, rfl⟩ := runs_rdObj.1 h3
  rw [hv] at h4; cases h4
  obtain ⟨_, s3, h7, h8⟩ := runs_bind_iff.1 h2
  obtain ⟨-, rfl⟩ := of_assert h7
  obtain ⟨b, s4, h9, h10⟩ := runs_bind_iff.1 h8
  obtain ⟨o', s1, h1, h2⟩ := runs_bind_iff.1 h9
  obtain ⟨w1, h3, rfl⟩ := of_onO h1
  obtain ⟨-, h4, rfl⟩ := runs_rdObj.1 h3
  rw [hv] at h4; cases h4
  rw [if_neg (by omega)] at h2
  cases h2
  simp only [Bool.false_eq_true, if_false] at h10
  obtain ⟨o', s1, h1, h2⟩ := runs_bind_iff.1 h10
  obtain ⟨w1, h3, rfl⟩ := of_onO h1
  obtain ⟨-, h4, rfl⟩ := runs_rdObj.1 h3
  rw [hv] at h4; cases h4
  obtain ⟨_, s3, h7, h8⟩ := runs_bind_iff.1 h2
  obtain ⟨-, rfl⟩ := of_assert h7
  rw [Nat.sub_self] at h8
  obtain ⟨b, s4, h11, h12⟩ := runs_bind_iff.1 h8
  cases h11
  simp only [Bool.not_true, Bool.false_eq_true, if_false] at h12
  exact runs_add he hv h12

/-- `push_back` on a full vector. -/
theorem runs_push_full {r : Unit} (he : s.o.err = none) (hv : s.o.heap v = some (.obj o)) (hc : o.fin = o.cap)
    (h : Runs (pushBack E v a) s r s') : ∃ s1, Fair E (some (growTo o.cap (wrap (o.cap + 1)))) s s1 ∧ s1.o.sp = s.o.sp ∧
      Moved v o (growTo o.cap (wrap (o.cap + 1))) s s1 ∧
      ((s1.o.err ≠ none ∧ s' = s1) ∨ ∃ o', s1.o.err = none ∧ s1.o.heap v = some (.obj o') ∧ o'.fin = o.fin ∧ o.fin < o'.cap ∧
        Calm E s1 s' ∧ s'.o.sp = s1.o.sp ∧ Added v o' s1 s') := by
  unfold pushBack at h
  obtain ⟨o', s1, h1, h2⟩ := runs_bind_iff.1 h
  obtain ⟨w1, h3, rfl⟩ := of_onO h1
  obtain ⟨-, h4, rfl⟩ := runs_rdObj.1 h3
  rw [hv] at h4; cases h4
  obtain ⟨z, s2, h5, h6⟩ := runs_bind_iff.1 h2
  cases h6
  unfold insertValue growIfFull at h5
  obtain ⟨o', s1, h1, h2⟩ := runs_bind_iff.1 h5
  obtain ⟨w1, h3, rfl⟩ := of_onO h1
  obtain ⟨-, h4, rfl⟩ := runs_rdObj.1 h3
  rw [hv] at h4; cases h4
  obtain ⟨_, s3, h7, h8⟩ := runs_bind_iff.1 h2
  obtain ⟨-, rfl⟩ := of_assert h7
  obtain ⟨b, s4, h9, h10⟩ := runs_bind_iff.1 h8
  obtain ⟨o', s1, h1, h2⟩ := runs_bind_iff.1 h9
  obtain ⟨w1, h3, rfl⟩ := of_onO h1
  obtain ⟨-, h4, rfl⟩ := runs_rdObj.1 h3
  rw [hv] at h4; cases h4
  rw [if_pos hc.symm] at h2
  obtain ⟨_, s5, h11, h12⟩ := runs_bind_iff.1 h2
  obtain ⟨rfl, rfl⟩ := of_failed h12
  obtain ⟨k1, k2, k3, k4⟩ := runs_grow he hv h11
  refine ⟨s4, k2, k3, k4, ?_⟩
  cases he4 : s4.o.err with
  | some e =>
    simp only [he4, Option.isSome_some, if_true] at h10
    cases h10
    exact .inl ⟨by simp, rfl⟩
  | none =>
    simp only [he4, Option.isSome_none, Bool.false_eq_true, if_false] at h10
    rcases k4 with ⟨k4, -⟩ | ⟨-, x, -, k5, -⟩
    · exact (k4 he4).elim
    obtain ⟨o', s1, h1, h2⟩ := runs_bind_iff.1 h10
    obtain ⟨w1, h3, rfl⟩ := of_onO h1
    obtain ⟨-, h4, rfl⟩ := runs_rdObj.1 h3
    rw [k5] at h4; cases h4
    obtain ⟨_, s3, h7, h8⟩ := runs_bind_iff.1 h2
    obtain ⟨-, rfl⟩ := of_assert h7
    rw [Nat.sub_self] at h8
    obtain ⟨b, s5, h13, h14⟩ := runs_bind_iff.1 h8
    cases h13
    simp only [Bool.not_true, Bool.false_eq_true, if_false] at h14
    exact .inr ⟨_, rfl, k5, rfl, by simp only; omega, runs_add he4 k5 h14⟩

end Nestl.VO
