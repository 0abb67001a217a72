import Verif.VectorOf.Asks
set_option autoImplicit false
/-
The footprint of the programs of vectors of objects: a program on a vector writes the vector object, its block, and new blocks only.
-/
namespace Nestl.VO
open Nestl.Vec (W VCell Obj Blk rdObj setObj rdBlk slotRd slotPut deallocate allocate newVec swapData ElemSize maxBytes wrap)
open Nestl.NO (runs_dropObj)

variable {S α β : Type} {E : ElemOps S} {s s' s1 s2 : NS S} {p v : Ptr} {i n k : Nat} {o : Obj} {a : Arg}

/-- Of the memory in use, only the vector object `v` and its block change; the vector keeps its block or has a new one. -/
def Foot (v : Ptr) (s s' : NS S) : Prop := ∀ o, s.o.heap v = some (.obj o) →
  ∃ o', s'.o.heap v = some (.obj o') ∧ (o'.start = o.start ∨ s.o.heap o'.start = none) ∧
    ∀ x, s.o.heap x ≠ none → x ≠ v → x ≠ o.start → s'.o.heap x = s.o.heap x

theorem Foot.refl (v : Ptr) (s : NS S) : Foot v s s := fun o h => ⟨o, h, .inl rfl, fun _ _ _ _ => rfl⟩

theorem Foot.trans (h : Foot v s s1) (h' : Foot v s1 s2) : Foot v s s2 := by
  intro o ho
  obtain ⟨o1, h1, h2, h3⟩ := h o ho
  obtain ⟨o2, h4, h5, h6⟩ := h' o1 h1
  refine ⟨o2, h4, ?_, fun x hx hv hs => ?_⟩
  · rcases h5 with h5 | h5
    · rw [h5]; exact h2
    · by_cases e : s.o.heap o2.start = none
      · exact .inr e
      · by_cases e2 : o2.start = o.start
        · exact .inl e2
        · by_cases e3 : o2.start = v
          · rw [e3, h1] at h5; cases h5
          · exact (e ((h3 _ e e3 e2).symm.trans h5)).elim
  · have h7 := h3 x hx hv hs
    rw [h6 x (by rw [h7]; exact hx) hv, h7]
    intro e
    rcases h2 with h2 | h2
    · exact hs (e.trans h2)
    · exact hx (e ▸ h2)

theorem Moved.foot (h : Moved v o n s s') (hv : s.o.heap v = some (.obj o)) : Foot v s s' := by
  intro o' ho
  rw [hv] at ho; cases ho
  rcases h with ⟨-, h⟩ | ⟨-, x, h1, h2, h3⟩
  · exact ⟨o, (h v (by rw [hv]; simp)).trans hv, .inl rfl, fun x hx _ _ => h x hx⟩
  · exact ⟨_, h2, .inr h1, fun y hy h4 h5 => h3 y h4 h5 (fun e => hy (e ▸ h1))⟩

theorem Added.foot (h : Added v o s s') (hv : s.o.heap v = some (.obj o)) : Foot v s s' := by
  intro o' ho
  rw [hv] at ho; cases ho
  rcases h with ⟨-, h⟩ | ⟨-, h1, -, h2, -⟩
  · exact ⟨o, by rw [h]; exact hv, .inl rfl, fun x _ _ _ => by rw [h]⟩
  · exact ⟨_, h1, .inl rfl, fun x _ h3 h4 => h2 x h3 h4⟩

/-- Nothing is asked for, and the footprint is that of `v`. -/
structure Stays (E : ElemOps S) (v : Ptr) (s s' : NS S) : Prop where
  calm : Calm E s s'
  sp : s'.o.sp = s.o.sp
  foot : Foot v s s'

theorem Stays.refl (v : Ptr) (s : NS S) : Stays E v s s := ⟨.refl _, rfl, .refl _ _⟩

theorem Stays.trans (h : Stays E v s s1) (h' : Stays E v s1 s2) : Stays E v s s2 :=
  ⟨h.calm.trans h'.calm, h'.sp.trans h.sp, h.foot.trans h'.foot⟩

theorem of_rdObj {w : NS S} {r : Obj} (h : Runs (onO (rdObj v)) s r w) (hv : s.o.heap v = some (.obj o)) : o = r ∧ s = w := by
  obtain ⟨w1, h3, rfl⟩ := of_onO h
  obtain ⟨-, h4, rfl⟩ := runs_rdObj.1 h3
  rw [hv] at h4; cases h4
  exact ⟨rfl, rfl⟩

section sized
variable [ElemSize Ptr]

theorem stays_assignLoop (k : Nat) : ∀ {s : NS S} {o : Obj} {r : Unit}, s.o.err = none → s.o.heap v = some (.obj o) → o.fin + k ≤ o.cap →
    Runs (assignLoop E v a k) s r s' → Stays E v s s' := by
  induction k with
  | zero => intro s o r _ _ _ h; cases h; exact .refl _ _
  | succ k ih =>
    intro s o r he hv hc h
    obtain ⟨_, s1, h1, h2⟩ := runs_bind_iff.1 h
    obtain ⟨k1, k2, k3⟩ := runs_push_room he hv (by omega) h1
    obtain ⟨b, s2, h3, h4⟩ := runs_bind_iff.1 h2
    obtain ⟨rfl, rfl⟩ := of_failed h3
    have hS : Stays E v s s2 := ⟨k1, k2, k3.foot hv⟩
    split at h4
    · cases h4; exact hS
    · rename_i hn
      have he2 : s2.o.err = none := by simpa using hn
      rcases k3 with ⟨k3, -⟩ | ⟨-, k4, -⟩
      · exact (k3 he2).elim
      · exact hS.trans (ih he2 k4 (by simp only; omega) h4)

theorem stays_assignIter (as : List Arg) : ∀ {s : NS S} {o : Obj} {r : Unit}, s.o.err = none → s.o.heap v = some (.obj o) →
    o.fin + as.length ≤ o.cap → Runs (assignIter E v as) s r s' → Stays E v s s' := by
  induction as with
  | nil => intro s o r _ _ _ h; cases h; exact .refl _ _
  | cons a as ih =>
    intro s o r he hv hc h
    have hc : o.fin + (as.length + 1) ≤ o.cap := hc
    obtain ⟨_, s1, h1, h2⟩ := runs_bind_iff.1 h
    obtain ⟨k1, k2, k3⟩ := runs_push_room he hv (by omega) h1
    obtain ⟨b, s2, h3, h4⟩ := runs_bind_iff.1 h2
    obtain ⟨rfl, rfl⟩ := of_failed h3
    have hS : Stays E v s s2 := ⟨k1, k2, k3.foot hv⟩
    split at h4
    · cases h4; exact hS
    · rename_i hn
      have he2 : s2.o.err = none := by simpa using hn
      rcases k3 with ⟨k3, -⟩ | ⟨-, k4, -⟩
      · exact (k3 he2).elim
      · exact hS.trans (ih he2 k4 (by simp only; omega) h4)

end sized

theorem stays_resizeLoop (k : Nat) : ∀ {s : NS S} {o : Obj} {r : Unit}, s.o.err = none → s.o.heap v = some (.obj o) →
    Runs (resizeLoop E v a k) s r s' → Stays E v s s' := by
  induction k with
  | zero => intro s o r _ _ h; cases h; exact .refl _ _
  | succ k ih =>
    intro s o r he hv h
    obtain ⟨_, s1, h1, h2⟩ := runs_bind_iff.1 h
    obtain ⟨rfl, rfl⟩ := of_rdObj h1 hv
    have h3 : Runs ((do construct E o.start o.fin a; if (← failed) then pure false else do onO (setObj v { o with fin := o.fin + 1 }); pure true) >>=
        fun b => if b then resizeLoop E v a k else pure ()) s r s' := by
      obtain ⟨_, s2, h4, h5⟩ := runs_bind_iff.1 h2
      obtain ⟨b, s3, h6, h7⟩ := runs_bind_iff.1 h5
      split at h7
      · rename_i hb
        exact runs_bind_iff.2 ⟨false, s3, runs_bind_iff.2 ⟨_, _, h4, runs_bind_iff.2 ⟨_, _, h6, by rw [if_pos hb]; rfl⟩⟩, h7⟩
      · rename_i hb
        obtain ⟨_, s4, h8, h9⟩ := runs_bind_iff.1 h7
        exact runs_bind_iff.2 ⟨true, s4, runs_bind_iff.2 ⟨_, _, h4, runs_bind_iff.2 ⟨_, _, h6, by
          rw [if_neg hb]; exact runs_bind_iff.2 ⟨_, _, h8, rfl⟩⟩⟩, h9⟩
    obtain ⟨b, s2, h4, h5⟩ := runs_bind_iff.1 h3
    obtain ⟨k1, k2, k3⟩ := runs_add he hv h4
    have hS : Stays E v s s2 := ⟨k1, k2, k3.foot hv⟩
    cases b with
    | false => cases h5; exact hS
    | true =>
      obtain ⟨_, s3, h6, h7⟩ := runs_bind_iff.1 h4
      obtain ⟨b, s4, h8, h9⟩ := runs_bind_iff.1 h7
      obtain ⟨rfl, rfl⟩ := of_failed h8
      split at h9
      · cases h9
      · rename_i hn
        have he4 : s4.o.err = none := by simpa using hn
        obtain ⟨_, s5, h10, h11⟩ := runs_bind_iff.1 h9
        cases h11
        obtain ⟨w, h12, rfl⟩ := of_onO h10
        obtain ⟨-, rfl⟩ := runs_setObj h12
        exact hS.trans (ih he4 (upd_same _ _ _) h5)

section sized
variable [ElemSize Ptr]

/-- `resize` to a smaller size: the elements below are not touched. -/
theorem runs_resize_less {r : Unit} (hv : s.o.heap v = some (.obj o)) (hc : n ≤ o.fin) (h : Runs (resize E v n a) s r s') :
    ∃ s1, Works E o.start n s s1 ∧ s1.o.err = s.o.err ∧ s' = ⟨s1.o.setHeap (upd s1.o.heap v (some (.obj { o with fin := n }))), s1.i⟩ := by
  unfold resize at h
  obtain ⟨_, s1, h1, h2⟩ := runs_bind_iff.1 h
  obtain ⟨rfl, rfl⟩ := of_rdObj h1 hv
  rw [if_pos hc] at h2
  obtain ⟨_, s2, h3, h4⟩ := runs_bind_iff.1 h2
  obtain ⟨w, h5, rfl⟩ := of_onO h4
  obtain ⟨-, rfl⟩ := runs_setObj h5
  obtain ⟨h6, h7⟩ := works_destroyRange _ (Nat.le_refl _) h3
  exact ⟨s2, h6, h7, rfl⟩

/-- `resize` to a larger size. -/
theorem runs_resize_more {r : Unit} (he : s.o.err = none) (hv : s.o.heap v = some (.obj o)) (hc : o.fin < n) (h : Runs (resize E v n a) s r s') :
    Fair E (some (growTo o.cap n)) s s' ∧ s'.o.sp = s.o.sp ∧ Foot v s s' := by
  unfold resize at h
  obtain ⟨_, s1, h1, h2⟩ := runs_bind_iff.1 h
  obtain ⟨rfl, rfl⟩ := of_rdObj h1 hv
  rw [if_neg (by omega)] at h2
  obtain ⟨_, s2, h3, h4⟩ := runs_bind_iff.1 h2
  obtain ⟨-, k1, k2, k3⟩ := runs_grow he hv h3
  obtain ⟨b, s3, h5, h6⟩ := runs_bind_iff.1 h4
  obtain ⟨rfl, rfl⟩ := of_failed h5
  split at h6
  · cases h6; exact ⟨k1, k2, k3.foot hv⟩
  · rename_i hn
    have he3 : s3.o.err = none := by simpa using hn
    rcases id k3 with ⟨k4, -⟩ | ⟨-, x, -, k4, -⟩
    · exact (k4 he3).elim
    · have hS := stays_resizeLoop _ he3 k4 h6
      exact ⟨k1.calm hS.calm, hS.sp.trans k2, (k3.foot hv).trans hS.foot⟩

end sized

/-! ### Destruction and exchange -/

/-- `clear`: the block is emptied. -/
theorem runs_clear {r : Unit} (hv : s.o.heap v = some (.obj o)) (h : Runs (clear E v) s r s') : Stays E v s s' := by
  unfold clear at h
  obtain ⟨_, s1, h1, h2⟩ := runs_bind_iff.1 h
  obtain ⟨rfl, rfl⟩ := of_rdObj h1 hv
  obtain ⟨_, s2, h3, h4⟩ := runs_bind_iff.1 h2
  obtain ⟨w, h5, rfl⟩ := of_onO h4
  obtain ⟨h8, rfl⟩ := runs_setObj h5
  obtain ⟨h6, h7⟩ := works_destroyRange (lo := 0) _ (Nat.zero_le _) h3
  refine ⟨h6.calm.trans (.upd h8 rfl), h6.sp, fun o' ho => ?_⟩
  rw [hv] at ho; cases ho
  exact ⟨_, upd_same _ _ _, .inl rfl, fun x _ h1 h2 => (upd_other _ _ h1).trans (h6.heap x h2)⟩

/-- The destructor: the object and its block are gone, everything else is as before. -/
theorem runs_destroyVec {r : Unit} (hv : s.o.heap v = some (.obj o)) (h : Runs (destroyVec E v) s r s') :
    Calm E s s' ∧ s'.o.err = s.o.err ∧ s'.o.sp = s.o.sp ∧ ∀ x, x ≠ v → x ≠ o.start → s'.o.heap x = s.o.heap x := by
  unfold destroyVec at h
  obtain ⟨_, s1, h1, h2⟩ := runs_bind_iff.1 h
  obtain ⟨rfl, rfl⟩ := of_rdObj h1 hv
  obtain ⟨_, s2, h3, h4⟩ := runs_bind_iff.1 h2
  obtain ⟨h6, h7⟩ := works_destroyRange (lo := 0) _ (Nat.zero_le _) h3
  obtain ⟨_, s3, h8, h9⟩ := runs_bind_iff.1 h4
  obtain ⟨w, h10, rfl⟩ := of_onO h8
  obtain ⟨w', h11, rfl⟩ := of_onO h9
  obtain ⟨h12, rfl⟩ := runs_dropObj.1 h11
  have hC : Calm E s2 ⟨w, s2.i⟩ ∧ w.err = s2.o.err ∧ w.sp = s2.o.sp ∧ ∀ y, y ≠ o.start → w.heap y = s2.o.heap y := by
    rcases runs_deallocate.1 h10 with ⟨-, rfl⟩ | ⟨_, b1, -, k1, -, -, -, rfl⟩
    · exact ⟨.refl _, rfl, rfl, fun _ _ => rfl⟩
    · exact ⟨.upd (by rw [k1]; simp) rfl, rfl, rfl, fun y hy => upd_other _ _ hy⟩
  exact ⟨(h6.calm.trans hC.1).trans (.upd h12 rfl), hC.2.1.trans h7, hC.2.2.1.trans h6.sp, fun x h1 h2 =>
    (upd_other _ _ h1).trans ((hC.2.2.2 x h2).trans (h6.heap x h2))⟩

/-! ### Assignment -/

section sized
variable [ElemSize Ptr]

omit [ElemSize Ptr] in
/-- The beginning of an assignment: `vector tmp; tmp.swap(*this);` (vector.hpp:315-317, 657-659). -/
theorem runs_begin {m : Ptr → M (NS S) α} {r : α} (hv : s.o.heap v = some (.obj o)) (hf : s.o.heap (.stk s.o.sp) = none)
    (h : Runs (do let tmp ← onO (newVec Vec.defaultAlloc); onO (Vec.swap tmp v); m tmp) s r s') :
    ∃ s1, Runs (m (.stk s.o.sp)) s1 r s' ∧ s1.o.heap v = some (.obj ⟨Vec.defaultAlloc, .null, 0, 0⟩) ∧
      s1.o.heap (.stk s.o.sp) = some (.obj o) ∧ (∀ x, x ≠ v → x ≠ .stk s.o.sp → s1.o.heap x = s.o.heap x) ∧
      s1.o.env = s.o.env ∧ s1.o.nAlloc = s.o.nAlloc ∧ s1.o.err = s.o.err := by
  obtain ⟨t, s1, h1, h2⟩ := runs_bind_iff.1 h
  obtain ⟨w1, h3, rfl⟩ := of_onO h1
  obtain ⟨rfl, rfl⟩ := runs_newVec h3
  obtain ⟨_, s2, h4, h5⟩ := runs_bind_iff.1 h2
  obtain ⟨w2, h6, rfl⟩ := of_onO h4
  have hne : Ptr.stk s.o.sp ≠ v := by rintro rfl; rw [hf] at hv; cases hv
  have := runs_swap hne (o := ⟨Vec.defaultAlloc, .null, 0, 0⟩) (u := o) (upd_same _ _ _) ((upd_other _ _ hne.symm).trans hv) h6
  subst this
  refine ⟨_, h5, upd_same _ _ _, (upd_other _ _ hne).trans (upd_same _ _ _), fun x h1 h2 => ?_, rfl, rfl, rfl⟩
  show upd (upd (upd _ _ _) _ _) _ _ x = _
  rw [upd_other _ _ h1, upd_other _ _ h2, upd_other _ _ h2]

/-- The whole of an assignment: a program on the emptied vector, then the old elements are destroyed. -/
theorem runs_assign {m : M (NS S) Unit} {r : Unit} {ask : Option Nat} (hv : s.o.heap v = some (.obj o)) (hn : s.o.heap .null = none)
    (hf : s.o.heap (.stk s.o.sp) = none) (he : s.o.err = none) (hos : o.start ≠ v ∧ o.start ≠ .stk s.o.sp)
    (hm : ∀ s1 s2 r, s1.o.err = none → s1.o.heap v = some (.obj ⟨Vec.defaultAlloc, .null, 0, 0⟩) → Runs m s1 r s2 → Fair E ask s1 s2 ∧ Foot v s1 s2)
    (h : Runs (do let tmp ← onO (newVec Vec.defaultAlloc); onO (Vec.swap tmp v); m; destroyVec E tmp) s r s') :
    Fair E ask s s' ∧ Foot v s s' := by
  obtain ⟨s1, h1, k1, k2, k3, k4, k5, k6⟩ := runs_begin hv hf h
  have hne : Ptr.stk s.o.sp ≠ v := by rintro rfl; rw [hf] at hv; cases hv
  obtain ⟨_, s2, h2, h3⟩ := runs_bind_iff.1 h1
  obtain ⟨h4, h5⟩ := hm _ _ _ (k6.trans he) k1 h2
  obtain ⟨o2, h6, h7, h8⟩ := h5 _ k1
  have h9 : s2.o.heap (.stk s.o.sp) = some (.obj o) := (h8 _ (by rw [k2]; simp) hne (by simp)).trans k2
  obtain ⟨h10, -, -, h11⟩ := runs_destroyVec h9 h3
  have hC : Calm E s s1 := ⟨k4, k5, fun x hx e => hx (by
    by_cases h : Ptr.dyn x = v
    · rw [h, hv] at e; cases e
    · rw [k3 _ h (by simp)]; exact e), .inl k6⟩
  have hnv : v ≠ .null := by rintro rfl; rw [hn] at hv; cases hv
  have hs2 : s.o.heap o2.start = none := by
    rcases h7 with h7 | h7
    · rw [h7]; exact hn
    · apply Classical.byContradiction; intro hc
      by_cases e1 : o2.start = v
      · rw [e1, k1] at h7; cases h7
      · by_cases e2 : o2.start = .stk s.o.sp
        · rw [e2, k2] at h7; cases h7
        · rw [k3 _ e1 e2] at h7; exact hc h7
  refine ⟨(hC.then k6 h4).calm h10, fun o' ho => ?_⟩
  rw [hv] at ho; cases ho
  refine ⟨o2, (h11 v hne.symm hos.1.symm).trans h6, .inr hs2, fun x hx h1 h2 => ?_⟩
  have hxt : x ≠ .stk s.o.sp := fun e => hx (e ▸ hf)
  have hx1 : s1.o.heap x = s.o.heap x := k3 x h1 hxt
  have hxn : x ≠ .null := fun e => hx (e ▸ hn)
  rw [h11 x hxt h2, h8 x (by rw [hx1]; exact hx) h1 hxn, hx1]

omit [ElemSize Ptr] in
theorem growTo_zero (n : Nat) : growTo 0 n = max 1 n := by
  have : wrap (wrap (0 + 1) * 3) / 2 = 1 := by decide
  unfold growTo
  rw [this]
  split <;> omega

/-- The common part of the assignments: grow, then add elements as long as there is room. -/
theorem fair_assign {l : M (NS S) Unit} {r : Unit} (he : s1.o.err = none) (hv : s1.o.heap v = some (.obj ⟨Vec.defaultAlloc, .null, 0, 0⟩))
    (hl : ∀ {s r o}, s.o.err = none → s.o.heap v = some (.obj o) → o.fin = 0 → n ≤ o.cap → Runs l s r s2 → Stays E v s s2)
    (h : Runs (do grow E v n; if (← failed) then pure () else l) s1 r s2) : Fair E (some (max 1 n)) s1 s2 ∧ Foot v s1 s2 := by
  obtain ⟨_, s3, h1, h2⟩ := runs_bind_iff.1 h
  obtain ⟨-, k1, -, k2⟩ := runs_grow he hv h1
  simp only [growTo_zero] at k1 k2
  obtain ⟨b, s4, h3, h4⟩ := runs_bind_iff.1 h2
  obtain ⟨rfl, rfl⟩ := of_failed h3
  split at h4
  · cases h4; exact ⟨k1, k2.foot hv⟩
  · rename_i hn
    have he4 : s4.o.err = none := by simpa using hn
    rcases id k2 with ⟨k4, -⟩ | ⟨-, x, -, k4, -⟩
    · exact (k4 he4).elim
    · have hS := hl he4 k4 rfl (Nat.le_max_right _ _) h4
      exact ⟨k1.calm hS.calm, (k2.foot hv).trans hS.foot⟩

theorem runs_assignN {r : Unit} (hv : s.o.heap v = some (.obj o)) (hn : s.o.heap .null = none)
    (hf : s.o.heap (.stk s.o.sp) = none) (he : s.o.err = none) (hos : o.start ≠ v ∧ o.start ≠ .stk s.o.sp)
    (h : Runs (assignN E v n a) s r s') : Fair E (some (max 1 n)) s s' ∧ Foot v s s' := by
  refine runs_assign (r := r) (m := do
    let o ← onO (rdObj v)
    assertM (o.fin = 0)
    grow E v n
    if (← failed) then pure () else assignLoop E v a n) hv hn hf he hos ?_ ?_
  · intro s1 s2 r he1 hv1 h
    obtain ⟨_, s3, h1, h2⟩ := runs_bind_iff.1 h
    obtain ⟨rfl, rfl⟩ := of_rdObj h1 hv1
    obtain ⟨_, s4, h3, h4⟩ := runs_bind_iff.1 h2
    obtain ⟨-, rfl⟩ := of_assert h3
    exact fair_assign he1 hv1 (fun h1 h2 h3 h4 h5 => stays_assignLoop _ h1 h2 (by omega) h5) h4
  · unfold assignN at h
    obtain ⟨t, s1, h1, h⟩ := runs_bind_iff.1 h
    refine runs_bind_iff.2 ⟨t, s1, h1, ?_⟩
    obtain ⟨_, s2, h2, h⟩ := runs_bind_iff.1 h
    refine runs_bind_iff.2 ⟨_, s2, h2, ?_⟩
    obtain ⟨x, s3, h3, h⟩ := runs_bind_iff.1 h
    obtain ⟨_, s4, h4, h⟩ := runs_bind_iff.1 h
    obtain ⟨_, s5, h5, h⟩ := runs_bind_iff.1 h
    obtain ⟨b, s6, h6, h⟩ := runs_bind_iff.1 h
    have : ∃ s7, Runs (if b = true then pure () else assignLoop E v a n) s6 () s7 ∧ Runs (destroyVec E t) s7 r s' := by
      split at h
      · rename_i hb
        exact ⟨s6, by rw [if_pos hb]; rfl, h⟩
      · rename_i hb
        obtain ⟨_, s7, h7, h⟩ := runs_bind_iff.1 h
        exact ⟨s7, by rw [if_neg hb]; exact h7, h⟩
    obtain ⟨s7, h7, h8⟩ := this
    exact runs_bind_iff.2 ⟨_, s7, runs_bind_iff.2 ⟨_, _, h3, runs_bind_iff.2 ⟨_, _, h4, runs_bind_iff.2 ⟨_, _, h5,
      runs_bind_iff.2 ⟨_, _, h6, h7⟩⟩⟩⟩, h8⟩

theorem runs_assignRandom {r : Unit} {src : List Arg} (hv : s.o.heap v = some (.obj o)) (hn : s.o.heap .null = none)
    (hf : s.o.heap (.stk s.o.sp) = none) (he : s.o.err = none) (hos : o.start ≠ v ∧ o.start ≠ .stk s.o.sp)
    (h : Runs (assignRandom E v src) s r s') : Fair E (some (max 1 src.length)) s s' ∧ Foot v s s' := by
  refine runs_assign (r := r) (m := do
    let o ← onO (rdObj v)
    assertM (o.fin = 0)
    grow E v src.length
    if (← failed) then pure () else do
      let o ← onO (rdObj v)
      assertM (o.fin = 0)
      assignIter E v src) hv hn hf he hos ?_ ?_
  · intro s1 s2 r he1 hv1 h
    obtain ⟨_, s3, h1, h2⟩ := runs_bind_iff.1 h
    obtain ⟨rfl, rfl⟩ := of_rdObj h1 hv1
    obtain ⟨_, s4, h3, h4⟩ := runs_bind_iff.1 h2
    obtain ⟨-, rfl⟩ := of_assert h3
    refine fair_assign he1 hv1 (fun h1 h2 h3 h4 h5 => ?_) h4
    obtain ⟨_, s5, h6, h7⟩ := runs_bind_iff.1 h5
    obtain ⟨rfl, rfl⟩ := of_rdObj h6 h2
    obtain ⟨_, s6, h8, h9⟩ := runs_bind_iff.1 h7
    obtain ⟨-, rfl⟩ := of_assert h8
    exact stays_assignIter _ h1 h2 (by omega) h9
  · unfold assignRandom at h
    obtain ⟨t, s1, h1, h⟩ := runs_bind_iff.1 h
    refine runs_bind_iff.2 ⟨t, s1, h1, ?_⟩
    obtain ⟨_, s2, h2, h⟩ := runs_bind_iff.1 h
    refine runs_bind_iff.2 ⟨_, s2, h2, ?_⟩
    obtain ⟨x, s3, h3, h⟩ := runs_bind_iff.1 h
    obtain ⟨_, s4, h4, h⟩ := runs_bind_iff.1 h
    obtain ⟨_, s5, h5, h⟩ := runs_bind_iff.1 h
    obtain ⟨b, s6, h6, h⟩ := runs_bind_iff.1 h
    have : ∃ s7, Runs (if b = true then pure () else do
        let o ← onO (rdObj v)
        assertM (o.fin = 0)
        assignIter E v src) s6 () s7 ∧ Runs (destroyVec E t) s7 r s' := by
      split at h
      · rename_i hb
        exact ⟨s6, by rw [if_pos hb]; rfl, h⟩
      · rename_i hb
        obtain ⟨_, s7, h7, h⟩ := runs_bind_iff.1 h
        obtain ⟨_, s8, h8, h⟩ := runs_bind_iff.1 h
        obtain ⟨_, s9, h9, h⟩ := runs_bind_iff.1 h
        exact ⟨s9, by rw [if_neg hb]; exact runs_bind_iff.2 ⟨_, _, h7, runs_bind_iff.2 ⟨_, _, h8, h9⟩⟩, h⟩
    obtain ⟨s7, h7, h8⟩ := this
    exact runs_bind_iff.2 ⟨_, s7, runs_bind_iff.2 ⟨_, _, h3, runs_bind_iff.2 ⟨_, _, h4, runs_bind_iff.2 ⟨_, _, h5,
      runs_bind_iff.2 ⟨_, _, h6, h7⟩⟩⟩⟩, h8⟩

end sized
end Nestl.VO
