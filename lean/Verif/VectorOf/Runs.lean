import Verif.VectorOf.NestProps
import Verif.NodeOf.Does
set_option autoImplicit false
/-
Runs of the programs of vectors of objects, in any state: which cells they write, and what they ask the allocator for.
-/
namespace Nestl.VO
open Nestl.Vec (W VCell Obj Blk rdObj setObj rdBlk slotRd slotPut deallocate allocate newVec swapData ElemSize maxBytes wrap)
open Nestl.NO (runs_dropObj)

variable {S α β : Type} {E : ElemOps S} {s s' : NS S} {p v : Ptr} {i n : Nat}

theorem of_onO {m : M (W Ptr) α} {r : α} (h : Runs (onO m) s r s') : ∃ o, Runs m s.o r o ∧ s' = ⟨o, s.i⟩ := by
  unfold Runs onO at h
  split at h
  · rename_i a o' e; cases h; exact ⟨o', e, rfl⟩
  · cases h
  · cases h

theorem of_onI {m : M S α} {r : α} (h : Runs (onI m) s r s') : ∃ i, Runs m s.i r i ∧ s' = ⟨s.o, i⟩ := by
  unfold Runs onI at h
  split at h
  · rename_i a o' e; cases h; exact ⟨o', e, rfl⟩
  · cases h
  · cases h

theorem of_failed {b : Bool} (h : Runs failed s b s') : b = s.o.err.isSome ∧ s' = s := by
  obtain ⟨o, h1, rfl⟩ := of_onO h
  cases h1; exact ⟨rfl, rfl⟩

theorem of_assert {σ : Type} {b : Bool} {s s' : σ} {r : Unit} (h : Runs (assertM b) s r s') : b = true ∧ s' = s := by
  cases b
  · cases h
  · cases h; exact ⟨rfl, rfl⟩

section prims
variable {V : Type} {w w' : W V}

theorem runs_setObj {o : Obj} {r : Unit} (h : Runs (setObj p o) w r w') :
    w.heap p ≠ none ∧ w' = w.setHeap (upd w.heap p (some (.obj o))) := by
  obtain ⟨-, c, h1, rfl⟩ := runs_modCell.1 h
  exact ⟨by rw [h1]; simp, rfl⟩

/-- A request for a block: it is too large, the allocator has no memory, or there is a new block. -/
theorem runs_allocate [ElemSize V] {a : Nat} {r : Ptr} (h : Runs (allocate a n) w r w') :
    (w' = { w with nAlloc := w.nAlloc + 1, err := some .badAlloc } ∧
      (maxBytes < wrap (n * ElemSize.size V) ∨ ∀ x, w.env.addr w.nAlloc = some x → w.heap (.dyn x) ≠ none)) ∨
    ∃ x b, wrap (n * ElemSize.size V) ≤ maxBytes ∧ w.env.addr w.nAlloc = some x ∧ w.heap (.dyn x) = none ∧ r = .dyn x ∧
      w' = { w with nAlloc := w.nAlloc + 1, heap := upd w.heap (.dyn x) (some (.blk b)) } := by
  unfold Vec.allocate Runs at h
  simp only at h
  split at h
  · rename_i hb; cases h; exact .inl ⟨rfl, .inl hb⟩
  · rename_i hb
    unfold allocCell at h
    simp only at h
    split at h
    · rename_i e
      cases h
      exact .inl ⟨rfl, .inr fun x hx => by (rw [e] at hx; cases hx)⟩
    · rename_i x e
      split at h
      · rename_i c e'
        cases h
        exact .inl ⟨rfl, .inr fun y hy => by (rw [e] at hy; cases hy; rw [e']; simp)⟩
      · rename_i e'
        cases h
        exact .inr ⟨x, _, by omega, e, e', rfl, rfl⟩

end prims

/-! ### Programs that construct and destroy elements in blocks -/

/-- Between `s` and `s'` elements were constructed and destroyed in the block at `p`; `err` says why a copy failed.  In slots below
`lo` nothing has happened. -/
structure Works (E : ElemOps S) (p : Ptr) (lo : Nat) (s s' : NS S) : Prop where
  env : s'.o.env = s.o.env
  allocs : s'.o.nAlloc = s.o.nAlloc
  sp : s'.o.sp = s.o.sp
  heap : ∀ x, x ≠ p → s'.o.heap x = s.o.heap x
  blk : ∀ b, s.o.heap p = some (.blk b) → ∃ b', s'.o.heap p = some (.blk b') ∧ ∀ j, j < lo → b'.slots[j]? = b.slots[j]?
  obj : (∀ b, s.o.heap p ≠ some (.blk b)) → s'.o.heap p = s.o.heap p
  err : s'.o.err = s.o.err ∨ ∃ e q i i', s'.o.err = some e ∧ Runs (E.copy q) i (.error e) i'

namespace Works
variable {lo : Nat}

theorem refl (s : NS S) : Works E p lo s s := ⟨rfl, rfl, rfl, fun _ _ => rfl, fun b h => ⟨b, h, fun _ _ => rfl⟩, fun _ => rfl, .inl rfl⟩

theorem trans {s1 s2 : NS S} (h : Works E p lo s s1) (h' : Works E p lo s1 s2) : Works E p lo s s2 where
  env := h'.env.trans h.env
  allocs := h'.allocs.trans h.allocs
  sp := h'.sp.trans h.sp
  heap x hx := (h'.heap x hx).trans (h.heap x hx)
  blk b hb := by
    obtain ⟨b1, h1, h2⟩ := h.blk b hb
    obtain ⟨b2, h3, h4⟩ := h'.blk b1 h1
    exact ⟨b2, h3, fun j hj => (h4 j hj).trans (h2 j hj)⟩
  obj hb := by
    have := h.obj hb
    rw [h'.obj (by rw [this]; exact hb), this]
  err := by
    rcases h'.err with h1 | h1
    · rw [h1]; exact h.err
    · exact .inr h1

theorem mono {lo' : Nat} (h : Works E p lo s s') (hl : lo' ≤ lo) : Works E p lo' s s' :=
  ⟨h.env, h.allocs, h.sp, h.heap, fun b hb => by
    obtain ⟨b', h1, h2⟩ := h.blk b hb
    exact ⟨b', h1, fun j hj => h2 j (by omega)⟩, h.obj, h.err⟩

theorem inner (i : S) : Works E p lo s ⟨s.o, i⟩ :=
  ⟨rfl, rfl, rfl, fun _ _ => rfl, fun b h => ⟨b, h, fun _ _ => rfl⟩, fun _ => rfl, .inl rfl⟩

theorem set {b : Blk Ptr} {x : Option Ptr} (hb : s.o.heap p = some (.blk b)) (hi : lo ≤ i) :
    Works E p lo s ⟨s.o.setHeap (upd s.o.heap p (some (putSlot b i x))), s.i⟩ where
  env := rfl
  allocs := rfl
  sp := rfl
  heap x hx := upd_other _ _ hx
  blk b' hb' := by
    rw [hb] at hb'; cases hb'
    exact ⟨_, upd_same _ _ _, fun j hj => by simp only; rw [List.getElem?_set_ne (by omega)]⟩
  obj h := (h _ hb).elim
  err := .inl rfl

theorem isObj (h : Works E p lo s s') {x : Ptr} {o : Obj} : s'.o.heap x = some (.obj o) ↔ s.o.heap x = some (.obj o) := by
  by_cases hx : x = p
  · subst hx
    by_cases hb : ∃ b, s.o.heap x = some (.blk b)
    · obtain ⟨b, hb⟩ := hb
      obtain ⟨b', h1, -⟩ := h.blk b hb
      rw [h1, hb]; simp
    · rw [h.obj (fun b hb' => hb ⟨b, hb'⟩)]
  · rw [h.heap x hx]

theorem dom (h : Works E p lo s s') {x : Ptr} : s'.o.heap x = none ↔ s.o.heap x = none := by
  by_cases hx : x = p
  · subst hx
    by_cases hb : ∃ b, s.o.heap x = some (.blk b)
    · obtain ⟨b, hb⟩ := hb
      obtain ⟨b', h1, -⟩ := h.blk b hb
      rw [h1, hb]; simp
    · rw [h.obj (fun b hb' => hb ⟨b, hb'⟩)]
  · rw [h.heap x hx]

end Works

theorem works_settle {lo : Nat} (hi : lo ≤ i) {q : Ptr} {r : Unit} (h : Runs (settle p i (.ok q)) s r s') :
    Works E p lo s s' ∧ s'.o.err = s.o.err ∧ ∃ b, s'.o.heap p = some (.blk b) ∧ b.slots[i]? = some (some q) := by
  obtain ⟨o, h1, rfl⟩ := of_onO h
  obtain ⟨-, b, h2, h3, rfl⟩ := runs_slotPut.1 h1
  refine ⟨.set h2 hi, rfl, _, upd_same _ _ _, ?_⟩
  have : i < b.slots.length := by
    apply Classical.byContradiction; intro hn
    rw [List.getElem?_eq_none (by omega)] at h3; cases h3
  simp [this]

/-- The construction of an element. -/
theorem works_construct {lo : Nat} (hi : lo ≤ i) {a : Arg} {r : Unit} (h : Runs (construct E p i a) s r s') :
    Works E p lo s s' ∧ ((s'.o.err = s.o.err ∧ ∃ b q, s'.o.heap p = some (.blk b) ∧ b.slots[i]? = some (some q)) ∨
      (s'.o.err ≠ none ∧ s'.o.heap = s.o.heap)) := by
  have key : ∀ {j : S} {x : Except Err Ptr}, (∀ e, x = .error e → ∃ q i0, Runs (E.copy q) i0 (.error e) j) →
      Runs (settle p i x) (⟨s.o, j⟩ : NS S) r s' → Works E p lo s s' ∧
        ((s'.o.err = s.o.err ∧ ∃ b q, s'.o.heap p = some (.blk b) ∧ b.slots[i]? = some (some q)) ∨
      (s'.o.err ≠ none ∧ s'.o.heap = s.o.heap)) := by
    intro j x hx h
    cases x with
    | ok q =>
      obtain ⟨h1, h2, b, h3⟩ := works_settle (E := E) hi h
      exact ⟨(Works.inner j).trans h1, .inl ⟨h2, b, q, h3⟩⟩
    | error e =>
      obtain ⟨q, i0, h1⟩ := hx e rfl
      cases h
      exact ⟨⟨rfl, rfl, rfl, fun _ _ => rfl, fun b h => ⟨b, h, fun _ _ => rfl⟩, fun _ => rfl, .inr ⟨e, q, i0, j, rfl, h1⟩⟩,
        .inr ⟨by simp, rfl⟩⟩
  cases a with
  | obj t =>
    obtain ⟨x, s1, h1, h2⟩ := runs_bind_iff.1 h
    obtain ⟨j, h3, rfl⟩ := of_onI h1
    exact key (fun e he => ⟨t, s.i, by rw [← he]; exact h3⟩) h2
  | mov t =>
    obtain ⟨x, s1, h1, h2⟩ := runs_bind_iff.1 h
    obtain ⟨j, h3, rfl⟩ := of_onI h1
    exact key (fun e he => by cases he) h2
  | ref b k =>
    obtain ⟨t, s1, h1, h2⟩ := runs_bind_iff.1 h
    obtain ⟨o, h3, rfl⟩ := of_onO h1
    obtain ⟨-, -, rfl⟩ := runs_slotRd.1 h3
    obtain ⟨x, s2, h4, h5⟩ := runs_bind_iff.1 h2
    obtain ⟨j, h6, rfl⟩ := of_onI h4
    exact key (fun e he => ⟨t, s.i, by rw [← he]; exact h6⟩) h5
  | none =>
    obtain ⟨x, s1, h1, h2⟩ := runs_bind_iff.1 h
    obtain ⟨j, h3, rfl⟩ := of_onI h1
    exact key (fun e he => by cases he) h2

theorem works_destroySlot {lo : Nat} (hi : lo ≤ i) {r : Unit} (h : Runs (destroySlot E p i) s r s') :
    Works E p lo s s' ∧ s'.o.err = s.o.err := by
  obtain ⟨q, s1, h1, h2⟩ := runs_bind_iff.1 h
  obtain ⟨o, h3, rfl⟩ := of_onO h1
  obtain ⟨-, -, rfl⟩ := runs_slotRd.1 h3
  obtain ⟨_, s2, h4, h5⟩ := runs_bind_iff.1 h2
  obtain ⟨j, h6, rfl⟩ := of_onI h4
  obtain ⟨o2, h7, rfl⟩ := of_onO h5
  obtain ⟨-, b, _, h8, -, rfl⟩ := runs_destroySlot.1 h7
  exact ⟨(Works.inner j).trans (.set (s := ⟨s.o, j⟩) h8 hi), rfl⟩

theorem works_destroyRange {lo : Nat} (n : Nat) : ∀ {i : Nat} {s s' : NS S} {r : Unit}, lo ≤ i → Runs (destroyRange E p i n) s r s' →
    Works E p lo s s' ∧ s'.o.err = s.o.err := by
  induction n with
  | zero => intro i s s' r hi h; cases h; exact ⟨.refl _, rfl⟩
  | succ n ih =>
    intro i s s' r hi h
    obtain ⟨_, s1, h1, h2⟩ := runs_bind_iff.1 h
    obtain ⟨h3, h4⟩ := works_destroySlot hi h1
    obtain ⟨h5, h6⟩ := ih (by omega) h2
    exact ⟨h3.trans h5, h6.trans h4⟩

theorem works_ucLoop (as : List Arg) : ∀ {i : Nat} {s s' : NS S} {r : Nat × Bool}, Runs (ucLoop E p i as) s r s' →
    Works E p 0 s s' := by
  induction as with
  | nil => intro i s s' r h; cases h; exact .refl _
  | cons a as ih =>
    intro i s s' r h
    obtain ⟨_, s1, h1, h2⟩ := runs_bind_iff.1 h
    have h3 := (works_construct (Nat.zero_le i) h1).1
    obtain ⟨b, s2, h4, h5⟩ := runs_bind_iff.1 h2
    obtain ⟨-, rfl⟩ := of_failed h4
    split at h5
    · cases h5; exact h3
    · exact h3.trans (ih h5)

theorem works_uninitCopy {as : List Arg} {r : Nat} (h : Runs (uninitCopy E as p i) s r s') : Works E p 0 s s' := by
  obtain ⟨x, s1, h1, h2⟩ := runs_bind_iff.1 h
  have h3 := works_ucLoop as h1
  split at h2
  · cases h2; exact h3
  · obtain ⟨_, s2, h4, h5⟩ := runs_bind_iff.1 h2
    cases h5
    exact h3.trans (works_destroyRange _ (Nat.zero_le _) h4).1

theorem runs_newVec {V : Type} {w w' : W V} {al : Nat} {r : Ptr} (h : Runs (newVec al) w r w') :
    r = .stk w.sp ∧ w' = { w with sp := w.sp + 1, heap := upd w.heap (.stk w.sp) (some (.obj ⟨al, .null, 0, 0⟩)) } := by
  cases h; exact ⟨rfl, rfl⟩

theorem runs_swapData {V : Type} {w w' : W V} {t : Ptr} {o u : Obj} {r : Unit} (hne : v ≠ t) (hv : w.heap v = some (.obj o)) (ht : w.heap t = some (.obj u))
    (h : Runs (swapData v t) w r w') : w' = w.setHeap (upd (upd w.heap v (some (.obj { o with start := u.start, fin := u.fin, cap := u.cap }))) t
      (some (.obj { u with start := o.start, fin := o.fin, cap := o.cap }))) := by
  unfold Vec.swapData at h
  obtain ⟨_, w1, h1, h2⟩ := runs_bind_iff.1 h
  obtain ⟨-, h3, rfl⟩ := runs_rdObj.1 h1
  rw [hv] at h3; cases h3
  obtain ⟨_, w1, h1, h3⟩ := runs_bind_iff.1 h2
  obtain ⟨-, h4, rfl⟩ := runs_rdObj.1 h1
  rw [ht] at h4; cases h4
  obtain ⟨_, w1, h1, h4⟩ := runs_bind_iff.1 h3
  obtain ⟨-, rfl⟩ := runs_setObj h1
  obtain ⟨_, w2, h5, h6⟩ := runs_bind_iff.1 h4
  obtain ⟨-, h7, rfl⟩ := runs_rdObj.1 h5
  rw [show World.heap _ t = _ from (upd_other _ _ hne.symm).trans ht] at h7
  cases h7
  obtain ⟨-, rfl⟩ := runs_setObj h6
  rfl

theorem runs_swap {V : Type} {w w' : W V} {t : Ptr} {o u : Obj} {r : Unit} (hne : v ≠ t) (hv : w.heap v = some (.obj o)) (ht : w.heap t = some (.obj u))
    (h : Runs (Vec.swap v t) w r w') : w' = w.setHeap (upd (upd w.heap v (some (.obj u))) t (some (.obj o))) := by
  unfold Vec.swap at h
  obtain ⟨_, w1, h1, h2⟩ := runs_bind_iff.1 h
  obtain ⟨-, h3, rfl⟩ := runs_rdObj.1 h1
  rw [hv] at h3; cases h3
  obtain ⟨_, w1, h1, h3⟩ := runs_bind_iff.1 h2
  obtain ⟨-, h4, rfl⟩ := runs_rdObj.1 h1
  rw [ht] at h4; cases h4
  obtain ⟨_, w1, h1, h4⟩ := runs_bind_iff.1 h3
  obtain ⟨-, rfl⟩ := runs_setObj h1
  obtain ⟨_, w2, h5, h6⟩ := runs_bind_iff.1 h4
  obtain ⟨-, h7, rfl⟩ := runs_rdObj.1 h5
  rw [show World.heap _ t = _ from (upd_other _ _ hne.symm).trans ht] at h7
  cases h7
  obtain ⟨_, w3, h8, h9⟩ := runs_bind_iff.1 h6
  obtain ⟨-, rfl⟩ := runs_setObj h8
  have := runs_swapData hne (w := _) (o := { o with alloc := u.alloc }) (u := { u with alloc := o.alloc })
    ((upd_other _ _ hne).trans (upd_same _ _ _)) (upd_same _ _ _) h9
  rw [this]
  simp only [World.setHeap]
  congr 1
  funext x
  simp only [upd_apply]
  split
  · rfl
  · split <;> rfl

end Nestl.VO
