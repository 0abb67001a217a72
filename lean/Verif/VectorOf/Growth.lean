import Verif.VectorOf.RefProps
import Verif.VectorOf.RefDemo
import Verif.Vector.Props2
set_option autoImplicit false
/-
Property theorems about the growth of vectors of objects (C130).
-/
namespace Nestl.VO
open Nestl.Vec (W VCell Obj Blk rdObj setObj rdBlk slotRd slotPut deallocate allocate ElemSize wrap)
variable {S A X α β : Type} {E : Elem S A X} {F : ElemOps S} {s s' : NS S} {v : Ptr} {qs : List Ptr} {c : Call} {r : VC.Res} {n : Nat}
  {f : S → Nat}

/-- Specification: `f` grows by at most one with every construction of an element, and not when elements are destroyed; a number
that counts the constructions is one. -/
structure Counts (F : ElemOps S) (f : S → Nat) : Prop where
  make : ∀ i r i', Runs F.make i r i' → f i' ≤ f i + 1
  copy : ∀ q i r i', Runs (F.copy q) i r i' → f i' ≤ f i + 1
  move : ∀ q i r i', Runs (F.move q) i r i' → f i' ≤ f i + 1
  drop : ∀ q i r i', Runs (F.drop q) i r i' → f i' ≤ f i

/-! ### Constructions of the parts -/

/-- The program makes at most `k` constructions. -/
def Makes (f : S → Nat) (k : Nat) (m : M (NS S) α) : Prop := ∀ s r s', Runs m s r s' → f s'.i ≤ f s.i + k

theorem Makes.mono {m : M (NS S) α} {j k : Nat} (h : Makes f j m) (hk : j ≤ k) : Makes f k m := fun s r s' hr => by
  have := h s r s' hr; omega

theorem Makes.pure (x : α) : Makes f 0 (pure x : M (NS S) α) := fun s r s' h => by cases h; exact Nat.le_refl _

theorem Makes.bind {m : M (NS S) α} {g : α → M (NS S) β} {j k : Nat} (h : Makes f j m) (hg : ∀ a, Makes f k (g a)) :
    Makes f (j + k) (m >>= g) := by
  intro s r s' hr
  obtain ⟨a, s1, h1, h2⟩ := runs_bind_iff.1 hr
  have := h _ _ _ h1
  have := hg a _ _ _ h2
  omega

theorem Makes.ite {p : Prop} {i : Decidable p} {m m' : M (NS S) α} {k : Nat} (h : Makes f k m) (h' : Makes f k m') :
    Makes f k (@_root_.ite _ p i m m') := by
  split
  · exact h
  · exact h'

theorem Makes.onO (m : M (W Ptr) α) : Makes f 0 (onO m : M (NS S) α) := fun s r s' h => by
  obtain ⟨o, -, rfl⟩ := of_onO h; exact Nat.le_refl _

theorem Makes.failed : Makes f 0 (failed : M (NS S) Bool) := .onO _

theorem Makes.onI {m : M S α} {k : Nat} (h : ∀ i r i', Runs m i r i' → f i' ≤ f i + k) : Makes f k (onI m : M (NS S) α) := by
  intro s r s' hr
  obtain ⟨i, h1, rfl⟩ := of_onI hr
  exact h _ _ _ h1

theorem Makes.settle (p : Ptr) (i : Nat) (x : Except Err Ptr) : Makes f 0 (settle p i x : M (NS S) Unit) := by
  cases x with
  | ok q => exact .onO _
  | error e => intro s r s' h; cases h; exact Nat.le_refl _

section
variable (hf : Counts F f)
include hf

theorem makes_construct (p : Ptr) (i : Nat) (a : Arg) : Makes f 1 (construct F p i a) := by
  cases a with
  | obj t => exact .bind (j := 1) (k := 0) (.onI (hf.copy t)) fun _ => .settle _ _ _
  | mov t => exact .bind (j := 1) (k := 0) (.onI (hf.move t)) fun _ => .settle _ _ _
  | ref b j => exact .bind (j := 0) (k := 1) (.onO _) fun t => .bind (j := 1) (k := 0) (.onI (hf.copy t)) fun _ => .settle _ _ _
  | none => exact .bind (j := 1) (k := 0) (.onI hf.make) fun _ => .settle _ _ _

theorem makes_destroySlot (p : Ptr) (i : Nat) : Makes f 0 (destroySlot F p i) :=
  .bind (j := 0) (k := 0) (.onO _) fun q => .bind (j := 0) (k := 0) (.onI (hf.drop q)) fun _ => .onO _

theorem makes_destroyRange (p : Ptr) (i n : Nat) : Makes f 0 (destroyRange F p i n) := by
  induction n generalizing i with
  | zero => exact .pure _
  | succ n ih => exact .bind (j := 0) (k := 0) (makes_destroySlot hf p i) fun _ => ih _

theorem makes_ucLoop (p : Ptr) (i : Nat) (as : List Arg) : Makes f as.length (ucLoop F p i as) := by
  induction as generalizing i with
  | nil => exact .pure _
  | cons a as ih =>
    rw [List.length_cons, Nat.add_comm]
    exact .bind (makes_construct hf p i a) fun _ => (Makes.bind (j := 0) .failed fun _ => .ite ((Makes.pure _).mono (Nat.zero_le _)) (ih _)).mono
      (by omega)

theorem makes_uninitCopy (as : List Arg) (p : Ptr) (i : Nat) : Makes f as.length (uninitCopy F as p i) :=
  .bind (k := 0) (makes_ucLoop hf p i as) fun _ => .ite (.pure _) (.bind (j := 0) (k := 0) (makes_destroyRange hf _ _ _) fun _ => .pure _)

variable [ElemSize Ptr]

theorem makes_reserve {o : Obj} (hv : s.o.heap v = some (.obj o)) {r : Unit} (h : Runs (reserve F v n) s r s') : f s'.i ≤ f s.i + o.fin := by
  unfold reserve at h
  obtain ⟨o', s1, h1, h2⟩ := runs_bind_iff.1 h
  obtain ⟨w1, h3, rfl⟩ := of_onO h1
  obtain ⟨-, h4, rfl⟩ := runs_rdObj.1 h3
  rw [hv] at h4; cases h4
  split at h2
  · cases h2; exact Nat.le_add_right _ _
  unfold doReserve at h2
  obtain ⟨o', s1, h1, h5⟩ := runs_bind_iff.1 h2
  obtain ⟨w1, h3, rfl⟩ := of_onO h1
  obtain ⟨-, h4, rfl⟩ := runs_rdObj.1 h3
  rw [hv] at h4; cases h4
  have hl : (refs o.start 0 o.fin).length = o.fin := by simp [refs]
  refine (Makes.bind (j := 0) (k := o.fin) (.onO _) fun p => (Makes.bind (j := 0) (k := o.fin) .failed fun _ =>
    .ite ((Makes.pure _).mono (Nat.zero_le _)) ?_).mono (by omega)).mono (by omega) _ _ _ h5
  refine (Makes.bind (j := o.fin) (k := 0) ((makes_uninitCopy hf _ p 0).mono (by rw [hl]; exact Nat.le_refl _)) fun _ =>
    .bind (j := 0) (k := 0) .failed fun _ => .ite (.onO _) ?_)
  exact .bind (j := 0) (k := 0) (makes_destroyRange hf _ _ _) fun _ => .bind (j := 0) (k := 0) (.onO _) fun _ => .onO _

theorem makes_grow {o : Obj} (hv : s.o.heap v = some (.obj o)) {r : Unit} (h : Runs (grow F v n) s r s') : f s'.i ≤ f s.i + o.fin := by
  unfold grow at h
  obtain ⟨o', s1, h1, h2⟩ := runs_bind_iff.1 h
  obtain ⟨w1, h3, rfl⟩ := of_onO h1
  obtain ⟨-, h4, rfl⟩ := runs_rdObj.1 h3
  rw [hv] at h4; cases h4
  obtain ⟨_, s2, h5, h6⟩ := runs_bind_iff.1 h2
  obtain ⟨-, rfl⟩ := of_assert h5
  exact makes_reserve hf hv h6

/-- The reallocation step copies all elements if the vector is full, and keeps their number. -/
theorem makes_growIfFull {o : Obj} (he : s.o.err = none) (hv : s.o.heap v = some (.obj o)) {b : Bool} (h : Runs (growIfFull F v) s b s') :
    f s'.i ≤ f s.i + (if o.fin = o.cap then o.fin else 0) ∧ (b = true ∨ ∃ o', s'.o.heap v = some (.obj o') ∧ o'.fin = o.fin) := by
  unfold growIfFull at h
  obtain ⟨o', s1, h1, h2⟩ := runs_bind_iff.1 h
  obtain ⟨w1, h3, rfl⟩ := of_onO h1
  obtain ⟨-, h4, rfl⟩ := runs_rdObj.1 h3
  rw [hv] at h4; cases h4
  by_cases hc : o.cap = o.fin
  · rw [if_pos hc] at h2
    obtain ⟨_, s5, h11, h12⟩ := runs_bind_iff.1 h2
    obtain ⟨rfl, rfl⟩ := of_failed h12
    obtain ⟨-, -, -, k4⟩ := runs_grow he hv h11
    rw [if_pos hc.symm]
    refine ⟨makes_grow hf hv h11, ?_⟩
    rcases k4 with ⟨k4, -⟩ | ⟨-, x, -, k5, -⟩
    · left; cases e : s'.o.err with
      | none => exact (k4 e).elim
      | some => rfl
    · exact .inr ⟨_, k5, rfl⟩
  · rw [if_neg hc] at h2
    cases h2
    exact ⟨Nat.le_add_right _ _, .inr ⟨o, hv, rfl⟩⟩

/-- `push_back` constructs one element, and copies all elements if the vector is full. -/
theorem makes_pushBack {o : Obj} (he : s.o.err = none) (hv : s.o.heap v = some (.obj o)) {a : Arg} {r : Unit}
    (h : Runs (pushBack F v a) s r s') : f s'.i ≤ f s.i + 1 + if o.fin = o.cap then o.fin else 0 := by
  unfold pushBack at h
  obtain ⟨o', s1, h1, h2⟩ := runs_bind_iff.1 h
  obtain ⟨w1, h3, rfl⟩ := of_onO h1
  obtain ⟨-, h4, rfl⟩ := runs_rdObj.1 h3
  rw [hv] at h4; cases h4
  obtain ⟨z, s2, h5, h6⟩ := runs_bind_iff.1 h2
  cases h6
  unfold insertValue at h5
  obtain ⟨o', s1, h1, h2⟩ := runs_bind_iff.1 h5
  obtain ⟨w1, h3, rfl⟩ := of_onO h1
  obtain ⟨-, h4, rfl⟩ := runs_rdObj.1 h3
  rw [hv] at h4; cases h4
  obtain ⟨_, s3, h7, h8⟩ := runs_bind_iff.1 h2
  obtain ⟨-, rfl⟩ := of_assert h7
  obtain ⟨b, s4, h9, h10⟩ := runs_bind_iff.1 h8
  obtain ⟨k1, k2⟩ := makes_growIfFull hf he hv h9
  have hrest : f s'.i ≤ f s4.i + 1 := by
    rcases k2 with rfl | ⟨o1, k3, k4⟩
    · simp only [if_true] at h10
      cases h10; omega
    · cases b with
      | true =>
        simp only [if_true] at h10
        cases h10; omega
      | false =>
        simp only [Bool.false_eq_true, if_false] at h10
        obtain ⟨o', s1, h1, h2⟩ := runs_bind_iff.1 h10
        obtain ⟨w1, h3, rfl⟩ := of_onO h1
        obtain ⟨-, h4, rfl⟩ := runs_rdObj.1 h3
        rw [k3] at h4; cases h4
        obtain ⟨_, s3, h7, h8⟩ := runs_bind_iff.1 h2
        obtain ⟨-, rfl⟩ := of_assert h7
        rw [k4, Nat.sub_self] at h8
        obtain ⟨b, s4, h11, h12⟩ := runs_bind_iff.1 h8
        cases h11
        simp only [Bool.not_true, Bool.false_eq_true, if_false] at h12
        exact Makes.bind (j := 1) (k := 0) (makes_construct hf _ _ a) (fun _ => .bind (j := 0) (k := 0) .failed fun _ =>
          .ite (.pure _) (.bind (j := 0) (k := 0) (.onO _) fun _ => .pure _)) _ _ _ h12
  omega

end

/-- The number of the next box counts the constructions. -/
theorem counts_box : Counts boxOps Boxes.next where
  make i r i' h := by cases h; exact Nat.le_refl _
  copy q i r i' h := by
    unfold Runs boxOps at h
    simp only at h
    split at h
    · cases h
    · split at h <;> cases h
      · exact Nat.le_succ _
      · exact Nat.le_refl _
  move q i r i' h := by
    unfold Runs boxOps at h
    simp only at h
    split at h <;> cases h
    exact Nat.le_refl _
  drop q i r i' h := by
    unfold Runs boxOps at h
    simp only at h
    split at h <;> cases h
    exact Nat.le_refl _

/-! ### Histories of `push_back` -/

section
variable [ElemSize Ptr]

/-- Specification: `n` successful calls of `push_back` (copying or moving an element) on `v`, one after another. -/
inductive Pushes (E : Elem S A X) (v : Ptr) (s : NS S) : Nat → NS S → Prop
  | start : Pushes E v s 0 s
  | push {n : Nat} {s1 s' : NS S} {c : Call} {r : VC.Res} : Pushes E v s n s1 → Valid E s1 c → c.pushes v →
      Runs (exec E.toElemOps c) (ready s1) r s' → s'.o.err = none → Pushes E v s (n + 1) s'

/-- C130: one call of `push_back` constructs one element, and as many as the vector has elements more if the vector is full; whether
it succeeds or fails. -/
theorem vectorOf_push_constructions (hr : Reach E s) (hv : Valid E s c) (hrun : Runs (exec E.toElemOps c) (ready s) r s') (hc : c.pushes v)
    (ho : Objs s v qs) (hf : Counts E.toElemOps f) :
    (VC.HasCap s.o v qs.length → f s'.i ≤ f s.i + 1 + qs.length) ∧ (¬ VC.HasCap s.o v qs.length → f s'.i ≤ f s.i + 1) := by
  obtain ⟨σ, σ', h, h', h0, hva⟩ := hr.both hv hrun
  obtain ⟨x, hx⟩ := (VC.alive_iff h0.outer).1 (pushes_alive hc hv.1)
  obtain rfl := (h0.objs hx).1 ho
  obtain ⟨a, h4⟩ := pushes_run hc hrun
  have h5 := makes_pushBack hf rfl (h.outer.st.obj _ _ hx).2 h4
  have h6 : f s'.i ≤ f s.i + 1 + if x.els.length = x.cap then x.els.length else 0 := h5
  rw [VC.hasCap_iff h0.outer hx]
  constructor
  · intro e; rw [if_pos e] at h6; exact h6
  · intro e; rw [if_neg e] at h6; exact h6

/-- A successful `push_back`. -/
theorem push_step {σ : Vec.Sg Ptr} {x : Vec.Vec Ptr} (hr : Reach E s) (h0 : NInv E s σ) (hx : σ v = some x) (hv : Valid E s c) (hc : c.pushes v)
    (hrun : Runs (exec E.toElemOps c) (ready s) r s') (he : s'.o.err = none) :
    ∃ σ' x', NInv E s' σ' ∧ σ' v = some x' ∧ x'.els.length = x.els.length + 1 ∧
      x'.cap = (if x.els.length = x.cap then Vec.growTo x.cap (x.cap + 1) else x.cap) ∧
      s'.o.nAlloc = s.o.nAlloc + if x.els.length = x.cap then 1 else 0 := by
  obtain ⟨σ', h'⟩ := (Reach.call hr hv hrun).inv
  have h := h0.ready
  obtain ⟨a, h4⟩ := pushes_run hc hrun
  have hk := h0.outer.st.ok _ _ hx
  have hobj := (h.outer.st.obj _ _ hx).2
  obtain ⟨⟨i, rfl⟩, -⟩ := h.outer.st.obj _ _ hx
  have fin : ∀ o1 : Obj, s'.o.heap (.stk i) = some (.obj o1) → ∃ x', σ' (.stk i) = some x' ∧ x'.els.length = o1.fin ∧ x'.cap = o1.cap := by
    intro o1 h1
    obtain ⟨x', hx'⟩ := (VC.alive_iff h'.outer).1 ⟨i, rfl, by rw [h1]; simp⟩
    have h9 := (h'.outer.st.obj _ _ hx').2
    rw [h1] at h9
    simp only [Vec.Vec.obj, Option.some.injEq, VCell.obj.injEq] at h9
    exact ⟨x', hx', by rw [h9], by rw [h9]⟩
  by_cases hfull : x.els.length = x.cap
  · obtain ⟨s1, k1, -, k2, k3⟩ := runs_push_full rfl hobj hfull h4
    rcases k3 with ⟨k3, rfl⟩ | ⟨o', k3, k4, k5, k6, k7, -, k8⟩
    · exact (k3 he).elim
    rcases k2 with ⟨k2, -⟩ | ⟨-, y, -, k9, -⟩
    · exact (k2 k3).elim
    rw [k4] at k9
    simp only [Option.some.injEq, VCell.obj.injEq] at k9
    rcases k8 with ⟨k8, -⟩ | ⟨-, k8, -⟩
    · exact (k8 he).elim
    obtain ⟨x', m1, m2, m3⟩ := fin _ k8
    refine ⟨σ', x', h', m1, ?_, ?_, ?_⟩
    · rw [m2, k9]
    · rw [m3, k9, if_pos hfull]
      have h4 : Vec.wrap (x.cap + 1) = x.cap + 1 := Nat.mod_eq_of_lt (by have := hk.fits.le; omega)
      show growTo x.cap (wrap (x.cap + 1)) = _
      rw [growTo_eq hk.fits, h4]
    · rw [k7.allocs, k1.allocs, if_pos hfull]; rfl
  · obtain ⟨k1, -, k2⟩ := runs_push_room rfl hobj (by have := hk.len; show x.els.length < x.cap; omega) h4
    rcases k2 with ⟨k2, -⟩ | ⟨-, k2, -⟩
    · exact (k2 he).elim
    obtain ⟨x', m1, m2, m3⟩ := fin _ k2
    refine ⟨σ', x', h', m1, m2, ?_, ?_⟩
    · rw [m3, if_neg hfull]
    · rw [k1.allocs, if_neg hfull]; rfl

/-- C130: `n` successful calls of `push_back` on a vector of `m` objects construct at most `n + 3 (m + n)` elements in total,
relocations included, and make at most `2 log2 (m + n + 1)` requests for memory. -/
theorem vectorOf_geometric_growth (hr : Reach E s) (ha : VC.Alive s.o v) (ho : Objs s v qs) (hf : Counts E.toElemOps f)
    (hp : Pushes E v s n s') :
    (∃ qs', Objs s' v qs' ∧ qs'.length = qs.length + n) ∧ f s'.i ≤ f s.i + n + 3 * (qs.length + n) ∧
      s'.o.nAlloc ≤ s.o.nAlloc + 2 * Nat.log2 (qs.length + n + 1) := by
  obtain ⟨σ, h⟩ := hr.inv
  obtain ⟨x, hx⟩ := (VC.alive_iff h.outer).1 ha
  obtain rfl := (h.objs hx).1 ho
  have key : ∃ σ' x' k q, Reach E s' ∧ NInv E s' σ' ∧ σ' v = some x' ∧ x'.els.length = x.els.length + n ∧
      VC.Grown x.cap x'.els.length x'.cap k q ∧ s'.o.nAlloc = s.o.nAlloc + k ∧ f s'.i ≤ f s.i + n + q := by
    induction hp with
    | start => exact ⟨σ, x, 0, 0, hr, h, hx, rfl, ⟨Nat.zero_le _, Nat.zero_le _, by simp, .inl rfl⟩, rfl, Nat.le_refl _⟩
    | @push n s1 s' c r _ hv hc hrun he ih =>
      obtain ⟨σ1, x1, k, q, g0, g1, g2, g3, g4, g5, g6⟩ := ih
      obtain ⟨σ2, x2, j1, j2, j3, j4, j5⟩ := push_step g0 g1 g2 hv hc hrun he
      obtain ⟨p1, p2⟩ := vectorOf_push_constructions g0 hv hrun hc ((g1.objs g2).2 rfl) hf
      rw [VC.hasCap_iff g1.outer g2] at p1 p2
      by_cases hfull : x1.els.length = x1.cap
      · rw [if_pos hfull] at j4 j5
        have p1 := p1 hfull
        refine ⟨σ2, x2, k + 1, q + x1.cap, .call g0 hv hrun, j1, j2, by omega, ?_, by omega, by omega⟩
        rw [j4, j3, hfull]
        rw [hfull] at g4
        exact g4.grow
      · rw [if_neg hfull] at j4 j5
        have p2 := p2 hfull
        refine ⟨σ2, x2, k, q, .call g0 hv hrun, j1, j2, by omega, ?_, by omega, by omega⟩
        rw [j4, j3]
        exact g4.push
  obtain ⟨σ', x', k, q, g0, g1, g2, g3, g4, g5, g6⟩ := key
  refine ⟨⟨x'.els, (g1.objs g2).2 rfl, g3⟩, ?_, ?_⟩
  · have := g4.size; omega
  · have h7 : k ≤ 2 * Nat.log2 (x'.els.length + 1) := by
      refine VC.log_bound ?_
      rcases g4.last with h8 | ⟨_, h8⟩
      · exact .inl h8
      · exact .inr (Nat.le_trans (Nat.mul_le_mul_left _ (by omega)) h8)
    rw [g3] at h7
    omega

end

open Demo in
/-- A copied and a moved box: the second call reallocates. -/
example : Reach Elem.box s2 ∧ VC.Alive s2.o Demo.v ∧ Objs s2 Demo.v [] ∧ Counts boxOps Boxes.next ∧ Pushes Elem.box Demo.v s2 2 s4 ∧
    s4.o.nAlloc = s2.o.nAlloc + 2 ∧ s4.i.next = s2.i.next + 3 := by
  obtain ⟨_, h3⟩ := runs (E := boxOps) (c := .pushBack Demo.v (.obj (.stk 0))) (s := s2) (by decide +kernel)
  obtain ⟨_, h4⟩ := runs (E := boxOps) (c := .pushMove Demo.v (.stk 1)) (s := s3) (by decide +kernel)
  exact ⟨r2, alive (by decide +kernel), objs r2 (alive (by decide +kernel)) (by decide +kernel), counts_box,
    .push (.push .start v2 rfl h3 (by decide +kernel)) v3 rfl h4 (by decide +kernel), by decide +kernel, by decide +kernel⟩

open Demo in
/-- A full vector of one element. -/
example : Reach Elem.box s3 ∧ Valid Elem.box s3 (.pushMove Demo.v (.stk 1)) ∧ Call.pushes (.pushMove Demo.v (.stk 1)) Demo.v ∧
    (∃ r, Runs (exec boxOps (.pushMove Demo.v (.stk 1))) (ready s3) r s4) ∧ (∃ q, Objs s3 Demo.v [q]) ∧ VC.HasCap s3.o Demo.v 1 ∧
    Counts boxOps Boxes.next ∧ s4.i.next = s3.i.next + 2 :=
  ⟨r3, v3, rfl, run3, ⟨.stk 2, objs r3 (alive (by decide +kernel)) (by decide +kernel)⟩,
    cap (by decide +kernel) (alive (by decide +kernel)) r3, counts_box, by decide +kernel⟩

end Nestl.VO
