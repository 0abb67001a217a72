import Verif.VectorOf.Growth
import Verif.VectorOf.InsertProps
set_option autoImplicit false
/-
Property theorems about the number of elements that the calls of vectors of objects construct (C131).
-/
namespace Nestl.VO
open Nestl.Vec (W VCell Obj Blk rdObj setObj rdBlk slotRd slotPut deallocate allocate newVec ElemSize wrap)
variable {S A X α β : Type} {E : Elem S A X} {F : ElemOps S} {s s' : NS S} {v : Ptr} {qs : List Ptr} {c : Call} {r : VC.Res} {n i : Nat}
  {f : S → Nat} {x : Ins}

/-- Specification: the number of elements a call may construct.  Nothing is constructed by calls that only destroy, exchange or move
vectors. -/
def Call.Bound (s : NS S) : Call → Nat → Prop
  | .pushBack v _, k | .pushMove v _, k =>
    ∃ qs, Objs s v qs ∧ (VC.HasCap s.o v qs.length ∧ k = qs.length + 1 ∨ ¬ VC.HasCap s.o v qs.length ∧ k = 1)
  | .reserve v n, k => ∃ qs m, Objs s v qs ∧ VC.HasCap s.o v m ∧ (n ≤ m ∧ k = 0 ∨ m < n ∧ k = qs.length)
  | .shrink v, k => ∃ qs, Objs s v qs ∧ (VC.HasCap s.o v qs.length ∧ k = 0 ∨ ¬ VC.HasCap s.o v qs.length ∧ k = qs.length)
  | .resize v n _, k => ∃ qs, Objs s v qs ∧ (n ≤ qs.length ∧ k = 0 ∨ qs.length < n ∧ k = n)
  | .assignN _ n _, k | .assignSub _ _ _ n, k => k = n
  | .assignObjs _ ts, k => k = ts.length
  | .copy _ v, k => ∃ qs, Objs s v qs ∧ k = qs.length
  | .create _, k | .clear _, k | .move _, k | .moveAssign _ _, k | .swap _ _, k | .destroy _, k => k = 0

/-! ### Constructions of the parts -/

section
variable (hf : Counts F f)
include hf

theorem makes_destroyVec (p : Ptr) : Makes f 0 (destroyVec F p) :=
  .bind (j := 0) (k := 0) (.onO _) fun _ => .bind (j := 0) (k := 0) (makes_destroyRange hf _ _ _) fun _ =>
    .bind (j := 0) (k := 0) (.onO _) fun _ => .onO _

theorem makes_clear (p : Ptr) : Makes f 0 (clear F p) :=
  .bind (j := 0) (k := 0) (.onO _) fun _ => .bind (j := 0) (k := 0) (makes_destroyRange hf _ _ _) fun _ => .onO _

theorem makes_moveAssign (p t : Ptr) : Makes f 0 (moveAssign F p t) :=
  .bind (j := 0) (k := 0) (.onO _) fun _ => .bind (j := 0) (k := 0) (.onO _) fun _ => makes_destroyVec hf _

theorem makes_shift (p : Ptr) (i k : Nat) : Makes f k (shift F p i k) := by
  induction k with
  | zero => exact .pure _
  | succ k ih =>
    refine (Makes.bind (j := 1) (k := k) (makes_construct hf _ _ _) fun _ => ?_).mono (by omega)
    exact (Makes.bind (j := 0) (k := k) .failed fun _ => .ite ((Makes.pure _).mono (Nat.zero_le _))
      ((Makes.bind (j := 0) (k := k) (makes_destroySlot hf _ _) fun _ => ih).mono (by omega))).mono (by omega)

theorem makes_resizeLoop (p : Ptr) (a : Arg) (n : Nat) : Makes f n (resizeLoop F p a n) := by
  induction n with
  | zero => exact .pure _
  | succ n ih =>
    refine (Makes.bind (j := 0) (k := 1 + n) (.onO _) fun _ => .bind (makes_construct hf _ _ _) fun _ => ?_).mono (by omega)
    exact (Makes.bind (j := 0) (k := n) .failed fun _ => .ite ((Makes.pure _).mono (Nat.zero_le _))
      ((Makes.bind (j := 0) (k := n) (.onO _) fun _ => ih).mono (by omega))).mono (by omega)

variable [ElemSize Ptr]

theorem makes_doReserve {o : Obj} (hv : s.o.heap v = some (.obj o)) {r : Unit} (h : Runs (doReserve F v n) s r s') : f s'.i ≤ f s.i + o.fin := by
  unfold doReserve at h
  obtain ⟨o', s1, h1, h5⟩ := runs_bind_iff.1 h
  obtain ⟨w1, h3, rfl⟩ := of_onO h1
  obtain ⟨-, h4, rfl⟩ := runs_rdObj.1 h3
  rw [hv] at h4; cases h4
  have hl : (refs o.start 0 o.fin).length = o.fin := by simp [refs]
  refine (Makes.bind (j := 0) (k := o.fin) (.onO _) fun p => (Makes.bind (j := 0) (k := o.fin) .failed fun _ =>
    .ite ((Makes.pure _).mono (Nat.zero_le _)) ?_).mono (by omega)).mono (by omega) _ _ _ h5
  refine (Makes.bind (j := o.fin) (k := 0) ((makes_uninitCopy hf _ p 0).mono (by rw [hl]; exact Nat.le_refl _)) fun _ =>
    .bind (j := 0) (k := 0) .failed fun _ => .ite (.onO _) ?_)
  exact .bind (j := 0) (k := 0) (makes_destroyRange hf _ _ _) fun _ => .bind (j := 0) (k := 0) (.onO _) fun _ => .onO _

theorem makes_resize {o : Obj} (hv : s.o.heap v = some (.obj o)) {a : Arg} {r : Unit} (h : Runs (resize F v n a) s r s') :
    f s'.i ≤ f s.i + if n ≤ o.fin then 0 else n := by
  unfold resize at h
  obtain ⟨o', s1, h1, h2⟩ := runs_bind_iff.1 h
  obtain ⟨w1, h3, rfl⟩ := of_onO h1
  obtain ⟨-, h4, rfl⟩ := runs_rdObj.1 h3
  rw [hv] at h4; cases h4
  by_cases hc : n ≤ o.fin
  · rw [if_pos hc] at h2 ⊢
    exact Makes.bind (j := 0) (k := 0) (makes_destroyRange hf _ _ _) (fun _ => .onO _) _ _ _ h2
  · rw [if_neg hc] at h2 ⊢
    obtain ⟨_, s2, h5, h6⟩ := runs_bind_iff.1 h2
    have k1 : f s2.i ≤ f s.i + o.fin := makes_grow hf hv h5
    have := (Makes.bind (j := 0) (k := n - o.fin) .failed fun _ => .ite ((Makes.pure _).mono (Nat.zero_le _)) (makes_resizeLoop hf v a (n - o.fin)))
      _ _ _ h6
    omega

theorem makes_insertValue {o : Obj} (he : s.o.err = none) (hv : s.o.heap v = some (.obj o)) {a : Arg} {p : Nat}
    (h : Runs (insertValue F v i a) s p s') : f s'.i ≤ f s.i + (o.fin - i) + 1 + if o.fin = o.cap then o.fin else 0 := by
  unfold insertValue at h
  obtain ⟨o', s1, h1, h2⟩ := runs_bind_iff.1 h
  obtain ⟨w1, h3, rfl⟩ := of_onO h1
  obtain ⟨-, h4, rfl⟩ := runs_rdObj.1 h3
  rw [hv] at h4; cases h4
  obtain ⟨_, s3, h7, h8⟩ := runs_bind_iff.1 h2
  obtain ⟨-, rfl⟩ := of_assert h7
  obtain ⟨b, s4, h9, h10⟩ := runs_bind_iff.1 h8
  obtain ⟨k1, k2⟩ := makes_growIfFull hf he hv h9
  cases b with
  | true =>
    simp only [if_true] at h10
    cases h10; omega
  | false =>
    obtain ⟨o1, k3, k4⟩ := k2.resolve_left (by simp)
    simp only [Bool.false_eq_true, if_false] at h10
    obtain ⟨o', s1, h1, h2⟩ := runs_bind_iff.1 h10
    obtain ⟨w1, h3, rfl⟩ := of_onO h1
    obtain ⟨-, h4, rfl⟩ := runs_rdObj.1 h3
    rw [k3] at h4; cases h4
    obtain ⟨_, s3, h7, h8⟩ := runs_bind_iff.1 h2
    obtain ⟨-, rfl⟩ := of_assert h7
    rw [k4] at h8
    have := (Makes.bind (makes_shift hf _ _ _) fun b => .ite ((Makes.pure _).mono (Nat.zero_le 1))
      (.bind (j := 1) (k := 0) (makes_construct hf _ _ a) fun _ => .bind (j := 0) (k := 0) .failed fun _ =>
        .ite (.pure _) (.bind (j := 0) (k := 0) (.onO _) fun _ => .pure _))) _ _ _ h8
    dsimp only at this
    omega

/-- Adding elements as long as there is room. -/
theorem makes_assignIter (as : List Arg) : ∀ {s : NS S} {o : Obj} {r : Unit}, s.o.err = none → s.o.heap v = some (.obj o) →
    o.fin + as.length ≤ o.cap → Runs (assignIter F v as) s r s' → f s'.i ≤ f s.i + as.length := by
  induction as with
  | nil => intro s o r _ _ _ h; cases h; exact Nat.le_refl _
  | cons a as ih =>
    intro s o r he hv hc h
    rw [List.length_cons] at hc ⊢
    obtain ⟨_, s1, h1, h2⟩ := runs_bind_iff.1 h
    obtain ⟨_, s2, h3, h4⟩ := runs_bind_iff.1 h2
    obtain ⟨rfl, rfl⟩ := of_failed h3
    have k1 := makes_pushBack hf he hv h1
    rw [if_neg (by omega)] at k1
    obtain ⟨-, -, k2⟩ := runs_push_room he hv (by omega) h1
    rcases k2 with ⟨k2, -⟩ | ⟨k2, k3, -⟩
    · rw [if_pos (Option.isSome_iff_ne_none.2 k2)] at h4
      cases h4; omega
    · rw [k2, he] at h4
      have := ih (k2.trans he) k3 (by dsimp only; omega) h4
      omega

theorem makes_assignLoop {a : Arg} (n : Nat) : ∀ {s : NS S} {o : Obj} {r : Unit}, s.o.err = none → s.o.heap v = some (.obj o) →
    o.fin + n ≤ o.cap → Runs (assignLoop F v a n) s r s' → f s'.i ≤ f s.i + n := by
  induction n with
  | zero => intro s o r _ _ _ h; cases h; exact Nat.le_refl _
  | succ n ih =>
    intro s o r he hv hc h
    obtain ⟨_, s1, h1, h2⟩ := runs_bind_iff.1 h
    obtain ⟨_, s2, h3, h4⟩ := runs_bind_iff.1 h2
    obtain ⟨rfl, rfl⟩ := of_failed h3
    have k1 := makes_pushBack hf he hv h1
    rw [if_neg (by omega)] at k1
    obtain ⟨-, -, k2⟩ := runs_push_room he hv (by omega) h1
    rcases k2 with ⟨k2, -⟩ | ⟨k2, k3, -⟩
    · rw [if_pos (Option.isSome_iff_ne_none.2 k2)] at h4
      cases h4; omega
    · rw [k2, he] at h4
      have := ih (k2.trans he) k3 (by dsimp only; omega) h4
      omega

/-- The beginning of the assignments: the vector is empty and `grow` makes room without constructing anything. -/
theorem makes_begin {o : Obj} (he : s.o.err = none) (hv : s.o.heap v = some (.obj o)) (hs : s.o.heap (.stk s.o.sp) = none) {k : Ptr → M (NS S) Unit}
    {r : Unit}
    (h : Runs (do
      let tmp ← onO (newVec Vec.defaultAlloc)
      onO (Vec.swap tmp v)
      let o ← onO (rdObj v)
      assertM (o.fin = 0)
      grow F v n
      k tmp) s r s') :
    ∃ t s1, f s1.i ≤ f s.i ∧ Runs (k t) s1 r s' ∧ (s1.o.err = none → ∃ o, s1.o.heap v = some (.obj o) ∧ o.fin = 0 ∧ n ≤ o.cap) := by
  obtain ⟨t, s1, h1, h⟩ := runs_bind_iff.1 h
  obtain ⟨w1, h2, rfl⟩ := of_onO h1
  obtain ⟨rfl, rfl⟩ := runs_newVec h2
  obtain ⟨_, s2, h3, h⟩ := runs_bind_iff.1 h
  obtain ⟨w2, h4, rfl⟩ := of_onO h3
  have hne : Ptr.stk s.o.sp ≠ v := by rintro rfl; rw [hs] at hv; cases hv
  obtain rfl := runs_swap hne (o := ⟨Vec.defaultAlloc, .null, 0, 0⟩) (u := o) (upd_same _ _ _) ((upd_other _ _ hne.symm).trans hv) h4
  obtain ⟨o', s3, h5, h⟩ := runs_bind_iff.1 h
  obtain ⟨rfl, rfl⟩ := of_rdObj h5 (upd_same _ _ _)
  obtain ⟨_, s4, h6, h⟩ := runs_bind_iff.1 h
  obtain ⟨-, rfl⟩ := of_assert h6
  obtain ⟨_, s5, h7, h⟩ := runs_bind_iff.1 h
  have h8 := makes_grow (o := ⟨Vec.defaultAlloc, .null, 0, 0⟩) hf (upd_same _ _ _) h7
  refine ⟨_, s5, h8, h, fun he5 => ?_⟩
  obtain ⟨-, -, -, k4⟩ := runs_grow (o := ⟨Vec.defaultAlloc, .null, 0, 0⟩) (by exact he) (upd_same _ _ _) h7
  rcases k4 with ⟨k4, -⟩ | ⟨-, y, -, k5, -⟩
  · exact (k4 he5).elim
  · exact ⟨_, k5, rfl, by show n ≤ growTo 0 n; rw [growTo_zero]; omega⟩

theorem makes_assignN {o : Obj} (he : s.o.err = none) (hv : s.o.heap v = some (.obj o)) (hs : s.o.heap (.stk s.o.sp) = none) {a : Arg} {r : Unit}
    (h : Runs (assignN F v n a) s r s') : f s'.i ≤ f s.i + n := by
  obtain ⟨t, s1, h1, h2, h3⟩ := makes_begin hf he hv hs h
  obtain ⟨_, s2, h4, h5⟩ := runs_bind_iff.1 h2
  obtain ⟨rfl, k0⟩ := of_failed h4
  subst k0
  split at h5
  · have := makes_destroyVec hf _ _ _ _ h5; omega
  · rename_i hb
    obtain ⟨_, s3, h6, h7⟩ := runs_bind_iff.1 h5
    have he1 : s2.o.err = none := by simpa using hb
    obtain ⟨o1, k1, k2, k3⟩ := h3 he1
    have := makes_assignLoop hf n he1 k1 (by omega) h6
    have := makes_destroyVec hf _ _ _ _ h7
    omega

theorem makes_assignRandom {o : Obj} (he : s.o.err = none) (hv : s.o.heap v = some (.obj o)) (hs : s.o.heap (.stk s.o.sp) = none)
    {src : List Arg} {r : Unit} (h : Runs (assignRandom F v src) s r s') : f s'.i ≤ f s.i + src.length := by
  obtain ⟨t, s1, h1, h2, h3⟩ := makes_begin hf he hv hs h
  obtain ⟨_, s2, h4, h5⟩ := runs_bind_iff.1 h2
  obtain ⟨rfl, k0⟩ := of_failed h4
  subst k0
  split at h5
  · have := makes_destroyVec hf _ _ _ _ h5; omega
  · rename_i hb
    have he1 : s2.o.err = none := by simpa using hb
    obtain ⟨o1, k1, k2, k3⟩ := h3 he1
    obtain ⟨_, s3, h6, h7⟩ := runs_bind_iff.1 h5
    obtain ⟨rfl, rfl⟩ := of_rdObj h6 k1
    obtain ⟨_, s4, h8, h9⟩ := runs_bind_iff.1 h7
    obtain ⟨-, rfl⟩ := of_assert h8
    obtain ⟨_, s5, h10, h11⟩ := runs_bind_iff.1 h9
    have := makes_assignIter hf src he1 k1 (by omega) h10
    have := makes_destroyVec hf _ _ _ _ h11
    omega

end

/-! ### The claims -/

section
variable [ElemSize Ptr]

/-- C131: no call constructs more elements than its bound, whether it succeeds or fails. -/
theorem vectorOf_constructions (hr : Reach E s) (hv : Valid E s c) (hrun : Runs (exec E.toElemOps c) (ready s) r s')
    (hf : Counts E.toElemOps f) : ∃ k, c.Bound s k ∧ f s'.i ≤ f s.i + k := by
  obtain ⟨σ, σ', h, h', h0, hva⟩ := hr.both hv hrun
  have get : ∀ {t : Ptr}, VC.Alive s.o t → ∃ x : Vec.Vec Ptr, σ t = some x ∧ Objs s t x.els ∧
      (ready s).o.heap t = some (.obj ⟨x.alloc, x.start, x.els.length, x.cap⟩) ∧ ∀ m, VC.HasCap s.o t m ↔ m = x.cap := by
    intro t ht
    obtain ⟨x, hx⟩ := (VC.alive_iff h0.outer).1 ht
    exact ⟨x, hx, (h0.objs hx).2 rfl, (h.outer.st.obj _ _ hx).2, fun m => VC.hasCap_iff h0.outer hx⟩
  have zero : ∀ {m : M (NS S) VC.Res}, Makes f 0 m → Runs m (ready s) r s' → f s'.i ≤ f s.i + 0 := fun hm h1 => hm (ready s) _ _ h1
  have push : ∀ {t : Ptr} {a : Arg}, VC.Alive s.o t → Runs (pushBack E.toElemOps t a) (ready s) () s' → ∃ k, (∃ qs, Objs s t qs ∧
      (VC.HasCap s.o t qs.length ∧ k = qs.length + 1 ∨ ¬ VC.HasCap s.o t qs.length ∧ k = 1)) ∧ f s'.i ≤ f s.i + k := by
    intro t a ht h1
    obtain ⟨x, -, h2, h3, h4⟩ := get ht
    have h5 : f s'.i ≤ f s.i + 1 + if x.els.length = x.cap then x.els.length else 0 := makes_pushBack hf rfl h3 h1
    by_cases hc : x.els.length = x.cap
    · rw [if_pos hc] at h5
      exact ⟨_, ⟨_, h2, .inl ⟨(h4 _).2 hc, rfl⟩⟩, by omega⟩
    · rw [if_neg hc] at h5
      exact ⟨_, ⟨_, h2, .inr ⟨fun e => hc ((h4 _).1 e), rfl⟩⟩, by omega⟩
  cases c with
  | create al => exact ⟨0, rfl, zero (.bind (j := 0) (k := 0) (.onO _) fun _ => .pure _) hrun⟩
  | pushBack t a =>
    obtain ⟨b, s1, h1, h2⟩ := runs_bind_iff.1 hrun
    obtain rfl := of_evalArg h1
    exact push hv.1.1 (of_unit h2)
  | pushMove t a => exact push hv.1.1 (of_unit hrun)
  | clear t => exact ⟨0, rfl, zero (.bind (j := 0) (k := 0) (makes_clear hf _) fun _ => .pure _) hrun⟩
  | reserve t n =>
    obtain ⟨x, -, h2, h3, h4⟩ := get hv.1.1
    have h1 := of_unit hrun
    by_cases hc : n ≤ x.cap
    · refine ⟨0, ⟨_, _, h2, (h4 _).2 rfl, .inl ⟨hc, rfl⟩⟩, ?_⟩
      rcases runs_reserve rfl h3 h1 with ⟨-, rfl⟩ | ⟨h5, -⟩
      · exact Nat.le_refl _
      · dsimp only at h5; omega
    · exact ⟨_, ⟨_, _, h2, (h4 _).2 rfl, .inr ⟨by omega, rfl⟩⟩, makes_reserve hf h3 h1⟩
  | shrink t =>
    obtain ⟨x, hx, h2, h3, h4⟩ := get hv.1
    have h1 := of_unit hrun
    by_cases hc : x.els.length = x.cap
    · refine ⟨0, ⟨_, h2, .inl ⟨(h4 _).2 hc, rfl⟩⟩, ?_⟩
      rcases runs_shrink rfl h3 h1 with ⟨-, rfl⟩ | ⟨h5, -⟩
      · exact Nat.le_refl _
      · dsimp only at h5; omega
    · refine ⟨_, ⟨_, h2, .inr ⟨fun e => hc ((h4 _).1 e), rfl⟩⟩, ?_⟩
      unfold shrinkToFit at h1
      obtain ⟨o, s1, h5, h6⟩ := runs_bind_iff.1 h1
      obtain ⟨rfl, rfl⟩ := of_rdObj h5 h3
      split at h6
      · exact makes_doReserve hf h3 h6
      · cases h6; exact Nat.le_add_right _ _
  | resize t n a =>
    obtain ⟨x, -, h2, h3, -⟩ := get hv.1.1
    obtain ⟨b, s1, h1, h5⟩ := runs_bind_iff.1 hrun
    obtain rfl := of_evalArg h1
    have h6 : f s'.i ≤ f s.i + if n ≤ x.els.length then 0 else n := makes_resize hf h3 (of_unit h5)
    by_cases hc : n ≤ x.els.length
    · rw [if_pos hc] at h6
      exact ⟨_, ⟨_, h2, .inl ⟨hc, rfl⟩⟩, h6⟩
    · rw [if_neg hc] at h6
      exact ⟨_, ⟨_, h2, .inr ⟨by omega, rfl⟩⟩, h6⟩
  | assignN t n a =>
    obtain ⟨x, -, h2, h3, -⟩ := get hv.1.1
    obtain ⟨b, s1, h1, h5⟩ := runs_bind_iff.1 hrun
    obtain rfl := of_evalArg h1
    exact ⟨_, rfl, makes_assignN (s := ready s) hf rfl h3 h.fresh (of_unit h5)⟩
  | assignObjs t ts =>
    obtain ⟨x, -, h2, h3, -⟩ := get hv.1.1
    have := makes_assignRandom (s := ready s) hf rfl h3 h.fresh (of_unit hrun)
    rw [List.length_map] at this
    exact ⟨_, rfl, this⟩
  | assignSub t u j n =>
    obtain ⟨x, -, h2, h3, -⟩ := get hv.1.1
    obtain ⟨b, s1, h1, h5⟩ := runs_bind_iff.1 hrun
    obtain ⟨w, h6, rfl⟩ := of_onO h1
    unfold Vec.begin_ at h6
    obtain ⟨o, w2, h7, h8⟩ := runs_bind_iff.1 h6
    obtain ⟨-, -, rfl⟩ := runs_rdObj.1 h7
    cases h8
    have := makes_assignRandom (s := ready s) hf rfl h3 h.fresh (of_unit h5)
    simp only [refs, List.length_map, List.length_range'] at this
    exact ⟨_, rfl, this⟩
  | copy d t =>
    obtain ⟨x, -, h2, h3, -⟩ := get hv.1.1
    obtain ⟨y, -, k2, k3, -⟩ := get hv.1.2
    have h1 := of_unit hrun
    unfold copyNothrow at h1
    obtain ⟨o, s1, h5, h6⟩ := runs_bind_iff.1 h1
    obtain ⟨rfl, rfl⟩ := of_rdObj h5 k3
    have := makes_assignRandom (s := ready s) hf rfl h3 h.fresh h6
    rw [show (refs y.start 0 y.els.length).length = y.els.length by simp [refs]] at this
    exact ⟨_, ⟨_, k2, rfl⟩, this⟩
  | move t => exact ⟨0, rfl, zero (.bind (j := 0) (k := 0) (.onO _) fun _ => .pure _) hrun⟩
  | moveAssign t u => exact ⟨0, rfl, zero (.bind (j := 0) (k := 0) (makes_moveAssign hf _ _) fun _ => .pure _) hrun⟩
  | swap t u => exact ⟨0, rfl, zero (.bind (j := 0) (k := 0) (.onO _) fun _ => .pure _) hrun⟩
  | destroy t => exact ⟨0, rfl, zero (.bind (j := 0) (k := 0) (makes_destroyVec hf _) fun _ => .pure _) hrun⟩

/-- C131: an insertion constructs the new element and the elements behind it, and all elements if the vector is full; whether it
succeeds or fails. -/
theorem vectorOf_insert_constructions (hr : Reach E s) (hv : InsValid E s v i x) (hrun : Runs (insExec E.toElemOps v i x) (ready s) r s')
    (ho : Objs s v qs) (hf : Counts E.toElemOps f) :
    (VC.HasCap s.o v qs.length → f s'.i ≤ f s.i + (qs.length - i) + 1 + qs.length) ∧
      (¬ VC.HasCap s.o v qs.length → f s'.i ≤ f s.i + (qs.length - i) + 1) := by
  obtain ⟨σ, h0⟩ := hr.inv
  obtain ⟨y, hy⟩ := (VC.alive_iff h0.outer).1 hv.alive
  obtain rfl := (h0.objs hy).1 ho
  have key : ∃ a p, Runs (insertValue E.toElemOps v i a) (ready s) p s' := by
    cases x with
    | copy a =>
      obtain ⟨b, s1, h1, h2⟩ := runs_bind_iff.1 hrun
      obtain rfl := of_evalArg h1
      obtain ⟨p, s2, h3, h4⟩ := runs_bind_iff.1 h2
      cases h4
      exact ⟨_, _, h3⟩
    | move t =>
      obtain ⟨p, s2, h3, h4⟩ := runs_bind_iff.1 hrun
      cases h4
      exact ⟨_, _, h3⟩
  obtain ⟨a, p, h1⟩ := key
  have h6 : f s'.i ≤ f s.i + (y.els.length - i) + 1 + if y.els.length = y.cap then y.els.length else 0 :=
    makes_insertValue hf rfl (h0.ready.outer.st.obj _ _ hy).2 h1
  rw [VC.hasCap_iff h0.outer hy]
  constructor
  · intro e; rw [if_pos e] at h6; exact h6
  · intro e; rw [if_neg e] at h6; exact h6

end

open Demo in
/-- A copied vector of two boxes: two constructions. -/
example : Reach Elem.box s4 ∧ Valid Elem.box s4 (.copy Demo.u Demo.v) ∧ (∃ r, Runs (exec boxOps (.copy Demo.u Demo.v)) (ready s4) r s5) ∧
    Counts boxOps Boxes.next ∧ Call.Bound s4 (.copy Demo.u Demo.v) 2 ∧ s5.i.next = s4.i.next + 2 :=
  ⟨r4, v4, runs (by decide +kernel), counts_box,
    ⟨[.stk 3, .stk 4], objs r4 (alive (by decide +kernel)) (by decide +kernel), rfl⟩, by decide +kernel⟩

open Demo in
/-- The element behind the position is copied, and the new one. -/
example : Reach Elem.box c5 ∧ InsValid Elem.box c5 Demo.v 1 (.copy (.obj (.stk 0))) ∧
    Runs (insExec boxOps Demo.v 1 (.copy (.obj (.stk 0)))) (ready c5) (.pos 1) c6 ∧ Objs c5 Demo.v [.stk 3, .stk 4] ∧
    Counts boxOps Boxes.next ∧ ¬ VC.HasCap c5.o Demo.v 2 ∧ c6.i.next = c5.i.next + 2 := by
  refine ⟨rc5, vc5, runc5, oc5, counts_box, fun h => ?_, by decide +kernel⟩
  exact absurd (Runs.det h capc5).1 (by decide)

end Nestl.VO
