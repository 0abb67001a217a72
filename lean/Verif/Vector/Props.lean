import Verif.Vector.Demo
set_option autoImplicit false
/-
Property theorems of nestl::vector (C31-C38).  The vocabulary (`Contents`, `Alive`, `HasAlloc`, `HasCap`, `HasData`, `Call`,
`exec`, `Valid`, `Hist`, `Reach`, `Spec`, `SpecRun`, ...) is defined in `Verif/Vector/Client.lean`, `Unchanged`, `NoLeak`,
`Silent`, `ArgVal` and `Modest` at the top of `Verif/Vector/Demo.lean`; the programs run by the calls are in
`Verif/Vector/Model.lean`.  After each theorem an `example` shows a concrete state that meets its hypotheses.
-/
namespace Nestl.VC
open Nestl.Vec
variable {V : Type} [ElemSize V] {w w' : W V} {σ : Sg V} {s t : Ptr} {L M : List V} {x : V} {a : CArg V} {i n : Nat} {v : Vec V}

theorem Put.good {pos r : Nat} {v' : Vec V} (hp : Put (ready w) σ s v pos x v' r w') (hg : Good w) (hm : Modest V (2 * (v.cap + 1))) :
    w'.err = none := by
  refine Classical.byContradiction fun h0 => ?_
  rcases hp.cause.1 h0 with ⟨_, h1⟩ | ⟨k, h1, h2⟩
  · refine Good.room (ready_good hg) (n := growTo v.cap (v.cap + 1)) (Fits.mono (n := 2 * (v.cap + 1)) hm ?_) h1
    unfold growTo; omega
  · have := hg.ctor (w.nCtor + k)
    have h3 : w.env.ctor (w.nCtor + k) = false := h2
    rw [this] at h3; cases h3

/-! ### C31 -/

/-- C31: `push_back` / `emplace_back` of a value that is not an element of the vector itself: without an error it is appended;
with an error (a refused allocation or a failed construction anywhere, including while relocating) the elements are exactly
as before.  There is no error if nothing is refused.  The allocator and all other vectors are untouched and nothing leaks. -/
theorem vector_push_back (hr : Reach w) (ha : Alive w s) (hL : Contents w s L) (hx : ArgVal w x a) (hf : Foreign s a) :
    ∃ w', Runs (exec (.pushBack s a)) (ready w) .unit w' ∧
      (w'.err = none → Contents w' s (L ++ [x])) ∧ (w'.err ≠ none → Contents w' s L) ∧
      (Good w → (∀ c, HasCap w s c → Modest V (2 * (c + 1))) → w'.err = none) ∧
      Alive w' s ∧ (∀ al, HasAlloc w s al → HasAlloc w' s al) ∧ Unchanged w w' [s] ∧ NoLeak w' := by
  obtain ⟨σ, h⟩ := hr.inv
  obtain ⟨v, hs⟩ := (alive_iff h).1 ha
  obtain rfl := (contents_iff h hs).1 hL
  have : wp (exec (.pushBack s a)) (ready w) fun r w' => r = .unit ∧ ∃ v', Put (ready w) σ s v v.els.length x v' v.els.length w' := by
    unfold exec; simp only [wp_bind]
    refine wp_evalArg h.ready (argOk_ready h (hx.ok h)) ?_
    intro b y hb hy _ href
    obtain rfl := hx.unique h hy
    refine wp_mono (wp_pushBack h.ready.st rfl hs hb (far_of_foreign h.ready hs hf href).apart) ?_
    intro _ w' hp; exact ⟨rfl, hp⟩
  obtain ⟨r, w', hrun, rfl, v', hp⟩ := this.runs
  have hi := h.ready.set hs hp.st hp.adv.sp
  refine ⟨w', hrun, ?_, ?_, ?_, (alive_iff hi).2 ⟨_, upd_same _ _ _⟩, ?_, unchanged1 h hi, hi.noLeak⟩
  · intro h0; exact (contents_iff hi (upd_same _ _ _)).2 (hp.appended h0).symm
  · intro h0; exact (contents_iff hi (upd_same _ _ _)).2 (hp.bad h0).1.symm
  · intro hg hm; exact Put.good hp hg (hm _ ((hasCap_iff h hs).2 rfl))
  · intro al hal; exact (hasAlloc_iff hi (upd_same _ _ _)).2 (((hasAlloc_iff h hs).1 hal).trans hp.alloc.symm)

/-- Appending an element of another vector to a full vector. -/
example : ∃ (w : W Nat) (s t : Ptr), Reach w ∧ Good w ∧ Alive w s ∧ Contents w s [3, 1, 2] ∧ HasCap w s 3 ∧
    (∀ c, HasCap w s c → Modest Nat (2 * (c + 1))) ∧ ArgVal w 5 (.elem t 1) ∧ Foreign s (.elem t 1 : CArg Nat) := by
  obtain ⟨w, s, t, u, hr, hg, h1, h2, h3, ha, hb, hu, c1, c2, c3, k1, k2, k3, al⟩ := demo
  refine ⟨w, s, t, hr, hg, ha, c1, k1, ?_, ⟨hb, _, c2, rfl⟩, h1.symm⟩
  intro c hc
  obtain ⟨rfl, _⟩ := Runs.det hc k1
  exact fits_small (by decide)
/-- A state in which appending fails: the next constructor call fails. -/
example : ∃ (w : W Nat) (t : Ptr), Reach w ∧ Alive w t ∧ Contents w t [2, 5] ∧ ArgVal w 8 (.val 8 : CArg Nat) ∧
    w.env.ctor w.nCtor = false := by
  obtain ⟨w, t, hr, ha, hc, hk, al, h1, h2⟩ := demo_ctor (c := fun k => decide (k < 3)) rfl rfl rfl
  exact ⟨w, t, hr, ha, hc, rfl, by rw [h1, h2]; rfl⟩

/-! ### C32 -/

/-- C32: `insert_nothrow(err, begin() + i, a)` of a value that is not an element of the vector itself: without an error the
value stands before the former element at `i`, the other elements keep their order, the returned iterator is `begin() + i`.
There is no error if nothing is refused. -/
theorem vector_insert (hr : Reach w) (ha : Alive w s) (hL : Contents w s L) (hi : i ≤ L.length) (hx : ArgVal w x a)
    (hf : Foreign s a) :
    ∃ r w', Runs (exec (.insert s i a)) (ready w) (.pos r) w' ∧
      (w'.err = none → r = i ∧ Alive w' s ∧ Contents w' s (L.take i ++ x :: L.drop i) ∧
        (∀ al, HasAlloc w s al → HasAlloc w' s al) ∧ Unchanged w w' [s] ∧ NoLeak w') ∧
      (Good w → (∀ c, HasCap w s c → Modest V (2 * (c + 1))) → w'.err = none) := by
  obtain ⟨σ, h⟩ := hr.inv
  obtain ⟨v, hs⟩ := (alive_iff h).1 ha
  obtain rfl := (contents_iff h hs).1 hL
  have : wp (exec (.insert s i a)) (ready w) fun r w' => ∃ k, r = .pos k ∧ Inserted (ready w) σ s v i x k w' := by
    unfold exec; simp only [wp_bind]
    refine wp_evalArg h.ready (argOk_ready h (hx.ok h)) ?_
    intro b y hb hy _ href
    obtain rfl := hx.unique h hy
    refine wp_mono (wp_insertValue h.ready.st rfl hs hi hb (far_of_foreign h.ready hs hf href).apart) ?_
    intro k w' hp; exact ⟨k, rfl, hp⟩
  obtain ⟨r, w', hrun, k, rfl, hp⟩ := this.runs
  refine ⟨k, w', hrun, ?_, ?_⟩
  · intro h0
    cases hp with
    | refused _ _ _ h1 => exact absurd h0 h1
    | failed => simp at h0
    | broken => simp at h0
    | ok v1 w1 h' h1 h2 h3 h4 =>
      have hi' : Inv { w1 with heap := h', nCtor := w1.nCtor + (v.els.length - i + 1) }
          (upd σ s (some { v1 with els := v.els.take i ++ x :: v.els.drop i })) := h.ready.set hs h3 h1.adv.sp
      refine ⟨rfl, (alive_iff hi').2 ⟨_, upd_same _ _ _⟩, (contents_iff hi' (upd_same _ _ _)).2 rfl, ?_, unchanged1 h hi', hi'.noLeak⟩
      intro al hal; exact (hasAlloc_iff hi' (upd_same _ _ _)).2 (((hasAlloc_iff h hs).1 hal).trans h1.alloc.symm)
  · intro hg hm
    obtain ⟨v', hput⟩ := hp.put h.ready.st hs rfl hi (.inr fun k _ => hg.ctor k)
    exact Put.good hput hg (hm _ ((hasCap_iff h hs).2 rfl))

example : ∃ (w : W Nat) (s t : Ptr), Reach w ∧ Good w ∧ Alive w s ∧ Contents w s [3, 1, 2] ∧ 1 ≤ [3, 1, 2].length ∧
    HasCap w s 3 ∧ (∀ c, HasCap w s c → Modest Nat (2 * (c + 1))) ∧ ArgVal w 5 (.elem t 1) ∧ Foreign s (.elem t 1 : CArg Nat) := by
  obtain ⟨w, s, t, u, hr, hg, h1, h2, h3, ha, hb, hu, c1, c2, c3, k1, k2, k3, al⟩ := demo
  refine ⟨w, s, t, hr, hg, ha, c1, by decide, k1, ?_, ⟨hb, _, c2, rfl⟩, h1.symm⟩
  intro c hc
  obtain ⟨rfl, _⟩ := Runs.det hc k1
  exact fits_small (by decide)

/-! ### C33 -/

section faults
omit [ElemSize V]
variable {p : Ptr} {b : Blk V}

theorem faults_slotRd (h : w.heap p = some (.blk b)) (hp : p ≠ .null) (hi : b.slots[i]? = some none) :
    Faults (slotRd p i) w .rawRead := by
  unfold slotRd
  refine wp.faults_bind ?_
  rw [wp_rdBlk h hp, hi]; rfl

theorem faults_slotRd_bounds (h : w.heap p = some (.blk b)) (hp : p ≠ .null) (hi : b.slots[i]? = none) :
    Faults (slotRd p i) w .outOfBounds := by
  unfold slotRd
  refine wp.faults_bind ?_
  rw [wp_rdBlk h hp, hi]; rfl

theorem faults_destroySlot (h : w.heap p = some (.blk b)) (hp : p ≠ .null) (hi : b.slots[i]? = some none) :
    Faults (destroySlot p i) w .rawRead := by
  unfold destroySlot
  refine wp.faults_bind ?_
  rw [wp_rdBlk h hp, hi]; rfl

/-- Destroying a range of elements that contains a destroyed one. -/
theorem faults_destroyRange {ow c : Nat} (hp : p ≠ .null) (xs : List V) : ∀ {w : W V} {X Y : List (Option V)} {i n : Nat},
    w.heap p = some (.blk ⟨X ++ (xs.map some ++ none :: Y), ow, c⟩) → i = X.length → xs.length < n →
    Faults (destroyRange p i n) w .rawRead := by
  induction xs with
  | nil =>
    intro w X Y i n h hi hn
    obtain ⟨n, rfl⟩ : ∃ m, n = m + 1 := ⟨n - 1, by simp at hn; omega⟩
    unfold destroyRange
    exact (faults_destroySlot h hp (getElem?_mid hi)).bind
  | cons x xs ih =>
    intro w X Y i n h hi hn
    obtain ⟨n, rfl⟩ : ∃ m, n = m + 1 := ⟨n - 1, by simp at hn; omega⟩
    unfold destroyRange
    refine wp.faults_bind ?_
    rw [wp_destroySlot (by simpa using h) hp hi]
    refine ih (X := X ++ [none]) (Y := Y) ?_ (by simp [hi]) (by simpa using hn)
    simp
end faults

/-- C33 is violated: let there be room for one more element and let the second construction during the insertion of an
element before the end fail.  The error is reported, but the last element was destroyed: reading it is undefined behaviour,
and so is destroying the vector. -/
theorem vector_insert_failure_violated (hr : Reach w) (ha : Alive w s) (hL : Contents w s L) (hi : i < L.length)
    (hsp : Spare w s) (hc0 : w.env.ctor w.nCtor = true) (hc1 : w.env.ctor (w.nCtor + 1) = false) (x : V) :
    ∃ r w', Runs (exec (.insert s i (.val x))) (ready w) r w' ∧ w'.err = some .ctorFailed ∧
      Runs (size s) w' L.length w' ∧ Faults (at_ s (L.length - 1)) w' .rawRead ∧
      Faults (exec (.destroy s)) (ready w') .rawRead := by
  obtain ⟨σ, h⟩ := hr.inv
  obtain ⟨v, hs⟩ := (alive_iff h).1 ha
  obtain rfl := (contents_iff h hs).1 hL
  have hcap := (spare_iff h hs).1 hsp
  have : wp (exec (.insert s i (.val x))) (ready w) fun r w' => ∃ k, r = .pos k ∧ Inserted (ready w) σ s v i x k w' := by
    unfold exec; simp only [wp_bind, evalArg, wp_pure]
    refine wp_mono (wp_insertValue (a := .lit x) (x := x) h.ready.st rfl hs (Nat.le_of_lt hi) rfl trivial) ?_
    intro k w' hp; exact ⟨k, rfl, hp⟩
  obtain ⟨r, w', hrun, k, rfl, hp⟩ := this.runs
  have hsn := h.st.ne_null hs
  cases hp with
  | refused _ h1 => omega
  | failed v1 w1 h1 h2 =>
    obtain ⟨rfl, rfl⟩ := h1.keep hcap
    have : w.env.ctor w.nCtor = false := h2
    rw [hc0] at this; cases this
  | ok v1 w1 h' h1 h2 =>
    obtain ⟨rfl, rfl⟩ := h1.keep hcap
    have := h2 1 (by omega)
    have : w.env.ctor (w.nCtor + 1) = true := this
    rw [hc1] at this; cases this
  | broken v1 w1 j h1 h2 h3 h4 h5 =>
    obtain ⟨rfl, rfl⟩ := h1.keep hcap
    have hj : j = 1 := by
      refine Classical.byContradiction fun h0 => ?_
      have := h4 1 (by omega)
      have : w.env.ctor (w.nCtor + 1) = true := this
      rw [hc1] at this; cases this
    subst hj
    have hne : s ≠ v1.start := h.st.stk_ne hs hs
    refine ⟨_, _, hrun, rfl, ?_, ?_, ?_⟩
    · refine (runs_pure (r := v1.els.length) ?_).2 rfl
      unfold size; simp only [wp_bind]
      rw [wp_rdObj (o := ⟨v1.alloc, v1.start, v1.els.length, v1.cap⟩)
        (by simp only; rw [upd_other _ _ hne]; exact (h.st.obj _ _ hs).2) hsn]
      exact ⟨rfl, rfl⟩
    · unfold at_
      refine wp.faults_bind ?_
      rw [wp_rdObj (o := ⟨v1.alloc, v1.start, v1.els.length, v1.cap⟩)
        (by simp only; rw [upd_other _ _ hne]; exact (h.st.obj _ _ hs).2) hsn]
      refine wp.faults_bind ?_
      simp only [wp_assertM, decide_eq_true_eq]
      refine ⟨by omega, ?_⟩
      refine faults_slotRd (upd_same _ _ _) h1.some ?_
      exact getElem?_mid (by simp)
    · unfold exec
      refine Faults.bind ?_
      unfold destroyVec
      refine wp.faults_bind ?_
      rw [wp_rdObj (o := ⟨v1.alloc, v1.start, v1.els.length, v1.cap⟩)
        (by simp only [ready]; rw [upd_other _ _ hne]; exact (h.st.obj _ _ hs).2) hsn]
      refine Faults.bind ?_
      exact faults_destroyRange h1.some (v1.els.take (v1.els.length - 1)) (X := []) (by exact upd_same _ _ _) rfl (by simp; omega)

/-- [2, 5] with room for a third element; the fourth constructor call succeeds and the fifth fails. -/
example : ∃ (w : W Nat) (t : Ptr), Reach w ∧ Alive w t ∧ Contents w t [2, 5] ∧ 0 < [2, 5].length ∧ Spare w t ∧
    w.env.ctor w.nCtor = true ∧ w.env.ctor (w.nCtor + 1) = false := by
  obtain ⟨w, t, hr, ha, hc, hk, al, h1, h2⟩ := demo_ctor (c := fun k => decide (k < 4)) rfl rfl rfl
  exact ⟨w, t, hr, ha, hc, by decide, ⟨_, _, hc, hk, by decide⟩, by rw [h1, h2]; rfl, by rw [h1, h2]; rfl⟩

/-- C33, the part that holds: if none of the constructions that follow the shifting of the last element fails (counting from
the first construction after a relocation of the `r` elements), an insertion that reports an error leaves the elements
as before and returns `end()`.  Missing: a construction that fails after an element has been shifted. -/
theorem vector_insert_failure_partial (hr : Reach w) (ha : Alive w s) (hL : Contents w s L) (hi : i ≤ L.length)
    (hx : ArgVal w x a) (hf : Foreign s a)
    (hc : ∀ r, (Spare w s → r = 0) → (¬ Spare w s → r = L.length) → ∀ j, 0 < j → j ≤ L.length - i →
      w.env.ctor (w.nCtor + r + j) = true) :
    ∃ r w', Runs (exec (.insert s i a)) (ready w) (.pos r) w' ∧
      (w'.err ≠ none → r = L.length ∧ Alive w' s ∧ Contents w' s L ∧ (∀ al, HasAlloc w s al → HasAlloc w' s al) ∧
        Unchanged w w' [s] ∧ NoLeak w') := by
  obtain ⟨σ, h⟩ := hr.inv
  obtain ⟨v, hs⟩ := (alive_iff h).1 ha
  obtain rfl := (contents_iff h hs).1 hL
  have : wp (exec (.insert s i a)) (ready w) fun r w' => ∃ k, r = .pos k ∧ Inserted (ready w) σ s v i x k w' := by
    unfold exec; simp only [wp_bind]
    refine wp_evalArg h.ready (argOk_ready h (hx.ok h)) ?_
    intro b y hb hy _ href
    obtain rfl := hx.unique h hy
    refine wp_mono (wp_insertValue h.ready.st rfl hs hi hb (far_of_foreign h.ready hs hf href).apart) ?_
    intro k w' hp; exact ⟨k, rfl, hp⟩
  obtain ⟨r, w', hrun, k, rfl, hp⟩ := this.runs
  refine ⟨k, w', hrun, ?_⟩
  intro h0
  have hl := (h.st.ok _ _ hs).len
  have key : k = v.els.length ∧ ∃ v', Inv w' (upd σ s (some v')) ∧ v'.els = v.els ∧ v'.alloc = v.alloc := by
    cases hp with
    | refused _ h1 h2 h3 =>
      have hp := h2.put (pos := i) (x := x) h.ready.st hs h1 rfl h3
      exact ⟨rfl, v, h.ready.set hs hp.st hp.adv.sp, rfl, rfl⟩
    | failed v1 w1 h1 h2 => exact ⟨rfl, v1, h.ready.set hs (w' := { w1 with nCtor := w1.nCtor + 1, err := some .ctorFailed }) h1.st h1.adv.sp, h1.els, h1.alloc⟩
    | broken v1 w1 j h1 h2 h3 h4 h5 =>
      have h6 := (h1.relocated hl).1
      have h7 := hc (relocs v) (fun h8 => if_neg (by have := (spare_iff h hs).1 h8; omega))
        (fun h8 => if_pos (by have := mt (spare_iff h hs).2 h8; omega)) j h2 h3
      rw [h1.adv.env, h6] at h5
      have h5 : w.env.ctor (w.nCtor + relocs v + j) = false := h5
      rw [h7] at h5; cases h5
    | ok v1 w1 h' h1 => exact absurd h1.err h0
  obtain ⟨rfl, v', hi', h1, h2⟩ := key
  refine ⟨rfl, (alive_iff hi').2 ⟨_, upd_same _ _ _⟩, (contents_iff hi' (upd_same _ _ _)).2 h1.symm, ?_, unchanged1 h hi', hi'.noLeak⟩
  intro al hal; exact (hasAlloc_iff hi' (upd_same _ _ _)).2 (((hasAlloc_iff h hs).1 hal).trans h2.symm)

/-- [2, 5] with room for a third element; the fourth constructor call fails, the later ones succeed. -/
example : ∃ (w : W Nat) (t : Ptr), Reach w ∧ Alive w t ∧ Contents w t [2, 5] ∧ 0 ≤ [2, 5].length ∧ ArgVal w 8 (.val 8 : CArg Nat) ∧
    w.env.ctor w.nCtor = false ∧
    (∀ r, (Spare w t → r = 0) → (¬ Spare w t → r = [2, 5].length) → ∀ j, 0 < j → j ≤ [2, 5].length - 0 →
      w.env.ctor (w.nCtor + r + j) = true) := by
  obtain ⟨w, t, hr, ha, hc, hk, al, h1, h2⟩ := demo_ctor (c := fun k => decide (k ≠ 3)) rfl rfl rfl
  refine ⟨w, t, hr, ha, hc, by decide, rfl, by rw [h1, h2]; rfl, ?_⟩
  intro r _ _ j hj _
  rw [h1, h2]; simp; omega

/-! ### C34 -/

/-- C34, `reserve_nothrow(err, n)`: never changes the elements or the allocator, never shrinks; without an error the capacity
is at least `n`; with an error the capacity and the block are as before, too.  A request within the capacity does nothing. -/
theorem vector_reserve (hr : Reach w) (ha : Alive w s) (hL : Contents w s L) {c : Nat} (hc : HasCap w s c) (hn : Countable V n) :
    ∃ w', Runs (exec (.reserve s n)) (ready w) .unit w' ∧ Alive w' s ∧ Contents w' s L ∧
      (∀ al, HasAlloc w s al → HasAlloc w' s al) ∧
      (w'.err = none → HasCap w' s (max c n)) ∧
      (w'.err ≠ none → HasCap w' s c ∧ ∀ p, HasData w s p → HasData w' s p) ∧
      (n ≤ c → Silent w w' ∧ ∀ p, HasData w s p → HasData w' s p) ∧
      (Good w → Modest V n → w'.err = none) ∧ Unchanged w w' [s] ∧ NoLeak w' := by
  obtain ⟨σ, h⟩ := hr.inv
  obtain ⟨v, hs⟩ := (alive_iff h).1 ha
  obtain rfl := (contents_iff h hs).1 hL
  obtain rfl := (hasCap_iff h hs).1 hc
  have : wp (exec (.reserve s n)) (ready w) fun r w' => r = .unit ∧ ∃ v', Inv w' (upd σ s (some v')) ∧ v'.els = v.els ∧ v'.alloc = v.alloc ∧
      (w'.err = none → v'.cap = max v.cap n) ∧ (w'.err ≠ none → v'.cap = v.cap ∧ v'.start = v.start) ∧
      (n ≤ v.cap → Silent w w' ∧ v'.start = v.start) ∧ (Good w → Modest V n → w'.err = none) := by
    unfold exec; simp only [wp_bind]
    have hup : upd σ s (some v) = σ := upd_self _ _ _ hs
    refine wp_reserve h.ready.st rfl hs hn ?_ ?_
    · intro hle
      exact ⟨rfl, v, by rw [hup]; exact h.ready, rfl, rfl, fun _ => by omega, fun h0 => absurd rfl h0, fun _ => ⟨⟨rfl, rfl, rfl⟩, rfl⟩, fun _ _ => rfl⟩
    · intro hlt w' hres
      refine ⟨rfl, ?_⟩
      cases hres with
      | noRoom h1 =>
        exact ⟨v, by rw [hup]; exact ⟨h.st, h.top⟩, rfl, rfl, fun h0 => by simp at h0, fun _ => ⟨rfl, rfl⟩, fun h0 => by omega,
          fun hg hm => absurd h1 (Good.room (ready_good hg) hm)⟩
      | copyFailed j h1 h2 h3 h4 =>
        refine ⟨v, by rw [hup]; exact ⟨h.st, h.top⟩, rfl, rfl, fun h0 => by simp at h0, fun _ => ⟨rfl, rfl⟩, fun h0 => by omega, ?_⟩
        intro hg _
        have h4 : w.env.ctor (w.nCtor + j) = false := h4
        rw [hg.ctor] at h4; cases h4
      | ok b h' h1 h2 h3 h4 h5 h6 h7 h8 =>
        exact ⟨_, h.ready.set hs (w' := { ready w with heap := h', nAlloc := w.nAlloc + 1, nCtor := w.nCtor + v.els.length }) h5 (Nat.le_refl _),
          rfl, rfl, fun _ => by simp only; omega, fun h0 => absurd rfl h0, fun h0 => by omega, fun _ _ => rfl⟩
  obtain ⟨r, w', hrun, rfl, v', hi, h1, h2, h3, h4, h5, h6⟩ := this.runs
  have hs' := upd_same σ s (some v')
  refine ⟨w', hrun, (alive_iff hi).2 ⟨_, hs'⟩, (contents_iff hi hs').2 h1.symm, ?_, ?_, ?_, ?_, h6, unchanged1 h hi, hi.noLeak⟩
  · intro al hal; exact (hasAlloc_iff hi hs').2 (((hasAlloc_iff h hs).1 hal).trans h2.symm)
  · intro h0; exact (hasCap_iff hi hs').2 (h3 h0).symm
  · intro h0
    exact ⟨(hasCap_iff hi hs').2 (h4 h0).1.symm, fun p hp => (hasData_iff hi hs').2 (((hasData_iff h hs).1 hp).trans (h4 h0).2.symm)⟩
  · intro h0
    exact ⟨(h5 h0).1, fun p hp => (hasData_iff hi hs').2 (((hasData_iff h hs).1 hp).trans (h5 h0).2.symm)⟩

example : ∃ (w : W Nat) (s : Ptr), Reach w ∧ Good w ∧ Alive w s ∧ Contents w s [3, 1, 2] ∧ HasCap w s 3 ∧ Countable Nat 10 ∧ Modest Nat 10 := by
  obtain ⟨w, s, t, u, hr, hg, h1, h2, h3, ha, hb, hu, c1, c2, c3, k1, k2, k3, al⟩ := demo
  exact ⟨w, s, hr, hg, ha, c1, k1, (by decide : 10 * 8 < 2 ^ 64), fits_small (by decide)⟩

/-- C34, `shrink_to_fit_nothrow(err)`: never changes the elements or the allocator; without an error the capacity equals the
size; with an error the capacity and the block are as before. -/
theorem vector_shrink_to_fit (hr : Reach w) (ha : Alive w s) (hL : Contents w s L) {c : Nat} (hc : HasCap w s c) :
    ∃ w', Runs (exec (.shrink s)) (ready w) .unit w' ∧ Alive w' s ∧ Contents w' s L ∧
      (∀ al, HasAlloc w s al → HasAlloc w' s al) ∧
      (w'.err = none → HasCap w' s L.length) ∧
      (w'.err ≠ none → HasCap w' s c ∧ ∀ p, HasData w s p → HasData w' s p) ∧
      (Good w → w'.err = none) ∧ Unchanged w w' [s] ∧ NoLeak w' := by
  obtain ⟨σ, h⟩ := hr.inv
  obtain ⟨v, hs⟩ := (alive_iff h).1 ha
  obtain rfl := (contents_iff h hs).1 hL
  obtain rfl := (hasCap_iff h hs).1 hc
  have hok := h.st.ok _ _ hs
  have : wp (exec (.shrink s)) (ready w) fun r w' => r = .unit ∧ ∃ v', Inv w' (upd σ s (some v')) ∧ v'.els = v.els ∧ v'.alloc = v.alloc ∧
      (w'.err = none → v'.cap = v.els.length) ∧ (w'.err ≠ none → v'.cap = v.cap ∧ v'.start = v.start) ∧ (Good w → w'.err = none) := by
    unfold exec; simp only [wp_bind]
    have hup : upd σ s (some v) = σ := upd_self _ _ _ hs
    refine wp_shrinkToFit h.ready.st rfl hs ?_ ?_
    · intro hle
      exact ⟨rfl, v, by rw [hup]; exact h.ready, rfl, rfl, fun _ => by omega, fun h0 => absurd rfl h0, fun _ => rfl⟩
    · intro hlt w' hres
      refine ⟨rfl, ?_⟩
      cases hres with
      | noRoom h1 =>
        exact ⟨v, by rw [hup]; exact ⟨h.st, h.top⟩, rfl, rfl, fun h0 => by simp at h0, fun _ => ⟨rfl, rfl⟩,
          fun hg => absurd h1 (Good.room (ready_good hg) (hok.fits.mono hok.len))⟩
      | copyFailed j h1 h2 h3 h4 =>
        refine ⟨v, by rw [hup]; exact ⟨h.st, h.top⟩, rfl, rfl, fun h0 => by simp at h0, fun _ => ⟨rfl, rfl⟩, ?_⟩
        intro hg
        have h4 : w.env.ctor (w.nCtor + j) = false := h4
        rw [hg.ctor] at h4; cases h4
      | ok b h' h1 h2 h3 h4 h5 h6 h7 h8 =>
        exact ⟨_, h.ready.set hs (w' := { ready w with heap := h', nAlloc := w.nAlloc + 1, nCtor := w.nCtor + v.els.length }) h5 (Nat.le_refl _),
          rfl, rfl, fun _ => rfl, fun h0 => absurd rfl h0, fun _ => rfl⟩
  obtain ⟨r, w', hrun, rfl, v', hi, h1, h2, h3, h4, h6⟩ := this.runs
  have hs' := upd_same σ s (some v')
  refine ⟨w', hrun, (alive_iff hi).2 ⟨_, hs'⟩, (contents_iff hi hs').2 h1.symm, ?_, ?_, ?_, h6, unchanged1 h hi, hi.noLeak⟩
  · intro al hal; exact (hasAlloc_iff hi hs').2 (((hasAlloc_iff h hs).1 hal).trans h2.symm)
  · intro h0; exact (hasCap_iff hi hs').2 (h3 h0).symm
  · intro h0
    exact ⟨(hasCap_iff hi hs').2 (h4 h0).1.symm, fun p hp => (hasData_iff hi hs').2 (((hasData_iff h hs).1 hp).trans (h4 h0).2.symm)⟩

example : ∃ (w : W Nat) (t : Ptr), Reach w ∧ Good w ∧ Alive w t ∧ Contents w t [2, 5] ∧ HasCap w t 3 := by
  obtain ⟨w, s, t, u, hr, hg, h1, h2, h3, ha, hb, hu, c1, c2, c3, k1, k2, k3, al⟩ := demo
  exact ⟨w, t, hr, hg, hb, c2, k2⟩

end Nestl.VC
