import Verif.Vector.Props
set_option autoImplicit false
/-
Property theorems of nestl::vector (C35-C40), continued from `Verif/Vector/Props.lean`.
-/
namespace Nestl.VC
open Nestl.Vec

/-! ### C35 -/

/-- C35 is violated: with 8-byte elements `reserve_nothrow(err, 2^61 + 1)` asks the allocator for `(2^61 + 1) * 8 mod 2^64 = 8`
bytes.  It reports success and `capacity()` is 2^61 + 1, but the second element appended afterwards is written behind the
block. -/
theorem vector_reserve_room_violated : ∃ (s : Ptr) (w1 w2 w3 : W Nat),
    Runs (exec (.create defaultAlloc)) (start (envOf fun _ => true)) (.obj s) w1 ∧
    Runs (exec (.reserve s (2 ^ 61 + 1))) (ready w1) .unit w2 ∧ w2.err = none ∧ HasCap w2 s (2 ^ 61 + 1) ∧
    Runs (exec (.pushBack s (.val 4))) (ready w2) .unit w3 ∧ w3.err = none ∧ Contents w3 s [4] ∧
    Faults (exec (.pushBack s (.val 5))) (ready w3) .outOfBounds :=
  ⟨_, _, _, _, rfl, rfl, rfl, rfl, rfl, rfl, rfl, rfl⟩

section
variable {V : Type} [ElemSize V] {w w' : W V} {σ : Sg V} {s t : Ptr} {L M : List V} {x : V} {a : CArg V} {i n : Nat} {v : Vec V}

/-- The block of the vector `s` really has `m` places for elements. -/
def Holds (w : W V) (s : Ptr) (m : Nat) : Prop :=
  ∃ p, HasData w s p ∧ (m = 0 ∨ ∃ b, w.heap p = some (.blk b) ∧ m ≤ b.slots.length)

theorem Inv.holds (h : Inv w σ) (hs : σ s = some v) : Holds w s v.cap := by
  refine ⟨v.start, (hasData_iff h hs).2 rfl, ?_⟩
  have hok := h.st.ok _ _ hs
  rcases hok.blk with ⟨h1, h2⟩ | ⟨⟨b, h1⟩, h2⟩
  · exact .inl h2
  · refine .inr ⟨_, h2, ?_⟩
    have := hok.len
    simp [slotsOf]; omega

/-- C35, the part that holds: in every state reached by valid calls (`reserve_nothrow(err, n)` only with `n * sizeof(T) < 2^64`)
the storage has room for `capacity()` elements, and `reserve_nothrow(err, n)` with such an `n` that reports success gives
room for `n`.  Missing: requests that overflow `size_t`. -/
theorem vector_reserve_room_partial (hr : Reach w) (ha : Alive w s) {c : Nat} (hc : HasCap w s c) (hn : Countable V n) :
    Holds w s c ∧ ∃ w', Runs (exec (.reserve s n)) (ready w) .unit w' ∧ (w'.err = none → Holds w' s (max c n)) := by
  obtain ⟨σ, h⟩ := hr.inv
  obtain ⟨v, hs⟩ := (alive_iff h).1 ha
  obtain rfl := (hasCap_iff h hs).1 hc
  refine ⟨h.holds hs, ?_⟩
  obtain ⟨w', h1, h2, _, _, h3, _⟩ := vector_reserve hr ha ((contents_iff h hs).2 rfl) hc hn
  refine ⟨w', h1, ?_⟩
  intro h0
  obtain ⟨σ', h'⟩ := (hr.next (c := .reserve s n) ⟨ha, hn⟩ h1).inv
  obtain ⟨v', hs'⟩ := (alive_iff h').1 h2
  rw [(hasCap_iff h' hs').1 (h3 h0)]
  exact h'.holds hs'
end

example : ∃ (w : W Nat) (s : Ptr), Reach w ∧ Alive w s ∧ HasCap w s 3 ∧ Countable Nat (2 ^ 60) := by
  obtain ⟨w, s, t, u, hr, hg, h1, h2, h3, ha, hb, hu, c1, c2, c3, k1, k2, k3, al⟩ := demo
  exact ⟨w, s, hr, ha, k1, (by decide : 2 ^ 60 * 8 < 2 ^ 64)⟩

/-! ### C36 -/

section growth
variable {V : Type} [ElemSize V] {w w' : W V} {σ : Sg V} {s t : Ptr} {L : List V} {x : V} {a : CArg V} {i n : Nat} {v : Vec V}

/-- Client loop `for (x : xs) v.push_back_nothrow(err, x);` -/
def appendAll (s : Ptr) : List V → M (W V) Unit
  | [] => pure ()
  | x :: xs => do
    pushBack s (.lit x)
    appendAll s xs

/-- `k` relocations with `r` copies in total since the capacity was `c0`, now the capacity is `c` and the size is `z`. -/
structure Grown (c0 z c k r : Nat) : Prop where
  cap : r ≤ 2 * c
  size : r ≤ 3 * z
  low : 3 ^ k * (c0 + 2) ≤ 2 ^ k * (c + 2)
  last : k = 0 ∨ 0 < z ∧ 3 ^ (k - 1) * (c0 + 2) ≤ 2 ^ (k - 1) * (z + 1)

theorem Grown.push {c0 z c k r : Nat} (h : Grown c0 z c k r) : Grown c0 (z + 1) c k r := by
  refine ⟨h.cap, ?_, h.low, ?_⟩
  · have := h.size; omega
  · rcases h.last with h1 | ⟨h1, h2⟩
    · exact .inl h1
    · exact .inr ⟨by omega, Nat.le_trans h2 (Nat.mul_le_mul_left _ (by omega))⟩

theorem Grown.grow {c0 c k r : Nat} (h : Grown c0 c c k r) : Grown c0 (c + 1) (growTo c (c + 1)) (k + 1) (r + c) := by
  have hg : 3 * c + 2 ≤ 2 * growTo c (c + 1) := by unfold growTo; omega
  have h1 := h.cap
  refine ⟨by omega, by omega, ?_, .inr ⟨by omega, ?_⟩⟩
  · rw [Nat.pow_succ, Nat.pow_succ, Nat.mul_right_comm, Nat.mul_assoc (2 ^ k)]
    have h2 : 3 * (c + 2) ≤ 2 * (growTo c (c + 1) + 2) := by omega
    calc 3 ^ k * (c0 + 2) * 3 ≤ 2 ^ k * (c + 2) * 3 := Nat.mul_le_mul_right _ h.low
      _ = 2 ^ k * (3 * (c + 2)) := by rw [Nat.mul_assoc, Nat.mul_comm 3]
      _ ≤ _ := Nat.mul_le_mul_left _ h2
  · simpa using h.low

theorem wp_appendAll {c0 : Nat} : ∀ (xs : List V) {w : W V} {σ : Sg V} {v : Vec V} {k r : Nat}, Inv w σ → w.err = none → σ s = some v →
    Good w → Modest V (2 * (v.els.length + xs.length)) → Grown c0 v.els.length v.cap k r →
    wp (appendAll s xs) w fun _ w' => w'.err = none ∧ ∃ v' k' r', Inv w' (upd σ s (some v')) ∧ v'.els = v.els ++ xs ∧
      w'.nAlloc + k = w.nAlloc + k' ∧ w'.nCtor + r = w.nCtor + xs.length + r' ∧ Grown c0 v'.els.length v'.cap k' r' := by
  intro xs
  induction xs with
  | nil =>
    intro w σ v k r h he hs hg hm hgr
    simp only [appendAll, wp_pure]
    exact ⟨he, v, k, r, by rw [upd_self _ _ _ hs]; exact h, by simp, rfl, by simp, hgr⟩
  | cons x xs ih =>
    intro w σ v k r h he hs hg hm hgr
    simp only [appendAll, wp_bind]
    refine wp_mono (wp_pushBack (a := .lit x) (x := x) h.st he hs rfl trivial) ?_
    rintro _ w1 ⟨v1, hp⟩
    have hl := (h.st.ok _ _ hs).len
    have he1 : w1.err = none := by
      refine Classical.byContradiction fun h0 => ?_
      rcases hp.cause.1 h0 with ⟨hf, h1⟩ | ⟨k, h1, h2⟩
      · refine Good.room hg (n := growTo v.cap (v.cap + 1)) (Fits.mono (n := 2 * (v.els.length + (xs.length + 1))) hm ?_) h1
        unfold growTo; omega
      · rw [hg.ctor] at h2; cases h2
    have hels := hp.appended he1
    have hlen : v1.els.length = v.els.length + 1 := by rw [hels]; simp
    have hct := hp.ctors he1
    have hi1 := h.set hs hp.st hp.adv.sp
    have hm1 : Modest V (2 * (v1.els.length + xs.length)) := by
      rw [hlen]; rw [List.length_cons] at hm
      have : v.els.length + 1 + xs.length = v.els.length + (xs.length + 1) := by omega
      rw [this]; exact hm
    have key : ∃ k1 r1, Grown c0 v1.els.length v1.cap k1 r1 ∧ w1.nAlloc + k = w.nAlloc + k1 ∧ w1.nCtor + r = w.nCtor + 1 + r1 := by
      by_cases hf : v.els.length = v.cap
      · obtain ⟨h1, h2⟩ := hp.grown hf he1
        have hrel : relocs v = v.cap := by unfold relocs; rw [if_pos hf, hf]
        refine ⟨k + 1, r + v.cap, ?_, by omega, by omega⟩
        rw [h1, hlen, hf]
        rw [hf] at hgr
        exact hgr.grow
      · obtain ⟨h1, h2, h3⟩ := hp.keep (by omega)
        have hrel : relocs v = 0 := if_neg hf
        refine ⟨k, r, ?_, by omega, by omega⟩
        rw [h2, hlen]; exact hgr.push
    obtain ⟨k1, r1, hg1, hk1, hr1⟩ := key
    refine wp_mono (ih hi1 he1 (upd_same _ _ _) (hp.adv.good hg) hm1 hg1) ?_
    rintro _ w2 ⟨h1, v2, k2, r2, h2, h3, h4, h5, h6⟩
    refine ⟨h1, v2, k2, r2, by rwa [upd_upd] at h2, by rw [h3, hels]; simp, by omega, ?_, h6⟩
    rw [List.length_cons]; omega

theorem log_bound {k z : Nat} (h : k = 0 ∨ 3 ^ (k - 1) * 2 ≤ 2 ^ (k - 1) * (z + 1)) : k ≤ 2 * Nat.log2 (z + 1) := by
  rcases h with rfl | h
  · exact Nat.zero_le _
  · cases k with
    | zero => exact Nat.zero_le _
    | succ m =>
      simp only [Nat.add_sub_cancel] at h
      have key : ∀ j : Nat, 2 ^ (j + 2 * j) ≤ 3 ^ (2 * j) := by
        intro j
        rw [Nat.pow_mul, show j + 2 * j = 3 * j by omega, Nat.pow_mul]
        exact Nat.pow_le_pow_left (by decide) _
      have h2 : 2 ^ (m / 2 + 1) ≤ z + 1 := by
        have hm : m = 2 * (m / 2) + m % 2 := by omega
        generalize m / 2 = j at hm ⊢
        have h3 : 2 ^ m * 2 ^ (j + 1) ≤ 3 ^ m * 2 := by
          rw [hm]
          rcases (by omega : m % 2 = 0 ∨ m % 2 = 1) with h4 | h4
          · rw [h4, Nat.add_zero, Nat.pow_succ, ← Nat.mul_assoc, ← Nat.pow_add, Nat.add_comm (2 * j) j]
            exact Nat.mul_le_mul_right _ (key j)
          · rw [h4, Nat.pow_succ, Nat.pow_succ, Nat.pow_succ]
            have := key j
            rw [Nat.add_comm, Nat.pow_add] at this
            calc 2 ^ (2 * j) * 2 * (2 ^ j * 2) = 2 ^ (2 * j) * 2 ^ j * 4 := by
                  rw [Nat.mul_mul_mul_comm]
              _ ≤ 3 ^ (2 * j) * 4 := Nat.mul_le_mul_right _ this
              _ ≤ 3 ^ (2 * j) * 6 := Nat.mul_le_mul_left _ (by decide)
              _ = 3 ^ (2 * j) * 3 * 2 := by rw [Nat.mul_assoc]
        exact Nat.le_of_mul_le_mul_left (Nat.le_trans h3 h) (Nat.pow_pos (by decide))
      have h4 : m / 2 + 1 ≤ Nat.log2 (z + 1) := (Nat.le_log2 (by omega)).2 h2
      omega

/-- C36: appending `n` elements to a vector with `m` elements performs at most `n + 3 * (m + n)` element constructions in total
(4 * n if the vector was empty), relocations included, and at most `2 * log2 (m + n + 1)` allocations; none of them
fails as long as memory lasts. -/
theorem vector_geometric_growth (hr : Reach w) (hg : Good w) (ha : Alive w s) (hL : Contents w s L) (xs : List V)
    (hm : Modest V (2 * (L.length + xs.length))) :
    ∃ w', Runs (appendAll s xs) (ready w) () w' ∧ w'.err = none ∧ Contents w' s (L ++ xs) ∧
      w'.nCtor - w.nCtor ≤ xs.length + 3 * (L.length + xs.length) ∧
      w'.nAlloc - w.nAlloc ≤ 2 * Nat.log2 (L.length + xs.length + 1) := by
  obtain ⟨σ, h⟩ := hr.inv
  obtain ⟨v, hs⟩ := (alive_iff h).1 ha
  obtain rfl := (contents_iff h hs).1 hL
  have := wp_appendAll (c0 := v.cap) (k := 0) (r := 0) xs h.ready rfl hs (ready_good hg) hm
    ⟨Nat.zero_le _, Nat.zero_le _, by simp, .inl rfl⟩
  obtain ⟨r, w', hrun, h1, v', k, r', h2, h3, h4, h5, h6⟩ := this.runs
  have hlen : v'.els.length = v.els.length + xs.length := by rw [h3]; simp
  refine ⟨w', hrun, h1, (contents_iff h2 (upd_same _ _ _)).2 h3.symm, ?_, ?_⟩
  · have h7 := h6.size
    have h5 : w'.nCtor + 0 = w.nCtor + xs.length + r' := h5
    omega
  · have h4 : w'.nAlloc + 0 = w.nAlloc + k := h4
    have h7 : k ≤ 2 * Nat.log2 (v'.els.length + 1) := by
      refine log_bound ?_
      rcases h6.last with h8 | ⟨_, h8⟩
      · exact .inl h8
      · refine .inr (Nat.le_trans (Nat.mul_le_mul_left _ ?_) h8)
        omega
    rw [hlen] at h7
    omega

end growth

example : ∃ (w : W Nat) (s : Ptr), Reach w ∧ Good w ∧ Alive w s ∧ Contents w s [3, 1, 2] ∧
    Modest Nat (2 * ([3, 1, 2].length + [1, 2, 3, 4].length)) := by
  obtain ⟨w, s, t, u, hr, hg, h1, h2, h3, ha, hb, hu, c1, c2, c3, k1, k2, k3, al⟩ := demo
  exact ⟨w, s, hr, hg, ha, c1, fits_small (by decide)⟩

section
variable {V : Type} [ElemSize V] {w w' : W V} {σ : Sg V} {s t : Ptr} {L M : List V} {x : V} {a : CArg V} {i n : Nat} {v : Vec V}

/-! ### C37 -/

/-- C37, shrinking: the first `n` elements stay, nothing is allocated or constructed, nothing fails. -/
theorem vector_resize_shrink (hr : Reach w) (ha : Alive w s) (hL : Contents w s L) (hn : n ≤ L.length) (hx : ArgVal w x a) :
    ∃ w', Runs (exec (.resize s n a)) (ready w) .unit w' ∧ Silent w w' ∧ Alive w' s ∧ Contents w' s (L.take n) ∧
      (∀ c, HasCap w s c → HasCap w' s c) ∧ (∀ p, HasData w s p → HasData w' s p) ∧
      (∀ al, HasAlloc w s al → HasAlloc w' s al) ∧ Unchanged w w' [s] ∧ NoLeak w' := by
  obtain ⟨σ, h⟩ := hr.inv
  obtain ⟨v, hs⟩ := (alive_iff h).1 ha
  obtain rfl := (contents_iff h hs).1 hL
  have : wp (exec (.resize s n a)) (ready w) fun r w' => r = .unit ∧ Silent w w' ∧
      Inv w' (upd σ s (some { v with els := v.els.take n })) := by
    unfold exec; simp only [wp_bind]
    refine wp_evalArg h.ready (argOk_ready h (hx.ok h)) ?_
    intro b y hb hy _ href
    refine wp_resize_cut h.ready.st hs hn ?_
    intro w' h1 h2 h3 h4 h5 h6
    exact ⟨rfl, ⟨h3, h5, h6⟩, h.ready.set hs h1 h2.sp⟩
  obtain ⟨r, w', hrun, rfl, hsi, hi⟩ := this.runs
  have hs' := upd_same σ s (some { v with els := v.els.take n })
  exact ⟨w', hrun, hsi, (alive_iff hi).2 ⟨_, hs'⟩, (contents_iff hi hs').2 rfl,
    fun c hc => (hasCap_iff hi hs').2 ((hasCap_iff h hs).1 hc), fun c hc => (hasData_iff hi hs').2 ((hasData_iff h hs).1 hc),
    fun c hc => (hasAlloc_iff hi hs').2 ((hasAlloc_iff h hs).1 hc), unchanged1 h hi, hi.noLeak⟩

example : ∃ (w : W Nat) (s : Ptr), Reach w ∧ Alive w s ∧ Contents w s [3, 1, 2] ∧ 1 ≤ [3, 1, 2].length ∧ ArgVal w 2 (.elem s 2) := by
  obtain ⟨w, s, t, u, hr, hg, h1, h2, h3, ha, hb, hu, c1, c2, c3, k1, k2, k3, al⟩ := demo
  exact ⟨w, s, hr, ha, c1, by decide, ha, _, c1, rfl⟩

/-- C37, growing with a value that is not an element of the vector: copies of the value are appended; with an error, fewer than
requested.  The allocator and all other vectors are untouched, nothing leaks, and there is no error if nothing is refused. -/
theorem vector_resize_grow (hr : Reach w) (ha : Alive w s) (hL : Contents w s L) (hn : L.length < n) (hc : Countable V n)
    (hx : ArgVal w x a) (hf : Foreign s a) :
    ∃ w' k, Runs (exec (.resize s n a)) (ready w) .unit w' ∧ Alive w' s ∧ Contents w' s (L ++ List.replicate k x) ∧
      (w'.err = none → L.length + k = n) ∧ (w'.err ≠ none → L.length + k < n) ∧
      (Good w → (∀ c, HasCap w s c → Modest V (max (2 * (c + 1)) n)) → w'.err = none) ∧
      (∀ al, HasAlloc w s al → HasAlloc w' s al) ∧ Unchanged w w' [s] ∧ NoLeak w' := by
  obtain ⟨σ, h⟩ := hr.inv
  obtain ⟨v, hs⟩ := (alive_iff h).1 ha
  obtain rfl := (contents_iff h hs).1 hL
  have : wp (exec (.resize s n a)) (ready w) fun r w' => r = .unit ∧ Resized (ready w) σ s v n x w' := by
    unfold exec; simp only [wp_bind]
    refine wp_evalArg h.ready (argOk_ready h (hx.ok h)) ?_
    intro b y hb hy _ href
    obtain rfl := hx.unique h hy
    refine wp_mono (wp_resize_grow h.ready.st rfl hs hn hc hb (far_of_foreign h.ready hs hf href)) ?_
    intro _ w' hp; exact ⟨rfl, hp⟩
  obtain ⟨r, w', hrun, rfl, hp⟩ := this.runs
  obtain ⟨v', k, hi, _, h1, h2, h3, h4⟩ := Resized.step hp h.ready hs rfl hn
  have hs' := upd_same σ s (some v')
  refine ⟨w', k, hrun, (alive_iff hi).2 ⟨_, hs'⟩, (contents_iff hi hs').2 h3.symm, ?_, h4.1, ?_, ?_, unchanged1 h hi, hi.noLeak⟩
  · intro h0
    have := mt h4.2 (by simp [h0]); omega
  · intro hg hm
    have hm := hm _ ((hasCap_iff h hs).2 rfl)
    have hfit : Fits V (growTo v.cap n) := by
      refine Fits.mono (n := max (2 * (v.cap + 1)) n) hm ?_
      unfold growTo; omega
    cases hp with
    | refused _ h5 h6 => exact ((h5.cases_bad h6 rfl).2.2 (ready_good hg) hfit).elim
    | filled w1 _ v1 v' k h5 h6 h7 h8 h9 h10 =>
      refine h10.good (h5.adv.good (ready_good hg)) (.inr ?_)
      rw [h7, h9, List.length_replicate]; unfold growTo; omega
  · intro al hal; exact (hasAlloc_iff hi hs').2 (((hasAlloc_iff h hs).1 hal).trans h1.symm)

example : ∃ (w : W Nat) (s t : Ptr), Reach w ∧ Good w ∧ Alive w s ∧ Contents w s [3, 1, 2] ∧ [3, 1, 2].length < 5 ∧ Countable Nat 5 ∧
    ArgVal w 2 (.elem t 0) ∧ Foreign s (.elem t 0 : CArg Nat) ∧ (∀ c, HasCap w s c → Modest Nat (max (2 * (c + 1)) 5)) := by
  obtain ⟨w, s, t, u, hr, hg, h1, h2, h3, ha, hb, hu, c1, c2, c3, k1, k2, k3, al⟩ := demo
  refine ⟨w, s, t, hr, hg, ha, c1, by decide, (by decide : 5 * 8 < 2 ^ 64), ⟨hb, _, c2, rfl⟩, h1.symm, ?_⟩
  intro c hc
  obtain ⟨rfl, _⟩ := Runs.det hc k1
  exact fits_small (by decide)

/-! ### C38 -/

/-- What an assignment of the sequence `M` to `s` guarantees: `s` holds `M`, or with an error a prefix of `M`; all other vectors
are untouched and nothing leaks. -/
def AssignsTo (w w' : W V) (s : Ptr) (M : List V) : Prop :=
  Alive w' s ∧ (w'.err = none → Contents w' s M) ∧ (∃ k, k ≤ M.length ∧ Contents w' s (M.take k)) ∧
    Unchanged w w' [s] ∧ NoLeak w'

theorem Assigned.to {xs : List V} {need k : Nat} {u : Vec V} (ha : Assigned (ready w) σ s xs need k u w') (h : Inv w σ)
    (hs : σ s = some v) : AssignsTo w w' s xs := by
  have hi := Assigned.inv ha h.ready hs
  have hs' := upd_same σ s (some u)
  refine ⟨(alive_iff hi).2 ⟨_, hs'⟩, ?_, ⟨k, ha.le, (contents_iff hi hs').2 ha.els.symm⟩, unchanged1 h hi, hi.noLeak⟩
  intro h0
  refine (contents_iff hi hs').2 ?_
  rw [ha.els, ha.ok h0, List.take_length]

/-- C38, `assign_nothrow(err, n, a)`; `a` may be an element of any vector. -/
theorem vector_assign_n (hr : Reach w) (ha : Alive w s) (hx : ArgVal w x a) (hn : Countable V n) :
    ∃ w', Runs (exec (.assignN s n a)) (ready w) .unit w' ∧ AssignsTo w w' s (List.replicate n x) ∧
      (Good w → Modest V (max 1 n) → w'.err = none) := by
  obtain ⟨σ, h⟩ := hr.inv
  obtain ⟨v, hs⟩ := (alive_iff h).1 ha
  have : wp (exec (.assignN s n a)) (ready w) fun r w' => r = .unit ∧ ∃ k v', Assigned (ready w) σ s (List.replicate n x) (max 1 n) k v' w' := by
    unfold exec; simp only [wp_bind]
    refine wp_evalArg h.ready (argOk_ready h (hx.ok h)) ?_
    intro b y hb hy _ href
    obtain rfl := hx.unique h hy
    refine wp_mono (wp_assignN h.ready.st rfl hs (h.ready.top _ (Nat.le_refl _)) hb hn) ?_
    intro _ w' hp; exact ⟨rfl, hp⟩
  obtain ⟨r, w', hrun, rfl, k, v', hp⟩ := this.runs
  exact ⟨w', hrun, Assigned.to hp h hs, fun hg hm => hp.good (ready_good hg) hm⟩

/-- Assigning copies of an own element. -/
example : ∃ (w : W Nat) (s : Ptr), Reach w ∧ Good w ∧ Alive w s ∧ ArgVal w 2 (.elem s 2) ∧ Countable Nat 5 ∧ Modest Nat (max 1 5) := by
  obtain ⟨w, s, t, u, hr, hg, h1, h2, h3, ha, hb, hu, c1, c2, c3, k1, k2, k3, al⟩ := demo
  exact ⟨w, s, hr, hg, ha, ⟨ha, _, c1, rfl⟩, (by decide : 5 * 8 < 2 ^ 64), fits_small (by decide)⟩

/-- C38, `assign_nothrow(err, first, last)` from values outside of the vectors, random access iterators. -/
theorem vector_assign_values (hr : Reach w) (ha : Alive w s) (vs : List V) (hn : Countable V vs.length) :
    ∃ w', Runs (exec (.assignVals s vs)) (ready w) .unit w' ∧ AssignsTo w w' s vs ∧
      (Good w → Modest V (max 1 vs.length) → w'.err = none) := by
  obtain ⟨σ, h⟩ := hr.inv
  obtain ⟨v, hs⟩ := (alive_iff h).1 ha
  have : wp (exec (.assignVals s vs)) (ready w) fun r w' => r = .unit ∧ ∃ k v', Assigned (ready w) σ s vs (max 1 vs.length) k v' w' := by
    unfold exec; simp only [wp_bind]
    refine wp_mono (wp_assignRandom h.ready.st rfl hs (h.ready.top _ (Nat.le_refl _)) (vals_lit vs) hn) ?_
    intro _ w' hp; exact ⟨rfl, hp⟩
  obtain ⟨r, w', hrun, rfl, k, v', hp⟩ := this.runs
  exact ⟨w', hrun, Assigned.to hp h hs, fun hg hm => hp.good (ready_good hg) hm⟩

example : ∃ (w : W Nat) (s : Ptr), Reach w ∧ Good w ∧ Alive w s ∧ Countable Nat [7, 7, 8, 9].length ∧ Modest Nat (max 1 [7, 7, 8, 9].length) := by
  obtain ⟨w, s, t, u, hr, hg, h1, h2, h3, ha, hb, hu, c1, c2, c3, k1, k2, k3, al⟩ := demo
  exact ⟨w, s, hr, hg, ha, (by decide : 4 * 8 < 2 ^ 64), fits_small (by decide)⟩

/-- C38, `assign_nothrow(err, first, last)`, input iterators. -/
theorem vector_assign_input (hr : Reach w) (ha : Alive w s) (vs : List V) :
    ∃ w', Runs (exec (.assignInput s vs)) (ready w) .unit w' ∧ AssignsTo w w' s vs ∧
      (Good w → Modest V (2 * vs.length) → w'.err = none) := by
  obtain ⟨σ, h⟩ := hr.inv
  obtain ⟨v, hs⟩ := (alive_iff h).1 ha
  have : wp (exec (.assignInput s vs)) (ready w) fun r w' => r = .unit ∧ ∃ k v', Assigned (ready w) σ s vs (2 * vs.length) k v' w' := by
    unfold exec; simp only [wp_bind]
    refine wp_mono (wp_assignInput h.ready.st rfl hs (h.ready.top _ (Nat.le_refl _)) (vals_lit vs)) ?_
    intro _ w' hp; exact ⟨rfl, hp⟩
  obtain ⟨r, w', hrun, rfl, k, v', hp⟩ := this.runs
  exact ⟨w', hrun, Assigned.to hp h hs, fun hg hm => hp.good (ready_good hg) hm⟩

example : ∃ (w : W Nat) (s : Ptr), Reach w ∧ Good w ∧ Alive w s ∧ Modest Nat (2 * [7, 7, 8, 9].length) := by
  obtain ⟨w, s, t, u, hr, hg, h1, h2, h3, ha, hb, hu, c1, c2, c3, k1, k2, k3, al⟩ := demo
  exact ⟨w, s, hr, hg, ha, fits_small (by decide)⟩

/-- C38, `assign_nothrow(err, t.begin() + i, t.begin() + i + n)`; `t` may be `s` itself. -/
theorem vector_assign_sub (hr : Reach w) (ha : Alive w s) (hb : Alive w t) (hM : Contents w t M) (hi : i + n ≤ M.length) :
    ∃ w', Runs (exec (.assignSub s t i n)) (ready w) .unit w' ∧ AssignsTo w w' s ((M.drop i).take n) ∧
      (Good w → (Modest V 1) → w'.err = none) := by
  obtain ⟨σ, h⟩ := hr.inv
  obtain ⟨v, hs⟩ := (alive_iff h).1 ha
  obtain ⟨u, ht⟩ := (alive_iff h).1 hb
  obtain rfl := (contents_iff h ht).1 hM
  have hok := h.st.ok _ _ ht
  have hlen : ((u.els.drop i).take n).length = n := by simp; omega
  have : wp (exec (.assignSub s t i n)) (ready w) fun r w' => r = .unit ∧ ∃ k v', Assigned (ready w) σ s ((u.els.drop i).take n) (max 1 ((u.els.drop i).take n).length) k v' w' := by
    unfold exec; simp only [wp_bind]
    unfold begin_; simp only [wp_bind]
    rw [wp_rdObj (h.ready.st.obj _ _ ht).2 (h.ready.st.ne_null ht)]
    simp only [wp_pure]
    refine wp_mono (wp_assignRandom h.ready.st rfl hs (h.ready.top _ (Nat.le_refl _)) (vals_sub h.ready ht n i hi) ?_) ?_
    · have := hok.len
      exact hok.fits.noWrap.mono (by rw [hlen]; omega)
    · intro _ w' hp; exact ⟨trivial, hp⟩
  obtain ⟨r, w', hrun, rfl, k, v', hp⟩ := this.runs
  refine ⟨w', hrun, Assigned.to hp h hs, fun hg hm => hp.good (ready_good hg) ?_⟩
  rw [hlen]
  have := hok.len
  rcases Nat.le_total n 1 with h1 | h1
  · rw [Nat.max_eq_left h1]; exact hm
  · rw [Nat.max_eq_right h1]; exact hok.fits.mono (by omega)

/-- Assigning a part of itself. -/
example : ∃ (w : W Nat) (s : Ptr), Reach w ∧ Good w ∧ Alive w s ∧ Contents w s [3, 1, 2] ∧ 1 + 2 ≤ [3, 1, 2].length ∧ Modest Nat 1 := by
  obtain ⟨w, s, t, u, hr, hg, h1, h2, h3, ha, hb, hu, c1, c2, c3, k1, k2, k3, al⟩ := demo
  exact ⟨w, s, hr, hg, ha, c1, by decide, fits_small (by decide)⟩

/-- C38, `d.copy_nothrow(err, s)`; `d` may be `s` itself: then the contents stay (or a prefix of them, with an error). -/
theorem vector_copy (hr : Reach w) (ha : Alive w s) (hb : Alive w t) (hM : Contents w t M) :
    ∃ w', Runs (exec (.copy s t)) (ready w) .unit w' ∧ AssignsTo w w' s M ∧ (Good w → Modest V 1 → w'.err = none) := by
  obtain ⟨σ, h⟩ := hr.inv
  obtain ⟨v, hs⟩ := (alive_iff h).1 ha
  obtain ⟨u, ht⟩ := (alive_iff h).1 hb
  obtain rfl := (contents_iff h ht).1 hM
  have hok := h.st.ok _ _ ht
  have : wp (exec (.copy s t)) (ready w) fun r w' => r = .unit ∧ ∃ k v', Assigned (ready w) σ s u.els (max 1 u.els.length) k v' w' := by
    unfold exec; simp only [wp_bind]
    refine wp_mono (wp_copyNothrow h.ready.st rfl hs ht (h.ready.top _ (Nat.le_refl _))) ?_
    intro _ w' hp; exact ⟨rfl, hp⟩
  obtain ⟨r, w', hrun, rfl, k, v', hp⟩ := this.runs
  refine ⟨w', hrun, Assigned.to hp h hs, fun hg hm => hp.good (ready_good hg) ?_⟩
  have := hok.len
  rcases Nat.le_total u.els.length 1 with h1 | h1
  · rw [Nat.max_eq_left h1]; exact hm
  · rw [Nat.max_eq_right h1]; exact hok.fits.mono (by omega)

/-- Copying another vector, and copying itself. -/
example : ∃ (w : W Nat) (s t : Ptr), Reach w ∧ Good w ∧ Alive w s ∧ Alive w t ∧ s ≠ t ∧ Contents w s [3, 1, 2] ∧ Contents w t [2, 5] ∧ Modest Nat 1 := by
  obtain ⟨w, s, t, u, hr, hg, h1, h2, h3, ha, hb, hu, c1, c2, c3, k1, k2, k3, al⟩ := demo
  exact ⟨w, s, t, hr, hg, ha, hb, h1, c1, c2, fits_small (by decide)⟩

end
end Nestl.VC
