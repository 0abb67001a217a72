import Verif.Vector.Model
set_option autoImplicit false
/-
The effect of the slot operations of the vector model on memory, and the memory of a set of vectors (`St`).
-/
namespace Nestl.Vec
variable {V : Type} {w : W V} {p q s t : Ptr} {i n : Nat}

/-- `w'` is a later state of the same program. -/
structure Adv (w w' : W V) : Prop where
  env : w'.env = w.env
  sp : w.sp ≤ w'.sp
  nAlloc : w.nAlloc ≤ w'.nAlloc
  nCtor : w.nCtor ≤ w'.nCtor
  fresh : ∀ a, w'.heap (.dyn a) ≠ none → w.heap (.dyn a) ≠ none ∨
    ∃ k, w.nAlloc ≤ k ∧ k < w'.nAlloc ∧ w.env.addr k = some a

theorem Adv.refl (w : W V) : Adv w w :=
  ⟨rfl, Nat.le_refl _, Nat.le_refl _, Nat.le_refl _, fun _ h => .inl h⟩

theorem Adv.trans {w w' w'' : W V} (h : Adv w w') (h' : Adv w' w'') : Adv w w'' := by
  refine ⟨h'.env.trans h.env, Nat.le_trans h.sp h'.sp, Nat.le_trans h.nAlloc h'.nAlloc, Nat.le_trans h.nCtor h'.nCtor, ?_⟩
  intro a ha
  rcases h'.fresh a ha with h1 | ⟨k, h1, h2, h3⟩
  · rcases h.fresh a h1 with h2 | ⟨k, h2, h3, h4⟩
    · exact .inl h2
    · exact .inr ⟨k, h2, Nat.lt_of_lt_of_le h3 h'.nAlloc, h4⟩
  · exact .inr ⟨k, Nat.le_trans h.nAlloc h1, h2, by rw [← h.env]; exact h3⟩

theorem Adv.good {w w' : W V} (h : Adv w w') (hg : Good w) : Good w' := by
  refine ⟨by rw [h.env]; exact hg.some, by rw [h.env]; exact hg.inj, by rw [h.env]; exact hg.ctor, ?_⟩
  intro a ha
  rw [h.env]
  rcases h.fresh a ha with h1 | ⟨k, _, h2, h3⟩
  · obtain ⟨k, hk, hk2⟩ := hg.past a h1
    exact ⟨k, Nat.lt_of_lt_of_le hk h.nAlloc, hk2⟩
  · exact ⟨k, h2, h3⟩

/-! ### Objects and slots -/

theorem wp_rdObj {o : Obj} (h : w.heap s = some (.obj o)) (hs : s ≠ .null) {Q : Obj → W V → Prop} :
    wp (rdObj s) w Q ↔ Q o w := by
  unfold rdObj; simp only [wp_bind]; rw [wp_rd h hs]; simp

theorem wp_setObj {c : VCell V} {o : Obj} (h : w.heap s = some c) (hs : s ≠ .null) {Q : Unit → W V → Prop} :
    wp (setObj s o) w Q ↔ Q () (w.setHeap (upd w.heap s (some (.obj o)))) := by
  unfold setObj; rw [wp_modCell h hs]

theorem wp_rdBlk {b : Blk V} (h : w.heap p = some (.blk b)) (hp : p ≠ .null) {Q : Blk V → W V → Prop} :
    wp (rdBlk p) w Q ↔ Q b w := by
  unfold rdBlk; simp only [wp_bind]; rw [wp_rd h hp]; simp

/-- The argument `a` denotes the value `v` in the memory `h`. -/
def Val (h : Ptr → Option (VCell V)) : Arg V → V → Prop
  | .lit x, v => x = v
  | .ref p i, v => p ≠ .null ∧ ∃ b, h p = some (.blk b) ∧ b.slots[i]? = some (some v)

theorem wp_slotRd {v : V} {b : Blk V} (h : w.heap p = some (.blk b)) (hp : p ≠ .null) (hi : b.slots[i]? = some (some v))
    {Q : V → W V → Prop} : wp (slotRd p i) w Q ↔ Q v w := by
  unfold slotRd; simp only [wp_bind]; rw [wp_rdBlk h hp, hi]; simp

theorem wp_argVal {a : Arg V} {v : V} (h : Val w.heap a v) {Q : V → W V → Prop} : wp (argVal a) w Q ↔ Q v w := by
  cases a with
  | lit x => cases h; simp [argVal]
  | ref p i =>
    obtain ⟨hp, b, hb, hi⟩ := h
    exact wp_slotRd hb hp hi

theorem getElem?_mid {α : Type} {X Y : List α} {a : α} (hi : i = X.length) : (X ++ a :: Y)[i]? = some a := by
  subst hi; simp

theorem set_mid {α : Type} {X Y : List α} {a b : α} (hi : i = X.length) : (X ++ a :: Y).set i b = X ++ b :: Y := by
  subst hi; simp

theorem wp_slotPut {v : V} {X Y : List (Option V)} {ow c : Nat} (h : w.heap p = some (.blk ⟨X ++ none :: Y, ow, c⟩))
    (hp : p ≠ .null) (hi : i = X.length) {Q : Unit → W V → Prop} :
    wp (slotPut p i v) w Q ↔ Q () (w.setHeap (upd w.heap p (some (.blk ⟨X ++ some v :: Y, ow, c⟩)))) := by
  unfold slotPut; simp only [wp_bind]; rw [wp_rdBlk h hp]
  simp only [getElem?_mid hi]
  rw [wp_modCell h hp, set_mid hi]

theorem wp_destroySlot {v : V} {X Y : List (Option V)} {ow c : Nat}
    (h : w.heap p = some (.blk ⟨X ++ some v :: Y, ow, c⟩)) (hp : p ≠ .null) (hi : i = X.length) {Q : Unit → W V → Prop} :
    wp (destroySlot p i) w Q ↔ Q () (w.setHeap (upd w.heap p (some (.blk ⟨X ++ none :: Y, ow, c⟩)))) := by
  unfold destroySlot; simp only [wp_bind]; rw [wp_rdBlk h hp]
  simp only [getElem?_mid hi]
  rw [wp_modCell h hp, set_mid hi]

theorem wp_destroyRange {ow c : Nat} (hp : p ≠ .null) (xs : List V) : ∀ {w : W V} {X Y : List (Option V)} {i : Nat},
    w.heap p = some (.blk ⟨X ++ (xs.map some ++ Y), ow, c⟩) → i = X.length → ∀ {Q : Unit → W V → Prop},
    Q () (w.setHeap (upd w.heap p (some (.blk ⟨X ++ (List.replicate xs.length none ++ Y), ow, c⟩)))) →
    wp (destroyRange p i xs.length) w Q := by
  induction xs with
  | nil =>
    intro w X Y i h hi Q hq
    simp only [List.length_nil, destroyRange, wp_pure]
    simp only [List.map_nil, List.nil_append] at h
    simpa [upd_self _ _ _ h] using hq
  | cons x xs ih =>
    intro w X Y i h hi Q hq
    simp only [List.length_cons, destroyRange, wp_bind]
    rw [wp_destroySlot (X := X) (Y := xs.map some ++ Y) (v := x) (by simpa using h) hp hi]
    refine ih (X := X ++ [none]) (Y := Y) (by simp) (by simp [hi]) ?_
    simpa [List.replicate_succ] using hq

theorem Val.put {h : Ptr → Option (VCell V)} {X Y : List (Option V)} {ow c : Nat} {a : Arg V} {v x : V}
    (hv : Val h a v) (hb : h p = some (.blk ⟨X ++ none :: Y, ow, c⟩)) :
    Val (upd h p (some (.blk ⟨X ++ some x :: Y, ow, c⟩))) a v := by
  cases a with
  | lit y => exact hv
  | ref q i =>
    obtain ⟨hq, b, hb2, hi⟩ := hv
    refine ⟨hq, ?_⟩
    by_cases hqp : q = p
    · subst hqp
      rw [hb] at hb2; cases hb2
      refine ⟨_, upd_same _ _ _, ?_⟩
      simp only at hi ⊢
      rw [List.getElem?_append] at hi ⊢
      split at hi
      · next hlt => rw [if_pos hlt]; exact hi
      · next hlt =>
        rw [if_neg hlt]
        cases hk : i - X.length with
        | zero => rw [hk] at hi; simp at hi
        | succ k => rw [hk] at hi; simpa using hi
    · exact ⟨b, by rw [upd_other _ _ hqp]; exact hb2, hi⟩

theorem wp_construct {a : Arg V} {v : V} {X Y : List (Option V)} {ow c : Nat} (hv : Val w.heap a v)
    (h : w.heap p = some (.blk ⟨X ++ none :: Y, ow, c⟩)) (hp : p ≠ .null) (hi : i = X.length) {Q : Unit → W V → Prop}
    (hok : w.env.ctor w.nCtor = true →
      Q () { w with heap := upd w.heap p (some (.blk ⟨X ++ some v :: Y, ow, c⟩)), nCtor := w.nCtor + 1 })
    (hfail : w.env.ctor w.nCtor = false → Q () { w with nCtor := w.nCtor + 1, err := some .ctorFailed }) :
    wp (construct p i a) w Q := by
  unfold construct; simp only [wp_bind]
  rw [wp_argVal hv]
  refine wp_tryCtor ?_ ?_
  · intro hc
    refine wp_if_pos rfl ?_
    exact (wp_slotPut (X := X) (Y := Y) (by exact h) hp hi).2 (hok hc)
  · intro hc
    exact wp_if_neg (by simp) (hfail hc)

/-! ### uninitialised_copy -/

/-- The arguments denote the values. -/
inductive Vals (h : Ptr → Option (VCell V)) : List (Arg V) → List V → Prop
  | nil : Vals h [] []
  | cons {a : Arg V} {as : List (Arg V)} {v : V} {vs : List V} : Val h a v → Vals h as vs → Vals h (a :: as) (v :: vs)

theorem Vals.length {h : Ptr → Option (VCell V)} {as : List (Arg V)} {vs : List V} (hv : Vals h as vs) :
    as.length = vs.length := by induction hv <;> simp_all

theorem Vals.imp {h h' : Ptr → Option (VCell V)} {as : List (Arg V)} {vs : List V} (hv : Vals h as vs)
    (hi : ∀ a v, Val h a v → Val h' a v) : Vals h' as vs := by
  induction hv with
  | nil => exact .nil
  | cons h1 _ ih => exact .cons (hi _ _ h1) ih

/-- The next `n` constructions succeed. -/
def CtorsOk (w : W V) (n : Nat) : Prop := ∀ k, k < n → w.env.ctor (w.nCtor + k) = true

theorem wp_ucLoop {ow c : Nat} (hp : p ≠ .null) {as : List (Arg V)} : ∀ {w : W V} {vs : List V} {X Y : List (Option V)}
    {i m : Nat}, Vals w.heap as vs → w.err = none → vs.length ≤ m →
    w.heap p = some (.blk ⟨X ++ (List.replicate m none ++ Y), ow, c⟩) → i = X.length →
    ∀ {Q : Nat × Bool → W V → Prop},
    (CtorsOk w vs.length → Q (i + vs.length, true) { w with
      heap := upd w.heap p (some (.blk ⟨X ++ (vs.map some ++ (List.replicate (m - vs.length) none ++ Y)), ow, c⟩)),
      nCtor := w.nCtor + vs.length }) →
    (∀ j, j < vs.length → CtorsOk w j → w.env.ctor (w.nCtor + j) = false → Q (i + j, false) { w with
      heap := upd w.heap p (some (.blk ⟨X ++ ((vs.take j).map some ++ (List.replicate (m - j) none ++ Y)), ow, c⟩)),
      nCtor := w.nCtor + j + 1, err := some .ctorFailed }) →
    wp (ucLoop p i as) w Q := by
  induction as with
  | nil =>
    intro w vs X Y i m hv he hm h hi Q hok hfail
    cases hv
    simp only [ucLoop, wp_pure]
    have := hok (fun k hk => absurd hk (by simp))
    simpa [upd_self _ _ _ h] using this
  | cons a as ih =>
    intro w vs X Y i m hv he hm h hi Q hok hfail
    cases hv with
    | @cons _ _ v vs hv1 hv2 =>
    simp only [List.length_cons] at hm
    obtain ⟨m, rfl⟩ : ∃ m', m = m' + 1 := ⟨m - 1, by omega⟩
    simp only [ucLoop, wp_bind, wp_hasErr]
    have hb : w.heap p = some (.blk ⟨X ++ none :: (List.replicate m none ++ Y), ow, c⟩) := by
      simpa [List.replicate_succ] using h
    refine wp_construct hv1 hb hp hi ?_ ?_
    · intro hc
      simp only [he]
      refine wp_if_neg (by simp) ?_
      refine ih (X := X ++ [some v]) (Y := Y) (m := m) (vs := vs) (i := i + 1) ?_ rfl (by omega) ?_ (by simp [hi]) ?_ ?_
      · exact hv2.imp fun a u hu => hu.put hb
      · simp
      · intro hcs
        have := hok (by
          intro k hk
          cases k with
          | zero => exact hc
          | succ k =>
            have h2 := hcs k (by simpa using hk)
            simpa [Nat.add_assoc, Nat.add_comm, Nat.add_left_comm] using h2)
        simpa [Nat.add_assoc, Nat.add_comm, Nat.add_left_comm, he] using this
      · intro j hj hcs hcf
        have := hfail (j + 1) (by simpa using hj) (by
          intro k hk
          cases k with
          | zero => exact hc
          | succ k =>
            have h2 := hcs k (by omega)
            simpa [Nat.add_assoc, Nat.add_comm, Nat.add_left_comm] using h2)
          (by simpa [Nat.add_assoc, Nat.add_comm, Nat.add_left_comm] using hcf)
        simpa [Nat.add_assoc, Nat.add_comm, Nat.add_left_comm, he] using this
    · intro hc
      refine wp_if_pos rfl ?_
      have := hfail 0 (by simp) (fun k hk => absurd hk (by omega)) (by simpa using hc)
      simpa [List.replicate_succ, upd_self _ _ _ hb] using this

theorem wp_uninitCopy {ow c : Nat} (hp : p ≠ .null) {as : List (Arg V)} {vs : List V} {X Y : List (Option V)} {m : Nat}
    (hv : Vals w.heap as vs) (he : w.err = none) (hm : vs.length ≤ m)
    (h : w.heap p = some (.blk ⟨X ++ (List.replicate m none ++ Y), ow, c⟩)) (hi : i = X.length)
    {Q : Nat → W V → Prop}
    (hok : CtorsOk w vs.length → Q (i + vs.length) { w with
      heap := upd w.heap p (some (.blk ⟨X ++ (vs.map some ++ (List.replicate (m - vs.length) none ++ Y)), ow, c⟩)),
      nCtor := w.nCtor + vs.length })
    (hfail : ∀ j, j < vs.length → CtorsOk w j → w.env.ctor (w.nCtor + j) = false → Q (i + j) { w with
      nCtor := w.nCtor + j + 1, err := some .ctorFailed }) :
    wp (uninitCopy as p i) w Q := by
  unfold uninitCopy; simp only [wp_bind]
  refine wp_ucLoop hp hv he hm h hi ?_ ?_
  · intro hc
    exact wp_if_pos rfl (hok hc)
  · intro j hj hcs hcf
    refine wp_if_neg (by simp) ?_
    simp only [wp_bind]
    have hl : i + j - i = (vs.take j).length := by simp; omega
    simp only [hl]
    refine wp_destroyRange hp (vs.take j) (X := X) (Y := List.replicate (m - j) none ++ Y) (ow := ow) (c := c) (by simp) hi ?_
    have := hfail j hj hcs hcf
    have e : List.replicate (vs.take j).length (none : Option V) ++ (List.replicate (m - j) none ++ Y)
        = List.replicate m none ++ Y := by
      rw [← List.append_assoc, List.replicate_append_replicate]
      congr 2; simp; omega
    rw [e]
    simpa [World.setHeap, upd_self _ _ _ h] using this

/-! ### The shifting loop of `insert_value` -/

theorem wp_shift [ElemSize V] {ow c : Nat} (hp : p ≠ .null) : ∀ (n : Nat) {w : W V} {M : List V} {X Y : List (Option V)} {i : Nat},
    M.length = n → w.err = none → w.heap p = some (.blk ⟨X ++ (M.map some ++ none :: Y), ow, c⟩) → i = X.length →
    ∀ {Q : Bool → W V → Prop},
    (CtorsOk w n → Q true { w with
      heap := upd w.heap p (some (.blk ⟨X ++ none :: (M.map some ++ Y), ow, c⟩)),
      nCtor := w.nCtor + n }) →
    (∀ j, j < n → CtorsOk w j → w.env.ctor (w.nCtor + j) = false → Q false { w with
      heap := upd w.heap p (some (.blk ⟨X ++ ((M.take (n - j)).map some ++ none :: ((M.drop (n - j)).map some ++ Y)), ow, c⟩)),
      nCtor := w.nCtor + j + 1, err := some .ctorFailed }) →
    wp (shift p i n) w Q := by
  intro n
  induction n with
  | zero =>
    intro w M X Y i hM he h hi Q hok _
    obtain rfl : M = [] := List.length_eq_zero_iff.1 hM
    simp only [shift, wp_pure]
    simp only [List.map_nil, List.nil_append] at h
    have := hok (fun k hk => absurd hk (by omega))
    simpa [upd_self _ _ _ h] using this
  | succ n ih =>
    intro w M X Y i hM he h hi Q hok hfail
    obtain ⟨M, x, rfl⟩ : ∃ M' x, M = M' ++ [x] := by
      refine ⟨M.dropLast, M.getLast (by intro h0; simp [h0] at hM), (List.dropLast_concat_getLast _).symm⟩
    have hMn : M.length = n := by simpa using hM
    simp only [shift, wp_bind, wp_hasErr]
    have hb : w.heap p = some (.blk ⟨(X ++ M.map some ++ [some x]) ++ none :: Y, ow, c⟩) := by simpa using h
    refine wp_construct (v := x) (X := X ++ M.map some ++ [some x]) (Y := Y) ?_ hb hp (by simp [hi, hMn]; omega) ?_ ?_
    · refine ⟨hp, _, h, ?_⟩
      simp [hi, ← hMn]
    · intro hc
      simp only [he]
      refine wp_if_neg (by simp) ?_
      simp only [wp_bind]
      rw [wp_destroySlot (v := x) (X := X ++ M.map some) (Y := some x :: Y) (ow := ow) (c := c) (by simp) hp (by simp [hi, hMn])]
      refine ih (M := M) (X := X) (Y := some x :: Y) hMn rfl (by simp) hi ?_ ?_
      · intro hcs
        have := hok (by
          intro k hk
          cases k with
          | zero => exact hc
          | succ k =>
            have h2 := hcs k (by omega)
            simpa [Nat.add_assoc, Nat.add_comm, Nat.add_left_comm] using h2)
        simpa [Nat.add_assoc, Nat.add_comm, Nat.add_left_comm, World.setHeap, he] using this
      · intro j hj hcs hcf
        have := hfail (j + 1) (by omega) (by
          intro k hk
          cases k with
          | zero => exact hc
          | succ k =>
            have h2 := hcs k (by omega)
            simpa [Nat.add_assoc, Nat.add_comm, Nat.add_left_comm] using h2)
          (by simpa [Nat.add_assoc, Nat.add_comm, Nat.add_left_comm] using hcf)
        have e1 : n + 1 - (j + 1) = n - j := by omega
        rw [e1, List.take_append_of_le_length (by omega), List.drop_append_of_le_length (by omega)] at this
        simpa [Nat.add_assoc, Nat.add_comm, Nat.add_left_comm, World.setHeap, he] using this
    · intro hc
      refine wp_if_pos rfl ?_
      have := hfail 0 (by simp) (fun k hk => absurd hk (by omega)) (by simpa using hc)
      have e1 : (M ++ [x]).take (n + 1 - 0) = M ++ [x] := List.take_of_length_le (by simp [hMn])
      have e2 : (M ++ [x]).drop (n + 1 - 0) = [] := List.drop_eq_nil_of_le (by simp [hMn])
      rw [e1, e2, List.map_nil, List.nil_append, upd_self _ _ _ h] at this
      exact this

/-! ### Allocation -/

/-- A request for `n` elements is refused: too large, or no memory. -/
def NoRoom [ElemSize V] (w : W V) (n : Nat) : Prop :=
  maxBytes < wrap (n * ElemSize.size V) ∨ ∀ a, w.env.addr w.nAlloc = some a → w.heap (.dyn a) ≠ none

/-- The byte size of `n` elements is representable. -/
def NoWrap (V : Type) [ElemSize V] (n : Nat) : Prop := n * ElemSize.size V < 2 ^ 64

/-- The byte size of `n` elements is within the limit on blocks. -/
def Fits (V : Type) [ElemSize V] (n : Nat) : Prop := n * ElemSize.size V ≤ maxBytes

theorem Fits.noWrap [ElemSize V] {n : Nat} (h : Fits V n) : NoWrap V n := by
  unfold Fits maxBytes at h; unfold NoWrap; omega

theorem Fits.mono [ElemSize V] {m n : Nat} (h : Fits V n) (hm : m ≤ n) : Fits V m :=
  Nat.le_trans (Nat.mul_le_mul_right _ hm) h

theorem NoWrap.mono [ElemSize V] {m n : Nat} (h : NoWrap V n) (hm : m ≤ n) : NoWrap V m :=
  Nat.lt_of_le_of_lt (Nat.mul_le_mul_right _ hm) h

theorem NoWrap.lt [ElemSize V] {n : Nat} (h : NoWrap V n) : n < 2 ^ 64 :=
  Nat.lt_of_le_of_lt (Nat.le_mul_of_pos_right _ ElemSize.pos) h

theorem Fits.le [ElemSize V] {n : Nat} (h : Fits V n) : n ≤ 2 ^ 62 :=
  Nat.le_trans (Nat.le_mul_of_pos_right _ ElemSize.pos) h

theorem Good.room [ElemSize V] {w : W V} (hg : Good w) {n : Nat} (hf : Fits V n) : ¬ NoRoom w n := by
  rintro (h | h)
  · have := hf.noWrap
    unfold Fits at hf; unfold NoWrap at this; unfold wrap at h
    rw [Nat.mod_eq_of_lt this] at h; omega
  · exact hg.not_refused (.inl h)

theorem wp_allocate [ElemSize V] {a : Nat} {Q : Ptr → W V → Prop} (hn : NoWrap V n)
    (hfail : NoRoom w n → Q .null { w with nAlloc := w.nAlloc + 1, err := some .badAlloc })
    (hok : ∀ b, ¬ NoRoom w n → Fits V n → w.heap (.dyn b) = none → w.env.addr w.nAlloc = some b →
      Q (.dyn b) { w with
        nAlloc := w.nAlloc + 1,
        heap := upd w.heap (.dyn b) (some (.blk ⟨List.replicate n none, a, n⟩)) }) :
    wp (allocate a n) w Q := by
  have hw : wrap (n * ElemSize.size V) = n * ElemSize.size V := Nat.mod_eq_of_lt hn
  by_cases hb : maxBytes < wrap (n * ElemSize.size V)
  · have := hfail (.inl hb)
    unfold wp allocate; simpa [hb] using this
  · have e : wrap (n * ElemSize.size V) / ElemSize.size V = n := by
      rw [hw]; exact Nat.mul_div_cancel _ ElemSize.pos
    have key : wp (allocCell (fun _ => VCell.blk ⟨List.replicate n none, a, n⟩)) w Q := by
      refine wp_allocCell ?_ ?_
      · intro h; exact hfail (.inr h)
      · intro b h1 h2
        refine hok b ?_ ?_ h1 h2
        · rintro (h3 | h3)
          · exact hb h3
          · exact h3 b h2 h1
        · unfold Fits; rw [← hw]; omega
    unfold wp allocate at *
    simp only [hb, if_false, e]
    exact key

theorem any_replicate_none (n : Nat) : (List.replicate n (none : Option V)).any Option.isSome = false := by
  induction n with
  | zero => rfl
  | succ n ih => simp [List.replicate_succ]

theorem wp_deallocate {a b : Nat} (h : w.heap (.dyn b) = some (.blk ⟨List.replicate i none, a, n⟩))
    {Q : Unit → W V → Prop} :
    wp (deallocate a (.dyn b) n) w Q ↔ Q () (w.setHeap (upd w.heap (.dyn b) none)) := by
  unfold deallocate
  rw [wp_freeCell h]
  simp

@[simp] theorem wp_deallocate_null {a : Nat} {Q : Unit → W V → Prop} : wp (deallocate a .null n) w Q ↔ Q () w := Iff.rfl

/-! ### The memory of a set of vectors -/

/-- A vector: allocator, address of the block (null if none), elements, capacity. -/
structure Vec (V : Type) where
  alloc : Nat
  start : Ptr
  els : List V
  cap : Nat

/-- The vector objects. -/
abbrev Sg (V : Type) := Ptr → Option (Vec V)

/-- The slots of a block of capacity `n` with the elements `xs` at its beginning. -/
def slotsOf (xs : List V) (n : Nat) : List (Option V) := xs.map some ++ List.replicate (n - xs.length) none

def Vec.obj (v : Vec V) : VCell V := .obj ⟨v.alloc, v.start, v.els.length, v.cap⟩
def Vec.blk (v : Vec V) : VCell V := .blk ⟨slotsOf v.els v.cap, v.alloc, v.cap⟩

/-- The block of a vector. -/
structure Vec.Ok [ElemSize V] (h : Ptr → Option (VCell V)) (v : Vec V) : Prop where
  len : v.els.length ≤ v.cap
  fits : Fits V v.cap
  blk : (v.start = .null ∧ v.cap = 0) ∨ (∃ a, v.start = .dyn a) ∧ h v.start = some v.blk

/-- The memory `h` consists of the vector objects `σ` and their blocks. -/
structure St [ElemSize V] (h : Ptr → Option (VCell V)) (σ : Sg V) : Prop where
  obj : ∀ s v, σ s = some v → (∃ i, s = .stk i) ∧ h s = some v.obj
  ok : ∀ s v, σ s = some v → v.Ok h
  disj : ∀ s t v u, σ s = some v → σ t = some u → v.start = u.start → v.start ≠ .null → s = t
  cover : ∀ p, h p ≠ none → σ p ≠ none ∨ ∃ s v, σ s = some v ∧ v.start = p ∧ p ≠ .null

variable [ElemSize V] {h : Ptr → Option (VCell V)} {σ : Sg V} {v u : Vec V}

theorem St.null (hst : St h σ) : h .null = none := by
  cases hn : h .null with
  | none => rfl
  | some c =>
    rcases hst.cover .null (by simp [hn]) with h1 | ⟨s, v, _, _, h2⟩
    · cases hs : σ .null with
      | none => exact absurd hs h1
      | some v => obtain ⟨⟨i, hi⟩, _⟩ := hst.obj _ _ hs; cases hi
    · exact absurd rfl h2

theorem St.ne_null (hst : St h σ) (hs : σ s = some v) : s ≠ .null := by
  obtain ⟨⟨i, rfl⟩, _⟩ := hst.obj _ _ hs; simp

theorem St.stk_ne (hst : St h σ) (hs : σ s = some v) (ht : σ t = some u) : s ≠ u.start := by
  obtain ⟨⟨i, rfl⟩, _⟩ := hst.obj _ _ hs
  intro he
  rcases (hst.ok _ _ ht).blk with ⟨h1, _⟩ | ⟨⟨a, h1⟩, _⟩ <;> rw [h1] at he <;> cases he

theorem St.dyn_none (hst : St h σ) (a : Nat) : σ (.dyn a) = none := by
  cases hs : σ (.dyn a) with
  | none => rfl
  | some v => obtain ⟨⟨i, hi⟩, _⟩ := hst.obj _ _ hs; cases hi

/-- Give the vector `s` other elements and another block (`v'`), which is new or its old one. -/
theorem St.replace (hst : St h σ) (hs : σ s = some v) {v' : Vec V} (hlen : v'.els.length ≤ v'.cap) (hfits : Fits V v'.cap)
    (hnull : v'.start = .null → v'.cap = 0)
    (hnew : v'.start ≠ .null → v'.start = v.start ∨ (∃ a, v'.start = .dyn a) ∧ h v'.start = none)
    {h' : Ptr → Option (VCell V)} (hs' : h' s = some v'.obj) (hb' : v'.start ≠ .null → h' v'.start = some v'.blk)
    (hold : v.start ≠ .null → v'.start ≠ v.start → h' v.start = none)
    (hrest : ∀ q, q ≠ s → q ≠ v.start → q ≠ v'.start → h' q = h q) (hn : h' .null = none) :
    St h' (upd σ s (some v')) := by
  have hstart : ∀ {t u}, σ t = some u → t ≠ s → u.start ≠ .null → u.start ≠ v'.start ∧ u.start ≠ v.start := by
    intro t u ht hts hun
    have hne : u.start ≠ v.start := fun he => hts (hst.disj _ _ _ _ ht hs he hun)
    refine ⟨?_, hne⟩
    intro he
    rcases hnew (he ▸ hun) with h1 | ⟨_, h1⟩
    · exact hne (he.trans h1)
    · rw [← he] at h1
      rcases (hst.ok _ _ ht).blk with ⟨h2, _⟩ | ⟨_, h2⟩
      · exact hun h2
      · rw [h1] at h2; cases h2
  have hdyn : ∀ i, (Ptr.stk i) ≠ v'.start := by
    intro i he
    rcases hnew (by rw [← he]; simp) with h1 | ⟨⟨a, h1⟩, _⟩
    · rcases (hst.ok _ _ hs).blk with ⟨h2, _⟩ | ⟨⟨a, h2⟩, _⟩ <;> rw [h1, h2] at he <;> cases he
    · rw [h1] at he; cases he
  refine ⟨?_, ?_, ?_, ?_⟩
  · intro t u ht
    by_cases hts : t = s
    · subst hts
      rw [upd_same] at ht; cases ht
      exact ⟨(hst.obj _ _ hs).1, hs'⟩
    · rw [upd_other _ _ hts] at ht
      obtain ⟨⟨i, rfl⟩, h2⟩ := hst.obj _ _ ht
      exact ⟨⟨i, rfl⟩, by rw [hrest _ hts (hst.stk_ne ht hs) (hdyn i)]; exact h2⟩
  · intro t u ht
    by_cases hts : t = s
    · subst hts
      rw [upd_same] at ht; cases ht
      refine ⟨hlen, hfits, ?_⟩
      by_cases h0 : v'.start = .null
      · exact .inl ⟨h0, hnull h0⟩
      · refine .inr ⟨?_, hb' h0⟩
        rcases hnew h0 with h1 | h1
        · rcases (hst.ok _ _ hs).blk with ⟨h2, _⟩ | ⟨h2, _⟩
          · exact absurd (h1.trans h2) h0
          · rw [h1]; exact h2
        · exact h1.1
    · rw [upd_other _ _ hts] at ht
      have hu := hst.ok _ _ ht
      refine ⟨hu.len, hu.fits, ?_⟩
      rcases hu.blk with h1 | ⟨⟨a, h1⟩, h2⟩
      · exact .inl h1
      · obtain ⟨h3, h4⟩ := hstart ht hts (by rw [h1]; simp)
        refine .inr ⟨⟨a, h1⟩, ?_⟩
        rw [hrest _ (fun he => hst.stk_ne hs ht he.symm) h4 h3]; exact h2
  · intro t t' u u' ht ht' he hun
    by_cases hts : t = s <;> by_cases hts' : t' = s
    · rw [hts, hts']
    · subst hts
      rw [upd_same] at ht; cases ht
      rw [upd_other _ _ hts'] at ht'
      exact absurd he.symm (hstart ht' hts' (he ▸ hun)).1
    · subst hts'
      rw [upd_same] at ht'; cases ht'
      rw [upd_other _ _ hts] at ht
      exact absurd he (hstart ht hts hun).1
    · rw [upd_other _ _ hts] at ht
      rw [upd_other _ _ hts'] at ht'
      exact hst.disj _ _ _ _ ht ht' he hun
  · intro q hq
    by_cases hqs : q = s
    · left; rw [hqs, upd_same]; simp
    · by_cases hqn : q = .null
      · rw [hqn] at hq; exact absurd hn hq
      · by_cases hqv : q = v'.start
        · exact .inr ⟨s, v', upd_same _ _ _, hqv.symm, hqn⟩
        · by_cases hqo : q = v.start
          · subst hqo
            exact absurd (hold hqn (fun he => hqv he.symm)) hq
          · rw [hrest _ hqs hqo hqv] at hq
            rcases hst.cover _ hq with h1 | ⟨t, u, h1, h2, h3⟩
            · left; rw [upd_other _ _ hqs]; exact h1
            · refine .inr ⟨t, u, ?_, h2, h3⟩
              rw [upd_other _ _ ?_]
              · exact h1
              · intro he
                subst he
                rw [hs] at h1; cases h1; exact hqo h2.symm

/-- Nothing but raw storage of `s` has changed hands: a change within the block of `s`. -/
theorem St.inPlace (hst : St h σ) (hs : σ s = some v) {els : List V} (hlen : els.length ≤ v.cap) (hn : v.start ≠ .null) :
    St (upd (upd h v.start (some (Vec.blk { v with els := els }))) s (some (Vec.obj { v with els := els })))
      (upd σ s (some { v with els := els })) := by
  have hne : v.start ≠ s := fun he => hst.stk_ne hs hs he.symm
  refine hst.replace hs (v' := { v with els := els }) hlen (hst.ok _ _ hs).fits (fun h0 => absurd h0 hn) (fun _ => .inl rfl) (upd_same _ _ _) ?_ ?_ ?_ ?_
  · intro _; show upd _ s _ v.start = _; rw [upd_other _ _ hne, upd_same]
  · intro _ h0; exact absurd rfl h0
  · intro q h1 h2 _; rw [upd_other _ _ h1, upd_other _ _ h2]
  · rw [upd_other _ _ (hst.ne_null hs).symm, upd_other _ _ (Ne.symm hn)]; exact hst.null

omit [ElemSize V] in
theorem slotsOf_nil (n : Nat) : slotsOf ([] : List V) n = List.replicate n none := by simp [slotsOf]

end Nestl.Vec
