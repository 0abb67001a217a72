import Verif.Algorithm.Model
import Verif.Algorithm.Spec
set_option autoImplicit false
/-
Property C48: copy, copy_if, equal and lexicographical_compare.
-/
namespace Nestl.Alg

variable {V : Type} {w : World V}

/-! ### Vocabulary -/

theorem Holds.cons {h : Ptr → Option V} {p : Ptr} {ps : List Ptr} {vs : List V} :
    Holds h (p :: ps) vs ↔ ∃ v us, vs = v :: us ∧ p ≠ .null ∧ h p = some v ∧ Holds h ps us := by
  unfold Holds
  cases vs with
  | nil => simp
  | cons v us =>
    simp only [List.mem_cons, not_or, List.map_cons, List.cons.injEq]
    constructor
    · rintro ⟨⟨h1, h2⟩, h3, h4⟩; exact ⟨v, us, ⟨rfl, rfl⟩, Ne.symm h1, h3, h2, h4⟩
    · rintro ⟨v', us', ⟨rfl, rfl⟩, h1, h3, h2, h4⟩; exact ⟨⟨Ne.symm h1, h2⟩, h3, h4⟩

theorem Holds.nil {h : Ptr → Option V} {vs : List V} : Holds h [] vs ↔ vs = [] := by
  unfold Holds; cases vs <;> simp

theorem Holds.length {h : Ptr → Option V} {ps : List Ptr} {vs : List V} (H : Holds h ps vs) : ps.length = vs.length := by
  have := congrArg List.length H.2; simpa using this

theorem Holds.frame {h h' : Ptr → Option V} {ps : List Ptr} {vs : List V} (H : Holds h ps vs) (e : ∀ p, p ∈ ps → h' p = h p) :
    Holds h' ps vs := by
  refine ⟨H.1, ?_⟩
  rw [← H.2]; exact List.map_congr_left e

theorem Path.ext {next : Ptr → Ptr} {p q : Ptr} {ps : List Ptr} (h : Path next p q ps) (k : Nat) (hk : k ≤ ps.length) :
    ∃ r, Path next p r (ps.take k) ∧ Path next r q (ps.drop k) := by
  induction h generalizing k with
  | nil p => exact ⟨p, by simpa using Path.nil p, by simpa using Path.nil p⟩
  | @cons p q ps h ih =>
    cases k with
    | zero => exact ⟨p, .nil p, .cons h⟩
    | succ k =>
      obtain ⟨r, h1, h2⟩ := ih k (by simpa using hk)
      exact ⟨r, .cons h1, h2⟩

/-! ### Assignment -/

theorem wp_assign {d s : Ptr} {v u : V} (hs : s ≠ .null) (hd : d ≠ .null) (hv : w.heap s = some v) (hu : w.heap d = some u)
    {Q : Unit → World V → Prop}
    (hok : w.env.ctor w.nCtor = true → Q () { w with heap := upd w.heap d (some v), nCtor := w.nCtor + 1 })
    (hfail : ∀ u', w.env.ctor w.nCtor = false → Q () { w with heap := upd w.heap d (some u'), nCtor := w.nCtor + 1, err := some .ctorFailed }) :
    wp (assign d s) w Q := by
  unfold assign
  rw [wp_bind, wp_rd hv hs, wp_bind, wp_rd hu hd, wp_bind]
  show wp _ w Q
  rw [wp_bind]
  refine wp_tryCtor ?_ ?_
  · intro h
    refine wp_if_pos rfl ?_
    exact (wp_modCell (w := { w with nCtor := w.nCtor + 1 }) (c := u) hu hd).2 (hok h)
  · intro h
    refine wp_if_neg (by simp) ?_
    exact (wp_modCell (w := { w with nCtor := w.nCtor + 1, err := some .ctorFailed }) (c := u) hu hd).2 (hfail _ h)

theorem Copied.step {nextO : Ptr → Ptr} {dst : Ptr} {qs : List Ptr} {v : V} {vs : List V} {r : Ptr} {w' : World V}
    (hq : dst ≠ .null) (hnd : dst ∉ qs) (hlen : qs.length = vs.length) (hc : w.env.ctor w.nCtor = true)
    (h : Copied nextO (nextO dst) qs vs { w with heap := upd w.heap dst (some v), nCtor := w.nCtor + 1 } r w') :
    Copied nextO dst (dst :: qs) (v :: vs) w r w' := by
  obtain ⟨e1, e2, e3, h⟩ := h
  refine ⟨e1, e2, e3, ?_⟩
  have cok : ∀ n, CtorsOk { w with heap := upd w.heap dst (some v), nCtor := w.nCtor + 1 } n → CtorsOk w (n + 1) := by
    intro n h k hk
    cases k with
    | zero => exact hc
    | succ k =>
      have := h k (by omega)
      rw [show w.nCtor + (k + 1) = w.nCtor + 1 + k by omega]; exact this
  have wr : ∀ qs' us h', dst ∉ qs' → Wrote (upd w.heap dst (some v)) qs' us h' → Wrote w.heap (dst :: qs') (v :: us) h' := by
    intro qs' us h' hn hw
    refine ⟨Holds.cons.2 ⟨v, us, rfl, hq, ?_, hw.vals⟩, ?_⟩
    · rw [hw.frame _ hn, upd_same]
    · intro p hp
      simp only [List.mem_cons, not_or] at hp
      rw [hw.frame _ hp.2, upd_other _ _ hp.1]
  rcases h with ⟨h1, h2, h3, h4, h5⟩ | ⟨j, u, h1, h2, h3, h4, h5, h6, h7, h8⟩
  · exact .inl ⟨h1, cok _ h2, by rw [h3]; simp; omega, .cons h4, wr _ _ _ hnd h5⟩
  · refine .inr ⟨j + 1, u, by simp; omega, cok _ h2, ?_, h4, by rw [h5]; simp; omega, .cons h6, by simpa using h7, ?_⟩
    · rw [show w.nCtor + (j + 1) = w.nCtor + 1 + j by omega]; exact h3
    · exact wr _ _ _ (fun h => hnd (List.mem_of_mem_take h)) h8

/-! ### copy and copy_if -/

/-- C48: `copy_if` writes exactly the elements of the source range that satisfy the predicate, in order, to consecutive
positions of the destination and returns the position behind them; if an assignment fails it stops there, returns the
position of the failing target and reports the error; nothing else is changed.  The destination must have a live element
for every element to be written, and no source element may be overwritten before it has been read (`hov`; copying to
the left within one range is fine). -/
theorem copy_if_correct (nextI nextO : Ptr → Ptr) (pred : V → Bool) {first last dst dlast : Ptr} {ps qs : List Ptr} {vs us : List V}
    (hr : Range nextI first last ps) (hv : Holds w.heap ps vs) (he : w.err = none)
    (hd : Path nextO dst dlast qs) (hnd : qs.Nodup) (hu : Holds w.heap qs us) (hlen : qs.length = (vs.filter pred).length)
    (hov : ∀ (i j : Nat) q, ps[i]? = some q → qs[j]? = some q → i ≤ j) :
    ∃ r w', Runs (copyIf nextI nextO pred first last dst) w r w' ∧ Copied nextO dst qs (vs.filter pred) w r w' := by
  suffices h : wp (copyIf nextI nextO pred first last dst) w (Copied nextO dst qs (vs.filter pred) w) from h.runs
  induction hr generalizing w dst qs vs us with
  | nil p =>
    cases Holds.nil.1 hv
    have : qs = [] := by simpa using hlen
    subst this
    rw [copyIf]
    refine wp_if_neg (by simp) ?_
    refine ⟨rfl, rfl, rfl, .inl ⟨he, fun k hk => absurd hk (Nat.not_lt_zero _), rfl, .nil _, Holds.nil.2 rfl, fun _ _ => rfl⟩⟩
  | @cons p last ps hne hr ih =>
    obtain ⟨v, vs, rfl, hp, hv1, hv2⟩ := Holds.cons.1 hv
    rw [copyIf]
    refine wp_if_pos hne ?_
    rw [wp_bind, wp_rd hv1 hp]
    cases hpr : pred v with
    | false =>
      refine wp_if_neg (by simp) ?_
      rw [List.filter_cons_of_neg (by simp [hpr])] at hlen ⊢
      refine ih hv2 he hd hnd hu hlen ?_
      intro i j q h1 h2
      have := hov (i + 1) j q (by simpa using h1) h2
      omega
    | true =>
      refine wp_if_pos rfl ?_
      rw [List.filter_cons_of_pos hpr] at hlen ⊢
      cases hd with
      | nil => simp at hlen
      | @cons _ _ qs hd =>
      obtain ⟨u, us, rfl, hq, hu1, hu2⟩ := Holds.cons.1 hu
      have hnd' := List.nodup_cons.1 hnd
      have hlen' : qs.length = (vs.filter pred).length := by simpa using hlen
      rw [wp_bind]
      refine wp_assign hp hq hv1 hu1 ?_ ?_
      · intro hc
        rw [wp_bind, wp_hasErr]
        refine wp_if_neg (by simp [he]) ?_
        have hps : dst ∉ ps := by
          intro hm
          obtain ⟨i, hi⟩ := List.mem_iff_getElem?.1 hm
          have := hov (i + 1) 0 dst (by simpa using hi) rfl
          omega
        refine wp_mono (ih (w := { w with heap := upd w.heap dst (some v), nCtor := w.nCtor + 1 }) (us := us) ?_ he hd hnd'.2 ?_ hlen' ?_) ?_
        · exact hv2.frame fun q hm => upd_other _ _ (by intro e; exact hps (e ▸ hm))
        · exact hu2.frame fun q hm => upd_other _ _ (by intro e; exact hnd'.1 (e ▸ hm))
        · intro i j q h1 h2
          have := hov (i + 1) (j + 1) q (by simpa using h1) (by simpa using h2)
          omega
        · intro r w' h
          exact h.step hq hnd'.1 hlen' hc
      · intro u' hc
        rw [wp_bind, wp_hasErr]
        refine wp_if_pos rfl ?_
        refine ⟨rfl, rfl, rfl, .inr ⟨0, u', by simp, fun k hk => absurd hk (Nat.not_lt_zero _), hc, rfl, rfl, .nil _, rfl, ?_, ?_⟩⟩
        · exact Holds.cons.2 ⟨u', [], rfl, hq, upd_same .., Holds.nil.2 rfl⟩
        · intro q hq; exact upd_other _ _ (by simpa using hq)

/-- C48: the same for `copy`, which writes all elements. -/
theorem copy_correct (nextI nextO : Ptr → Ptr) {first last dst dlast : Ptr} {ps qs : List Ptr} {vs us : List V}
    (hr : Range nextI first last ps) (hv : Holds w.heap ps vs) (he : w.err = none)
    (hd : Path nextO dst dlast qs) (hnd : qs.Nodup) (hu : Holds w.heap qs us) (hlen : qs.length = vs.length)
    (hov : ∀ (i j : Nat) q, ps[i]? = some q → qs[j]? = some q → i ≤ j) :
    ∃ r w', Runs (copy nextI nextO first last dst) w r w' ∧ Copied nextO dst qs vs w r w' := by
  suffices h : wp (copy nextI nextO first last dst) w (Copied nextO dst qs vs w) from h.runs
  induction hr generalizing w dst qs vs us with
  | nil p =>
    cases Holds.nil.1 hv
    have : qs = [] := by simpa using hlen
    subst this
    rw [copy]
    refine wp_if_neg (by simp) ?_
    refine ⟨rfl, rfl, rfl, .inl ⟨he, fun k hk => absurd hk (Nat.not_lt_zero _), rfl, .nil _, Holds.nil.2 rfl, fun _ _ => rfl⟩⟩
  | @cons p last ps hne hr ih =>
    obtain ⟨v, vs, rfl, hp, hv1, hv2⟩ := Holds.cons.1 hv
    rw [copy]
    refine wp_if_pos hne ?_
    cases hd with
    | nil => simp at hlen
    | @cons _ _ qs hd =>
    obtain ⟨u, us, rfl, hq, hu1, hu2⟩ := Holds.cons.1 hu
    have hnd' := List.nodup_cons.1 hnd
    have hlen' : qs.length = vs.length := by simpa using hlen
    rw [wp_bind]
    refine wp_assign hp hq hv1 hu1 ?_ ?_
    · intro hc
      rw [wp_bind, wp_hasErr]
      refine wp_if_neg (by simp [he]) ?_
      have hps : dst ∉ ps := by
        intro hm
        obtain ⟨i, hi⟩ := List.mem_iff_getElem?.1 hm
        have := hov (i + 1) 0 dst (by simpa using hi) rfl
        omega
      refine wp_mono (ih (w := { w with heap := upd w.heap dst (some v), nCtor := w.nCtor + 1 }) (us := us) ?_ he hd hnd'.2 ?_ hlen' ?_) ?_
      · exact hv2.frame fun q hm => upd_other _ _ (by intro e; exact hps (e ▸ hm))
      · exact hu2.frame fun q hm => upd_other _ _ (by intro e; exact hnd'.1 (e ▸ hm))
      · intro i j q h1 h2
        have := hov (i + 1) (j + 1) q (by simpa using h1) (by simpa using h2)
        omega
      · intro r w' h
        exact h.step hq hnd'.1 hlen' hc
    · intro u' hc
      rw [wp_bind, wp_hasErr]
      refine wp_if_pos rfl ?_
      refine ⟨rfl, rfl, rfl, .inr ⟨0, u', by simp, fun k hk => absurd hk (Nat.not_lt_zero _), hc, rfl, rfl, .nil _, rfl, ?_, ?_⟩⟩
      · exact Holds.cons.2 ⟨u', [], rfl, hq, upd_same .., Holds.nil.2 rfl⟩
      · intro q hq; exact upd_other _ _ (by simpa using hq)

/-! ### equal -/

/-- C48: `equal` returns whether the predicate holds for all pairs of elements at the same position, and changes
nothing. -/
theorem equal_correct (next1 next2 : Ptr → Ptr) (p : V → V → Bool) {first1 last1 first2 last2 : Ptr} {ps qs : List Ptr} {vs us : List V}
    (hr : Range next1 first1 last1 ps) (hv : Holds w.heap ps vs) (hd : Path next2 first2 last2 qs) (hu : Holds w.heap qs us)
    (hlen : vs.length ≤ us.length) :
    ∃ b, Runs (equal next1 next2 p first1 last1 first2) w b w ∧
      (b = true ↔ ∀ (i : Nat) x y, vs[i]? = some x → us[i]? = some y → p x y = true) := by
  suffices h : wp (equal next1 next2 p first1 last1 first2) w fun b w' => w' = w ∧
      (b = true ↔ ∀ (i : Nat) x y, vs[i]? = some x → us[i]? = some y → p x y = true) by
    obtain ⟨b, w', h1, rfl, h2⟩ := h.runs
    exact ⟨b, h1, h2⟩
  induction hr generalizing first2 qs vs us with
  | nil q =>
    cases Holds.nil.1 hv
    rw [equal]
    refine wp_if_neg (by simp) ⟨rfl, by simp⟩
  | @cons q last ps hne hr ih =>
    obtain ⟨v, vs, rfl, hp, hv1, hv2⟩ := Holds.cons.1 hv
    cases hd with
    | nil => cases Holds.nil.1 hu; simp at hlen
    | @cons _ _ qs hd =>
    obtain ⟨u, us, rfl, hq, hu1, hu2⟩ := Holds.cons.1 hu
    rw [equal]
    refine wp_if_pos hne ?_
    rw [wp_bind, wp_rd hv1 hp, wp_bind, wp_rd hu1 hq]
    cases hc : p v u with
    | false =>
      refine wp_if_pos (by simp) ⟨rfl, ?_⟩
      constructor
      · intro h; cases h
      · intro h; have := h 0 v u rfl rfl; rw [hc] at this; cases this
    | true =>
      refine wp_if_neg (by simp) ?_
      refine wp_mono (ih hv2 hd hu2 (by simpa using hlen)) ?_
      rintro b w' ⟨rfl, h⟩
      refine ⟨rfl, h.trans ?_⟩
      constructor
      · intro h i x y h1 h2
        cases i with
        | zero => cases h1; cases h2; exact hc
        | succ i => exact h i x y (by simpa using h1) (by simpa using h2)
      · intro h i x y h1 h2
        exact h (i + 1) x y (by simpa using h1) (by simpa using h2)

/-! ### lexicographical_compare -/

theorem LexBefore.cons {lt : V → V → Bool} {x y : V} {xs ys : List V} (h1 : lt x y = false) (h2 : lt y x = false) :
    LexBefore lt (x :: xs) (y :: ys) ↔ LexBefore lt xs ys := by
  constructor
  · rintro ⟨i, a, b, c, d⟩
    cases i with
    | zero =>
      rcases b with ⟨x', y', e1, e2, e3⟩ | ⟨e, -⟩
      · cases e1; cases e2; rw [h1] at e3; cases e3
      · cases e
    | succ i =>
      refine ⟨i, ?_, ?_, by simpa using c, by simpa using d⟩
      · intro j x' y' hj e1 e2
        exact a (j + 1) x' y' (by omega) (by simpa using e1) (by simpa using e2)
      · rcases b with ⟨x', y', e1, e2, e3⟩ | ⟨e1, e2⟩
        · exact .inl ⟨x', y', by simpa using e1, by simpa using e2, e3⟩
        · exact .inr ⟨by simpa using e1, by simpa using e2⟩
  · rintro ⟨i, a, b, c, d⟩
    refine ⟨i + 1, ?_, ?_, by simpa using c, by simpa using d⟩
    · intro j x' y' hj e1 e2
      cases j with
      | zero => cases e1; cases e2; exact ⟨h1, h2⟩
      | succ j => exact a j x' y' (by omega) (by simpa using e1) (by simpa using e2)
    · rcases b with ⟨x', y', e1, e2, e3⟩ | ⟨e1, e2⟩
      · exact .inl ⟨x', y', by simpa using e1, by simpa using e2, e3⟩
      · exact .inr ⟨by simpa using e1, by simpa using e2⟩

/-- C48: `lexicographical_compare` returns whether the first range comes before the second in the lexicographic order,
and changes nothing. -/
theorem lex_compare_correct (next1 next2 : Ptr → Ptr) (lt : V → V → Bool)
    {first1 last1 first2 last2 : Ptr} {ps qs : List Ptr} {vs us : List V}
    (hr1 : Range next1 first1 last1 ps) (hv : Holds w.heap ps vs) (hr2 : Range next2 first2 last2 qs) (hu : Holds w.heap qs us) :
    ∃ b, Runs (lexCompare next1 next2 lt first1 last1 first2 last2) w b w ∧ (b = true ↔ LexBefore lt vs us) := by
  suffices h : wp (lexCompare next1 next2 lt first1 last1 first2 last2) w fun b w' => w' = w ∧ (b = true ↔ LexBefore lt vs us) by
    obtain ⟨b, w', h1, rfl, h2⟩ := h.runs
    exact ⟨b, h1, h2⟩
  induction hr1 generalizing first2 qs vs us with
  | nil q =>
    cases Holds.nil.1 hv
    rw [lexCompare]
    refine wp_if_neg (by simp) ⟨rfl, ?_⟩
    simp only [decide_eq_true_eq, true_and]
    cases hr2 with
    | nil =>
      cases Holds.nil.1 hu
      simp [LexBefore]
    | cons hne _ =>
      obtain ⟨u, us, rfl, -⟩ := Holds.cons.1 hu
      simp only [hne, ne_eq, not_false_eq_true, true_iff]
      exact ⟨0, by simp, .inr ⟨rfl, by simp⟩, by simp, by simp⟩
  | @cons q last ps hne hr ih =>
    obtain ⟨v, vs, rfl, hp, hv1, hv2⟩ := Holds.cons.1 hv
    rw [lexCompare]
    cases hr2 with
    | nil =>
      cases Holds.nil.1 hu
      refine wp_if_neg (by simp) ⟨rfl, ?_⟩
      simp only [hne, false_and, decide_false, Bool.false_eq_true, false_iff]
      rintro ⟨i, -, b, -, d⟩
      rcases b with ⟨x', y', e1, e2, e3⟩ | ⟨e1, e2⟩
      · simp at e2
      · simp at e2
    | @cons _ _ qs hne2 hr2 =>
      obtain ⟨u, us, rfl, hq, hu1, hu2⟩ := Holds.cons.1 hu
      refine wp_if_pos ⟨hne, hne2⟩ ?_
      rw [wp_bind, wp_rd hv1 hp, wp_bind, wp_rd hu1 hq]
      cases h1 : lt v u with
      | true =>
        refine wp_if_pos rfl ⟨rfl, ?_⟩
        simp only [true_iff]
        exact ⟨0, by simp, .inl ⟨v, u, rfl, rfl, h1⟩, by simp, by simp⟩
      | false =>
        refine wp_if_neg (by simp) ?_
        rw [wp_bind, wp_rd hu1 hq, wp_bind, wp_rd hv1 hp]
        cases h2 : lt u v with
        | true =>
          refine wp_if_pos rfl ⟨rfl, ?_⟩
          simp only [Bool.false_eq_true, false_iff]
          rintro ⟨i, a, b, c, d⟩
          cases i with
          | zero =>
            rcases b with ⟨x', y', e1, e2, e3⟩ | ⟨e, -⟩
            · cases e1; cases e2; rw [h1] at e3; cases e3
            · cases e
          | succ i =>
            have := (a 0 v u (by omega) rfl rfl).2
            rw [h2] at this; cases this
        | false =>
          refine wp_if_neg (by simp) ?_
          refine wp_mono (ih hv2 hr2 hu2) ?_
          rintro b w' ⟨rfl, h⟩
          exact ⟨rfl, h.trans (LexBefore.cons h1 h2).symm⟩

/-! ### Examples -/

/-- Increment of a pointer. -/
def nextPtr : Ptr → Ptr
  | .dyn a => .dyn (a + 1)
  | p => p

/-- Memory with the elements 0, 10, 20, ..., 70 at the addresses 0, ..., 7; the third assignment fails if `f`. -/
def demo (f : Bool) : World Nat :=
  { heap := fun | .dyn a => if a < 8 then some (10 * a) else none | _ => none,
    env := { addr := fun _ => none, ctor := fun k => !(f && k == 2), junk := fun _ => 99 },
    nAlloc := 0, nCtor := 0, nCmp := 0, sp := 0, err := none }

theorem demo_range : Range nextPtr (.dyn 1) (.dyn 5) [.dyn 1, .dyn 2, .dyn 3, .dyn 4] :=
  .cons (by decide) (.cons (by decide) (.cons (by decide) (.cons (by decide) (.nil _))))

theorem demo_holds (f : Bool) : Holds (demo f).heap [.dyn 1, .dyn 2, .dyn 3, .dyn 4] [10, 20, 30, 40] := ⟨by decide, rfl⟩

theorem demo_path : Path nextPtr (.dyn 0) (.dyn 4) [.dyn 0, .dyn 1, .dyn 2, .dyn 3] :=
  .cons (.cons (.cons (.cons (.nil _))))

/-- Copying `[1, 5)` one place to the left within the same array, with and without a failing assignment. -/
example (f : Bool) : ∃ r w', Runs (copy nextPtr nextPtr (.dyn 1) (.dyn 5) (.dyn 0)) (demo f) r w' ∧
    Copied nextPtr (.dyn 0) [.dyn 0, .dyn 1, .dyn 2, .dyn 3] [10, 20, 30, 40] (demo f) r w' :=
  copy_correct nextPtr nextPtr demo_range (demo_holds f) rfl demo_path (by decide) (us := [0, 10, 20, 30]) ⟨by decide, rfl⟩ rfl (by
    intro i j q h1 h2
    rcases i with _ | _ | _ | _ | i <;> rcases j with _ | _ | _ | _ | j <;> simp at h1 h2 <;> first | omega | (subst h1; cases h2))

/-- Copying the elements of `[1, 5)` above 15 to the front of the same range. -/
example (f : Bool) : ∃ r w', Runs (copyIf nextPtr nextPtr (15 < ·) (.dyn 1) (.dyn 5) (.dyn 1)) (demo f) r w' ∧
    Copied nextPtr (.dyn 1) [.dyn 1, .dyn 2, .dyn 3] [20, 30, 40] (demo f) r w' :=
  copy_if_correct nextPtr nextPtr (15 < ·) demo_range (demo_holds f) rfl (dlast := .dyn 4) (.cons (.cons (.cons (.nil _)))) (by decide)
    (us := [10, 20, 30]) ⟨by decide, rfl⟩ rfl (by
    intro i j q h1 h2
    rcases i with _ | _ | _ | _ | i <;> rcases j with _ | _ | _ | j <;> simp at h1 h2 <;> first | omega | (subst h1; cases h2))

/-- Comparing `[1, 5)` with the elements from 0 on. -/
example : ∃ b, Runs (equal nextPtr nextPtr (fun x y => decide (x = y + 10)) (.dyn 1) (.dyn 5) (.dyn 0)) (demo false) b (demo false) ∧ b = true := by
  obtain ⟨b, h1, h2⟩ := equal_correct (w := demo false) nextPtr nextPtr (fun x y => decide (x = y + 10)) demo_range (demo_holds false) demo_path
    (us := [0, 10, 20, 30]) ⟨by decide, rfl⟩ (by decide)
  refine ⟨b, h1, h2.2 ?_⟩
  intro i x y e1 e2
  rcases i with _ | _ | _ | _ | i <;> simp_all <;> omega

/-- `{20}` is not before `{10, 20, 30, 40}`, which is before `{20}`. -/
example : ∃ b c, Runs (lexCompare nextPtr nextPtr (fun x y => decide (x < y)) (.dyn 2) (.dyn 3) (.dyn 1) (.dyn 5)) (demo false) b (demo false) ∧
    Runs (lexCompare nextPtr nextPtr (fun x y => decide (x < y)) (.dyn 1) (.dyn 5) (.dyn 2) (.dyn 3)) (demo false) c (demo false) ∧
    (b = true ↔ LexBefore (fun x y => decide (x < y)) [20] [10, 20, 30, 40]) ∧ c = true := by
  have hr : Range nextPtr (.dyn 2) (.dyn 3) [.dyn 2] := .cons (by decide) (.nil _)
  have hh : Holds (demo false).heap [.dyn 2] [20] := ⟨by decide, rfl⟩
  obtain ⟨b, h1, h2⟩ := lex_compare_correct (w := demo false) nextPtr nextPtr (fun x y => decide (x < y)) hr hh demo_range (demo_holds false)
  obtain ⟨c, h3, h4⟩ := lex_compare_correct (w := demo false) nextPtr nextPtr (fun x y => decide (x < y)) demo_range (demo_holds false) hr hh
  exact ⟨b, c, h1, h3, h2, h4.2 ⟨0, by simp, .inl ⟨10, 20, rfl, rfl, rfl⟩, by simp, by simp⟩⟩

end Nestl.Alg
