import Verif.VectorOf.Shared
set_option autoImplicit false
/-
C108: `weak_ptr` is an element class, so `vector<weak_ptr<T>>`, `list<weak_ptr<T>>`, `set<weak_ptr<T>>`, … are covered.
-/
namespace Nestl.VO
open Nestl.SP (At Val Hnd Hs Moved Collect Doomed Held)
variable {V : Type}

/-! ### Model -/

/-- The operations of `weak_ptr<T>` as an element class: shared_ptr.hpp:220-224, 244-252, 226-232, 266-272 (its constructors are
called by class_operations.hpp:32-37 and do not fail). -/
def weakOps : ElemOps (SP.W V) where
  make := do sClearErr; SP.newWeak
  copy q := do sClearErr; pure (.ok (← SP.toWeak .wk (.var q)))
  move q := do sClearErr; SP.moveWeak (.var q)
  drop q := do sClearErr; SP.dropWeak q

/-! ### The contract -/

/-- The `shared_ptr`s, the `shared_ptr`s and `weak_ptr`s that are data members of managed objects, and the managed objects with
their values. -/
def strong (w : SP.W V) : (Ptr → Option Hnd) × (SP.Kind → Ptr → Nat → Hnd → Prop) × (Ptr → V → Prop) :=
  (sharedVal w, fun k b i z => At w.heap k (.mem b i) z, Val w.heap)

variable {w w' : SP.W V}

/-- Every living object is held, directly or not, by a variable or a cycle: nothing is doomed. -/
theorem held (h : SP.Reach w) {A1 : Hs} (h1 : ∀ l z, At w.heap .sh l z → A1 .sh l z) : Held A1 fun b => ∃ v, Val w.heap b v := by
  intro b hb
  obtain ⟨l, hn, z, hz, e⟩ := (SP.alive_iff_owned_partial h b).1 hb
  refine ⟨l, z, h1 _ _ hz, e, ?_⟩
  rintro x i rfl
  exact SP.memOk_heap _ _ _ _ _ hz

/-- A call that affects `weak_ptr`s in variables only destroys nothing. -/
theorem weak_call {c : SP.Call V} (h : SP.Reach w) (hv : SP.Valid w c) (hc : ∀ al v ks, c ≠ .makeShared al v ks)
    (hw : ∀ r A1, Moved (At w.heap) c r A1 → (∀ p, r = some p → ∀ k z, ¬ At w.heap k (.var p) z) →
      (∀ l z, A1 .sh l z ↔ At w.heap .sh l z) ∧ ∀ k b i z, A1 k (.mem b i) z ↔ At w.heap k (.mem b i) z) :
    ∃ r w' A1, Runs (SP.exec c) (SP.ready w) r w' ∧ SP.Reach w' ∧ (∀ p, r = some p → ∀ k z, ¬ At w.heap k (.var p) z) ∧
      Moved (At w.heap) c r A1 ∧ At w'.heap = A1 ∧ strong w' = strong w := by
  obtain ⟨r, w', h1, h2, h3⟩ := SP.call_effect h hv
  have : ∃ A1, Moved (At w.heap) c r A1 ∧ Collect A1 (Val w.heap) (At w'.heap) (Val w'.heap) := by
    cases c <;> first | exact (hc _ _ _ rfl).elim | exact h3.2.2
  obtain ⟨A1, h4, h5⟩ := this
  obtain ⟨h6, h7⟩ := hw r A1 h4 h3.1
  have hd : ∀ b v, Val w.heap b v → ¬ Doomed A1 b := fun b v hb =>
    (held h fun l z hz => (h6 l z).2 hz).not_doomed (S := fun b => ∃ v, Val w.heap b v) ⟨v, hb⟩
  have hA : At w'.heap = A1 := by
    funext k l z
    apply propext
    rw [h5.at_]
    refine ⟨fun h => h.1, fun hz => ⟨hz, ?_⟩⟩
    rintro b i rfl
    obtain ⟨v, hv⟩ := SP.memOk_heap _ _ _ _ _ ((h7 _ _ _ _).1 hz)
    exact hd _ _ hv
  refine ⟨r, w', A1, h1, h2, h3.1, h4, hA, ?_⟩
  refine Prod.ext (opt_ext fun q a => ?_) (Prod.ext ?_ ?_)
  · show sharedVal w' q = some a ↔ sharedVal w q = some a
    rw [sharedVal_some, sharedVal_some, hA, h6]
  · funext k b i z
    show At w'.heap k (.mem b i) z = _
    rw [hA]; exact propext (h7 k b i z)
  · funext b v
    apply propext
    rw [show (strong w').2.2 b v ↔ Val w.heap b v ∧ _ from h5.val b v]
    exact ⟨fun h => h.1, fun h => ⟨h, hd _ _ h⟩⟩

theorem fresh_weak {d : Ptr} (h : ∀ k z, ¬ At w.heap k (.var d) z) : weakVal w d = none := by
  cases e : weakVal w d with
  | none => rfl
  | some x => exact (h _ _ (weakVal_some.1 e)).elim

/-- A new `weak_ptr` leaves the rest alone. -/
theorem put_fresh {A : Hs} {d : Ptr} {x : Hnd} (hf : ∀ k z, ¬ A k (.var d) z) :
    (∀ l z, (A.put .wk (.var d) x) .sh l z ↔ A .sh l z) ∧ ∀ k b i z, (A.put .wk (.var d) x) k (.mem b i) z ↔ A k (.mem b i) z := by
  refine ⟨fun l z => ?_, fun k b i z => by simp [Hs.put]⟩
  by_cases e : l = .var d
  · subst e; simp [Hs.put, hf]
  · simp [Hs.put, e]

/-- As `put_fresh`, for a `weak_ptr` that already exists. -/
theorem put_weak {A : Hs} {q : Ptr} {x : Hnd} (hd : ∀ z, ¬ A .sh (.var q) z) :
    (∀ l z, (A.put .wk (.var q) x) .sh l z ↔ A .sh l z) ∧ ∀ k b i z, (A.put .wk (.var q) x) k (.mem b i) z ↔ A k (.mem b i) z := by
  refine ⟨fun l z => ?_, fun k b i z => by simp [Hs.put]⟩
  by_cases e : l = .var q
  · subst e; simp [Hs.put, hd]
  · simp [Hs.put, e]

theorem not_both {q : Ptr} {x : Hnd} (h : At w.heap .wk (.var q) x) (z : Hnd) : ¬ At w.heap .sh (.var q) z :=
  fun h' => by cases (h.det h').1

/-- The contract of `weak_ptr`: the value of a `weak_ptr` is what it refers to; operations on `weak_ptr`s affect neither the managed
objects nor any `shared_ptr`. -/
def Elem.weak : Elem (SP.W V) Hnd ((Ptr → Option Hnd) × (SP.Kind → Ptr → Nat → Hnd → Prop) × (Ptr → V → Prop)) where
  toElemOps := weakOps
  inv := SP.Reach
  val := weakVal
  rest := strong
  blank := .nil
  make_ok := by
    intro w h
    obtain ⟨r, w', A1, h1, h2, h3, h4, h5, h6⟩ := weak_call h (c := .newWeak) trivial (by intros; intro e; cases e) (by
      intro r A1 hm hf
      rcases r with _ | d
      · exact hm.elim
      · have hm : A1 = _ := hm
        subst hm; exact put_fresh (hf d rfl))
    obtain ⟨d, rfl, h7⟩ := s_new h1
    have h4 : A1 = _ := h4
    subst h4
    have hf := h3 d rfl
    refine wp_iff_runs.2 ⟨d, w', s_clearErr.2 h7, h2, h6, fresh_weak hf, ?_⟩
    refine opt_ext fun q a => ?_
    rw [weakVal_some, h5, upd_apply]
    by_cases e : q = d
    · subst e; simp [Hs.put, eq_comm]
    · simp [Hs.put, e, weakVal_some]
  copy_ok := by
    intro w q a h hq
    rw [weakVal_some] at hq
    obtain ⟨r, w', A1, h1, h2, h3, h4, h5, h6⟩ := weak_call h (c := .toWeak .wk (.var q)) ⟨_, hq⟩ (by intros; intro e; cases e) (by
      intro r A1 hm hf
      rcases r with _ | d
      · exact hm.elim
      · obtain ⟨x, -, rfl⟩ := hm
        exact put_fresh (hf d rfl))
    obtain ⟨d, rfl, h7⟩ := s_new h1
    obtain ⟨x, hx, rfl⟩ := h4
    obtain ⟨-, rfl⟩ := hx.det hq
    have hf := h3 d rfl
    refine wp_iff_runs.2 ⟨.ok d, w', s_clearErr.2 (runs_bind_iff.2 ⟨_, _, h7, rfl⟩), h2, h6, fresh_weak hf, ?_⟩
    refine opt_ext fun q a => ?_
    rw [weakVal_some, h5, upd_apply]
    by_cases e : q = d
    · subst e; simp [Hs.put, eq_comm]
    · simp [Hs.put, e, weakVal_some]
  move_ok := by
    intro w q a h hq
    rw [weakVal_some] at hq
    obtain ⟨r, w', A1, h1, h2, h3, h4, h5, h6⟩ := weak_call h (c := .moveWeak (.var q)) ⟨_, hq⟩ (by intros; intro e; cases e) (by
      intro r A1 hm hf
      rcases r with _ | d
      · exact hm.elim
      · obtain ⟨x, -, rfl⟩ := hm
        have hne : d ≠ q := by rintro rfl; exact hf _ rfl _ _ hq
        have h1 := put_weak (x := .nil) (not_both hq)
        have h2 := put_fresh (A := Hs.put (At w.heap) .wk (.var q) .nil) (d := d) (x := x) (by
          intro k z hz; simp [Hs.put, hne] at hz; exact hf d rfl _ _ hz)
        exact ⟨fun l z => (h2.1 l z).trans (h1.1 l z), fun k b i z => (h2.2 k b i z).trans (h1.2 k b i z)⟩)
    obtain ⟨d, rfl, h7⟩ := s_new h1
    obtain ⟨x, hx, rfl⟩ := h4
    obtain ⟨-, rfl⟩ := hx.det hq
    have hf := h3 d rfl
    refine wp_iff_runs.2 ⟨d, w', s_clearErr.2 h7, h2, h6, fresh_weak hf, ?_⟩
    refine opt_ext fun p a => ?_
    rw [weakVal_some, h5, upd_apply, upd_apply]
    by_cases e : p = d
    · subst e; simp [Hs.put, eq_comm]
    · by_cases e2 : p = q
      · subst e2; simp only [Hs.put, SP.Loc.var.injEq, e, if_false, if_true]; simp [eq_comm]
      · simp [Hs.put, e, e2, weakVal_some]
  drop_ok := by
    intro w q h hq
    obtain ⟨a, hq⟩ := Option.ne_none_iff_exists'.1 hq
    rw [weakVal_some] at hq
    obtain ⟨r, w', A1, h1, h2, h3, h4, h5, h6⟩ := weak_call h (c := .dropWeak q) ⟨_, hq⟩ (by intros; intro e; cases e) (by
      intro r A1 hm hf
      rcases r with _ | d
      · have hm : A1 = _ := hm
        subst hm
        refine ⟨fun l z => ?_, fun k b i z => by simp [Hs.del]⟩
        by_cases e : l = .var q
        · subst e; simp [Hs.del, not_both hq]
        · simp [Hs.del, e]
      · exact hm.elim)
    obtain ⟨rfl, h7⟩ := s_unit h1
    have h4 : A1 = _ := h4
    subst h4
    refine wp_iff_runs.2 ⟨(), w', s_clearErr.2 h7, h2, h6, ?_⟩
    refine opt_ext fun p a => ?_
    rw [weakVal_some, h5, upd_apply]
    by_cases e : p = q
    · subst e; simp [Hs.del]
    · simp [Hs.del, e, weakVal_some]

/-! ### What is said about containers of `weak_ptr` -/

/-- All `shared_ptr`s (in variables and in managed objects), all members of managed objects and all managed objects are as they were,
and every `use_count()` too. -/
structure Unharmed (w w' : SP.W V) : Prop where
  shared : ∀ l z, At w'.heap .sh l z ↔ At w.heap .sh l z
  members : ∀ k b i z, At w'.heap k (.mem b i) z ↔ At w.heap k (.mem b i) z
  objects : ∀ b v, Val w'.heap b v ↔ Val w.heap b v
  counts : ∀ l n, SP.Has (At w.heap) .sh l → (Runs (SP.useCount l) w' n w' ↔ Runs (SP.useCount l) w n w)

/-- The same number of owners. -/
theorem card_unique {p : SP.Loc → Prop} {m n : Nat} (h1 : SP.Card p m) (h2 : SP.Card p n) : m = n := by
  obtain ⟨s1, a1, a2, a3⟩ := h1
  obtain ⟨s2, b1, b2, b3⟩ := h2
  have : s1.Perm s2 := (List.perm_ext_iff_of_nodup a1 b1).2 fun x => (a2 x).trans (b2 x).symm
  rw [← a3, ← b3]; exact this.length_eq

theorem unharmed (h : SP.Reach w) (h' : SP.Reach w') (e : strong w' = strong w) : Unharmed w w' := by
  have e1 : sharedVal w' = sharedVal w := congrArg (·.1) e
  have e2 : (fun k b i z => At w'.heap k (.mem b i) z) = fun k b i z => At w.heap k (.mem b i) z := congrArg (·.2.1) e
  have e3 : Val w'.heap = Val w.heap := congrArg (·.2.2) e
  have hmem : ∀ k b i z, At w'.heap k (.mem b i) z ↔ At w.heap k (.mem b i) z := fun k b i z =>
    iff_of_eq (congrFun (congrFun (congrFun (congrFun e2 k) b) i) z)
  have hsh : ∀ l z, At w'.heap .sh l z ↔ At w.heap .sh l z := by
    intro l z
    cases l with
    | var q => rw [← sharedVal_some, ← sharedVal_some, e1]
    | mem b i => exact hmem _ _ _ _
  have href : ∀ l b, SP.Refers w' .sh l b ↔ SP.Refers w .sh l b := fun l b => by simp only [SP.Refers, hsh]
  refine ⟨hsh, hmem, fun b v => by rw [e3], fun l n hl => ?_⟩
  rcases SP.handle_cases h hl with he | ⟨b, hb⟩
  · have h1 := (SP.use_count_empty h.hist he).1
    have h2 := (SP.use_count_empty h'.hist ((hsh _ _).2 he)).1
    exact ⟨fun k => by obtain ⟨rfl, -⟩ := Runs.det k h2; exact h1, fun k => by obtain ⟨rfl, -⟩ := Runs.det k h1; exact h2⟩
  · obtain ⟨m, c1, -, r1, -⟩ := SP.use_count_correct h.hist hb
    obtain ⟨m', c2, -, r2, -⟩ := SP.use_count_correct h'.hist ((href _ _).2 hb)
    obtain rfl : m = m' := card_unique c1 (c2.congr fun l => href l b)
    exact ⟨fun k => by obtain ⟨rfl, -⟩ := Runs.det k r2; exact r1, fun k => by obtain ⟨rfl, -⟩ := Runs.det k r1; exact r2⟩

/-- What an element `q` of a container of `weak_ptr`s tells: `use_count()` is the number of owners of the object, `expired()` whether
it has been destroyed.  The control block is still there. -/
def Tells (w : SP.W V) (q : Ptr) : Prop :=
  ∃ h, At w.heap .wk (.var q) h ∧
    (h.ref ≠ .null → SP.Block w h.ref ∧ ∃ n e, SP.Card (fun m => SP.Refers w .sh m h.ref) n ∧ Runs (SP.weakUseCount (.var q)) w n w ∧
      Runs (SP.expired (.var q)) w e w ∧ (e = true ↔ ¬ SP.Alive w h.ref)) ∧
    (h.ref = .null → Runs (SP.weakUseCount (.var q)) w 0 w ∧ Runs (SP.expired (.var q)) w true w)

theorem tells (h : SP.Reach w) {q : Ptr} (hq : weakVal w q ≠ none) : Tells w q := by
  obtain ⟨z, hz⟩ := Option.ne_none_iff_exists'.1 hq
  rw [weakVal_some] at hz
  refine ⟨z, hz, fun hn => ?_, fun hn => ?_⟩
  · have hR : SP.Refers w .wk (.var q) z.ref := ⟨hn, z, hz, rfl⟩
    exact ⟨(SP.block_iff_referenced_partial h _).1.2 ⟨_, _, hR⟩, SP.expired_correct_partial h hR⟩
  · rcases SP.handle_cases h ⟨z, hz⟩ with he | ⟨b, hb, z', hz', rfl⟩
    · exact SP.expired_empty_partial h he
    · obtain ⟨-, rfl⟩ := hz.det hz'
      exact (hb hn).elim

/-- A `weak_ptr` exists until it is destroyed. -/
theorem weak_stays {c : SP.Call V} (h : SP.Reach w) (hv : SP.Valid w c) {q : Ptr} (hq : weakVal w q ≠ none) (hd : c ≠ .dropWeak q) :
    ∃ r w', Runs (SP.exec c) (SP.ready w) r w' ∧ SP.Reach w' ∧ weakVal w' q ≠ none := by
  obtain ⟨z, hz⟩ := Option.ne_none_iff_exists'.1 hq
  rw [weakVal_some] at hz
  obtain ⟨r, w', h1, h2, h3⟩ := SP.call_effect h hv
  refine ⟨r, w', h1, h2, ?_⟩
  suffices ∃ y, At w'.heap .wk (.var q) y by
    obtain ⟨y, hy⟩ := this
    rw [weakVal_some.2 hy]; intro e; cases e
  have hput : ∀ (A : Hs) {k : SP.Kind} {l : SP.Loc} {y : Hnd}, (∃ x, A .wk (.var q) x) → (l = .var q → k = .wk) →
      ∃ x, (A.put k l y) .wk (.var q) x := by
    rintro A k l y ⟨x, hx⟩ hk
    by_cases e : SP.Loc.var q = l
    · subst e; obtain rfl := hk rfl; exact ⟨y, by simp [Hs.put]⟩
    · exact ⟨x, by simp [Hs.put, e, hx]⟩
  have hsh : ∀ {l : SP.Loc}, SP.Has (At w.heap) .sh l → l = .var q → SP.Kind.sh = .wk := by
    rintro _ ⟨x, hx⟩ rfl; cases (hx.det hz).1
  have hnew : ∀ {p : Ptr} {k : SP.Kind}, r = some p → SP.Loc.var p = .var q → k = .wk := by
    intro p k hp e; cases e; exact (h3.1 _ hp _ _ hz).elim
  have hcol : ∀ {A1 : Hs} {B B' : Ptr → V → Prop}, Collect A1 B (At w'.heap) B' → (∃ x, A1 .wk (.var q) x) → ∃ y, At w'.heap .wk (.var q) y :=
    fun hc ⟨x, hx⟩ => ⟨x, (Collect.vars hc _ _ _).2 hx⟩
  have h0 : ∃ x, At w.heap .wk (.var q) x := ⟨z, hz⟩
  cases c with
  | makeShared al v ks =>
    obtain ⟨p, hp, ⟨-, e, -⟩ | ⟨-, b, -, -, -, e, -⟩⟩ := h3.2
    · rw [e]; exact hput _ h0 (hnew hp)
    · rw [e]; exact hput _ ⟨z, .inl hz⟩ (hnew hp)
  | newShared | newWeak =>
    obtain ⟨-, A1, hm, hc⟩ := h3.2
    rcases r with _ | p
    · exact hm.elim
    · have hm : A1 = _ := hm
      subst hm; exact hcol hc (hput _ h0 (hnew rfl))
  | copyShared l | lock l | toWeak k l =>
    obtain ⟨-, A1, hm, hc⟩ := h3.2
    rcases r with _ | p
    · exact hm.elim
    · obtain ⟨x, -, rfl⟩ := hm
      exact hcol hc (hput _ h0 (hnew rfl))
  | moveShared l =>
    obtain ⟨-, A1, hm, hc⟩ := h3.2
    rcases r with _ | p
    · exact hm.elim
    · obtain ⟨x, -, rfl⟩ := hm
      exact hcol hc (hput _ (hput _ h0 (hsh hv)) (hnew rfl))
  | moveWeak l =>
    obtain ⟨-, A1, hm, hc⟩ := h3.2
    rcases r with _ | p
    · exact hm.elim
    · obtain ⟨x, -, rfl⟩ := hm
      exact hcol hc (hput _ (hput _ h0 fun _ => rfl) (hnew rfl))
  | dropShared p =>
    obtain ⟨-, A1, hm, hc⟩ := h3.2
    rcases r with _ | p'
    · have hm : A1 = _ := hm
      subst hm
      refine hcol hc ⟨z, ?_, hz⟩
      intro e; cases e; cases (hv.1.choose_spec.det hz).1
    · exact hm.elim
  | dropWeak p =>
    obtain ⟨-, A1, hm, hc⟩ := h3.2
    rcases r with _ | p'
    · have hm : A1 = _ := hm
      subst hm
      refine hcol hc ⟨z, ?_, hz⟩
      intro e; cases e; exact hd rfl
    · exact hm.elim
  | assignShared l m | assignSharedY l m =>
    obtain ⟨-, A1, hm, hc⟩ := h3.2
    rcases r with _ | p'
    · obtain ⟨x, -, rfl⟩ := hm
      exact hcol hc (hput _ h0 (hsh hv.1))
    · exact hm.elim
  | moveAssignShared l m =>
    obtain ⟨-, A1, hm, hc⟩ := h3.2
    rcases r with _ | p'
    · obtain ⟨x, -, rfl⟩ := hm
      exact hcol hc (hput _ (hput _ h0 (hsh hv.1)) (hsh hv.2.1))
    · exact hm.elim
  | swapShared l m =>
    obtain ⟨-, A1, hm, hc⟩ := h3.2
    rcases r with _ | p'
    · obtain ⟨x, y, -, -, rfl⟩ := hm
      exact hcol hc (hput _ (hput _ h0 (hsh hv.1)) (hsh hv.2))
    · exact hm.elim
  | resetShared l =>
    obtain ⟨-, A1, hm, hc⟩ := h3.2
    rcases r with _ | p'
    · have hm : A1 = _ := hm
      subst hm; exact hcol hc (hput _ h0 (hsh hv.1))
    · exact hm.elim
  | resetWeak l =>
    obtain ⟨-, A1, hm, hc⟩ := h3.2
    rcases r with _ | p'
    · have hm : A1 = _ := hm
      subst hm; exact hcol hc (hput _ h0 fun _ => rfl)
    · exact hm.elim
  | assignWeak k l m =>
    obtain ⟨-, A1, hm, hc⟩ := h3.2
    rcases r with _ | p'
    · obtain ⟨x, -, rfl⟩ := hm
      exact hcol hc (hput _ h0 fun _ => rfl)
    · exact hm.elim
  | moveAssignWeak l m =>
    obtain ⟨-, A1, hm, hc⟩ := h3.2
    rcases r with _ | p'
    · obtain ⟨x, -, rfl⟩ := hm
      exact hcol hc (hput _ (hput _ h0 fun _ => rfl) fun _ => rfl)
    · exact hm.elim

end Nestl.VO
