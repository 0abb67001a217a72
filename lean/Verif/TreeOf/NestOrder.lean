import Verif.TreeOf.Nest
set_option autoImplicit false
/-
C99: the comparisons of trees as comparators of containers of trees.
-/
namespace Nestl.TO
open Nestl.VO (Elem ElemOps Boxes boxOps)
open Nestl.NO
open Nestl.Set (Alive)
open Classical
variable {S A X : Type} {E : Elem S A X}

/-! ### The lexicographic order -/

/-- The lexicographic order as a comparison. -/
noncomputable def lexLt (lt : A → A → Bool) (xs ys : List A) : Bool := decide (Alg.LexBefore lt xs ys)

/-- Sequences of equally many, pairwise equal elements. -/
noncomputable def listEq (eq : A → A → Bool) (xs ys : List A) : Bool :=
  decide (xs.length = ys.length ∧ ∀ (i : Nat) x y, xs[i]? = some x → ys[i]? = some y → eq x y = true)

variable {lt : A → A → Bool}

theorem lex_nil {ys : List A} : Alg.LexBefore lt [] ys ↔ ys ≠ [] := by
  constructor
  · rintro ⟨i, -, ⟨x, y, h, -⟩ | ⟨-, h⟩, -⟩
    · cases h
    · rintro rfl; exact Nat.not_lt_zero _ h
  · intro h
    exact ⟨0, fun _ _ _ h => (Nat.not_lt_zero _ h).elim, .inr ⟨rfl, List.length_pos_iff.2 h⟩, Nat.zero_le _, Nat.zero_le _⟩

theorem lex_cons_nil {x : A} {xs : List A} : ¬ Alg.LexBefore lt (x :: xs) [] := by
  rintro ⟨i, -, ⟨x, y, -, h, -⟩ | ⟨-, h⟩, -⟩
  · cases h
  · exact Nat.not_lt_zero _ h

theorem lex_cons {x y : A} {xs ys : List A} : Alg.LexBefore lt (x :: xs) (y :: ys) ↔
    lt x y = true ∨ (lt x y = false ∧ lt y x = false ∧ Alg.LexBefore lt xs ys) := by
  cases h1 : lt x y with
  | true =>
    simp only [true_or, iff_true]
    exact ⟨0, fun _ _ _ h => (Nat.not_lt_zero _ h).elim, .inl ⟨x, y, rfl, rfl, h1⟩, Nat.zero_le _, Nat.zero_le _⟩
  | false =>
    cases h2 : lt y x with
    | true =>
      simp only [Bool.false_eq_true, false_or, true_and, Bool.true_eq_false, false_and, iff_false]
      rintro ⟨i, a, b, -⟩
      cases i with
      | zero =>
        rcases b with ⟨x', y', e1, e2, e3⟩ | ⟨e, -⟩
        · cases e1; cases e2; rw [h1] at e3; cases e3
        · cases e
      | succ i =>
        have := (a 0 x y (Nat.succ_pos _) rfl rfl).2
        rw [h2] at this; cases this
    | false =>
      simp only [Bool.false_eq_true, false_or, true_and]
      exact Alg.LexBefore.cons h1 h2

/-- C99: the lexicographic order that a strict weak order induces on sequences is a strict weak order again. -/
theorem lex_swo (h : SWO lt) : SWO (lexLt lt) := by
  have hi : ∀ a, lt a a ≠ true := fun a => by rw [h.irrefl]; simp
  refine ⟨fun a => ?_, fun a b c => ?_, fun a b c => ?_⟩
  · simp only [lexLt, decide_eq_false_iff_not]
    induction a with
    | nil => rw [lex_nil]; simp
    | cons x xs ih =>
      rw [lex_cons]
      rintro (h1 | ⟨-, -, h1⟩)
      · exact hi _ h1
      · exact ih h1
  · simp only [lexLt, decide_eq_true_eq]
    induction a generalizing b c with
    | nil =>
      intro h1 h2
      rw [lex_nil] at h1 ⊢
      rintro rfl
      cases b with
      | nil => exact h1 rfl
      | cons y ys => exact lex_cons_nil h2
    | cons x xs ih =>
      intro h1 h2
      cases b with
      | nil => exact (lex_cons_nil h1).elim
      | cons y ys =>
        cases c with
        | nil => exact (lex_cons_nil h2).elim
        | cons z zs =>
          rw [lex_cons] at h1 h2 ⊢
          have h3 := h.trans x y z
          have h4 := h.trans z y x
          have h5 := h.cotrans x z y
          have h6 := h.cotrans y x z
          have h7 := h.cotrans x y z
          have h8 := h.cotrans z y x
          have h9 := ih ys zs
          grind
  · simp only [lexLt, decide_eq_true_eq]
    induction a generalizing b c with
    | nil =>
      intro h1
      rw [lex_nil] at h1
      cases b with
      | nil => exact .inr (lex_nil.2 h1)
      | cons y ys => exact .inl (lex_nil.2 (by simp))
    | cons x xs ih =>
      intro h1
      cases c with
      | nil => exact (lex_cons_nil h1).elim
      | cons z zs =>
        cases b with
        | nil => exact .inr (lex_nil.2 (by simp))
        | cons y ys =>
          rw [lex_cons] at h1 ⊢
          rw [lex_cons]
          have h5 := h.cotrans x y z
          have h6 := h.cotrans y x z
          have h7 := h.cotrans x z y
          have h8 := h.cotrans z y x
          have h9 := h.cotrans z x y
          have h10 := h.cotrans y z x
          have h9 := ih ys zs
          grind

/-- `[7] < [7, 8] < [8]`. -/
example : SWO Demo.ord.lt ∧ Alg.LexBefore Demo.ord.lt [7] [7, 8] ∧ Alg.LexBefore Demo.ord.lt [7, 8] [8] :=
  ⟨Demo.ord_swo, lex_cons.2 (.inr ⟨by simp [Demo.ord], by simp [Demo.ord], lex_nil.2 (by simp)⟩), lex_cons.2 (.inl (by simp [Demo.ord]))⟩

/-! ### Comparisons of trees -/

variable {s s' : ST S}

theorem setVal_some {t : Ptr} {x : List A} (h : setVal E s t = some x) : Alive s.o t ∧ ∃ L, Values E s t L ∧ L.map Prod.snd = x := by
  unfold setVal at h
  split at h
  · rename_i h1
    exact ⟨h1.1, _, h1.2.choose_spec, by simpa using h⟩
  · cases h

theorem NInv.held_iff (h : NInv E s) (h' : NInv E s') (hu : Unchanged E s s') (p q : Ptr) : Held s'.o p q ↔ Held s.o p q :=
  h'.at.symm.trans ((hu.elems p q).trans h.at)

/-- Programs that change nothing keep sets as objects. -/
theorem NInv.unchanged (h : NInv E s) (h' : NInv E s') (hu : Unchanged E s s') : outside E s' = outside E s ∧ setVal E s' = setVal E s := by
  constructor
  · unfold outside
    rw [hu.val, hu.rest]
    congr 1
    funext q
    have : Owned s'.o q ↔ Owned s.o q := exists_congr fun p => h.held_iff h' hu p q
    simp only [this]
  · obtain ⟨B, hB, -⟩ := h.shows
    rw [setVal_eq hB, setVal_eq ((hu.shows B).2 hB)]

/-- C99: `operator<` of trees is a comparator for containers of trees: it computes the lexicographic order of their values and changes
nothing. -/
theorem treeOf_less_compares {lss : Ptr → Ptr → M S Bool} (hc : Compares E lss lt) : Compares (setOf E) (treeLess lss) (lexLt lt) := by
  intro s p q a b h ha hb
  have h : NInv E s := h
  obtain ⟨h1, L, hL, rfl⟩ := setVal_some ha
  obtain ⟨h2, L', hL', rfl⟩ := setVal_some hb
  obtain ⟨o, u, ht, rfl⟩ := h.valueTree h1 hL
  obtain ⟨o', u', ht', rfl⟩ := h.valueTree h2 hL'
  obtain ⟨r, s', k1, k2, k3, k4⟩ := h.look (Q := fun b => b = true ↔ Alg.LexBefore lt (u.nodes.map Prod.snd) (u'.nodes.map Prod.snd))
    (q_treeLess hc Frozen.calm p q) (RB.wp_treeLess ht ht' fun b hb => ⟨hb, 0, rfl⟩)
  obtain ⟨k5, k6⟩ := h.unchanged k3 k4
  refine wp_iff_runs.2 ⟨r, s', k1, ?_, k3, k5, k6⟩
  rw [Bool.eq_iff_iff, k2]
  simp [lexLt]

/-- C99: `operator==` of trees is a comparison of elements of containers of trees. -/
theorem treeOf_equal_compares {eqv : Ptr → Ptr → M S Bool} {eq : A → A → Bool} (hc : Compares E eqv eq) :
    Compares (setOf E) (treeEq eqv) (listEq eq) := by
  intro s p q a b h ha hb
  have h : NInv E s := h
  obtain ⟨h1, L, hL, rfl⟩ := setVal_some ha
  obtain ⟨h2, L', hL', rfl⟩ := setVal_some hb
  obtain ⟨o, u, ht, rfl⟩ := h.valueTree h1 hL
  obtain ⟨o', u', ht', rfl⟩ := h.valueTree h2 hL'
  obtain ⟨r, s', k1, k2, k3, k4⟩ := h.look (Q := fun b => b = true ↔ listEq eq (u.nodes.map Prod.snd) (u'.nodes.map Prod.snd) = true)
    (q_treeEq hc Frozen.calm p q) (RB.wp_treeEq ht ht' ⟨by
      rw [Full.isEqv_iff]
      simp only [listEq, decide_eq_true_eq, List.length_map, List.getElem?_map]
      refine and_congr .rfl ⟨fun h i x y hx hy => ?_, fun h i x y hx hy => h i x.2 y.2 (by simp [hx]) (by simp [hy])⟩
      simp only [Option.map_eq_some_iff] at hx hy
      obtain ⟨x, hx, rfl⟩ := hx
      obtain ⟨y, hy, rfl⟩ := hy
      exact h i x y hx hy, 0, rfl⟩)
  obtain ⟨k5, k6⟩ := h.unchanged k3 k4
  refine wp_iff_runs.2 ⟨r, s', k1, ?_, k3, k5, k6⟩
  rw [Bool.eq_iff_iff, k2]

example : Compares Elem.box Demo.ord.less Demo.ord.lt ∧ Compares Elem.box LO.Demo.boxEq (fun x y => x == y) := ⟨Demo.ord_ok, LO.Demo.boxEq_ok⟩

end Nestl.TO
