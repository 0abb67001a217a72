import Verif.TreeOf.EqProps
set_option autoImplicit false
/-
C110: the six comparison operators of trees of objects of any class.
-/
namespace Nestl.TO
open Nestl.VO (Elem ElemOps Boxes boxOps)
open Nestl.NO
open Nestl.Set (Alive)
open Classical
variable {S A X : Type} {E : Elem S A X}

/-! ### Model -/

/-- `operator!=`: rbt.hpp:1298-1304. -/
def treeNe (eqv : Ptr → Ptr → M S Bool) (x y : Ptr) : M (ST S) Bool := do
  pure (!(← treeEq eqv x y))

/-- `operator>`: rbt.hpp:1306-1312. -/
def treeGt (lss : Ptr → Ptr → M S Bool) (x y : Ptr) : M (ST S) Bool := treeLess lss y x

/-- `operator<=`: rbt.hpp:1314-1320. -/
def treeLe (lss : Ptr → Ptr → M S Bool) (x y : Ptr) : M (ST S) Bool := do
  pure (!(← treeLess lss y x))

/-- `operator>=`: rbt.hpp:1322-1328. -/
def treeGe (lss : Ptr → Ptr → M S Bool) (x y : Ptr) : M (ST S) Bool := do
  pure (!(← treeLess lss x y))

/-! ### Proofs -/

variable {s : ST S} {lt eq : A → A → Bool}

/-- One of two sequences precedes the other, or they are equivalent element by element, and not two of these at once. -/
theorem lex_trichotomy (h : SWO lt) (he : ∀ a b, eq a b = true ↔ lt a b = false ∧ lt b a = false) : ∀ L L' : List A,
    (Alg.LexBefore lt L L' ∧ ¬ Alg.LexBefore lt L' L ∧ ¬ listEq eq L L' = true) ∨
    (Alg.LexBefore lt L' L ∧ ¬ Alg.LexBefore lt L L' ∧ ¬ listEq eq L L' = true) ∨
    (listEq eq L L' = true ∧ ¬ Alg.LexBefore lt L L' ∧ ¬ Alg.LexBefore lt L' L)
  | [], [] => .inr (.inr ⟨by simp [listEq], by rw [lex_nil]; simp, by rw [lex_nil]; simp⟩)
  | [], y :: ys => .inl ⟨lex_nil.2 (by simp), lex_cons_nil, by simp [listEq]⟩
  | x :: xs, [] => .inr (.inl ⟨lex_nil.2 (by simp), lex_cons_nil, by simp [listEq]⟩)
  | x :: xs, y :: ys => by
    have e : listEq eq (x :: xs) (y :: ys) = true ↔ eq x y = true ∧ listEq eq xs ys = true := by
      simp only [listEq, decide_eq_true_eq, List.length_cons, Nat.add_right_cancel_iff]
      constructor
      · rintro ⟨h1, h2⟩
        exact ⟨h2 0 x y rfl rfl, h1, fun i a b k1 k2 => h2 (i + 1) a b k1 k2⟩
      · rintro ⟨h1, h2, h3⟩
        refine ⟨h2, fun i a b k1 k2 => ?_⟩
        cases i with
        | zero => cases k1; cases k2; exact h1
        | succ i => exact h3 i a b k1 k2
    have ih := lex_trichotomy h he xs ys
    rw [e, lex_cons, lex_cons, he]
    cases h1 : lt x y with
    | true => rw [h.asymm h1]; simp
    | false =>
      cases h2 : lt y x with
      | true => simp
      | false => simpa using ih

variable {eqv lss : Ptr → Ptr → M S Bool} {t t' : Ptr} {L L' : List (Ptr × A)}

/-- C110: `operator!=` holds iff `operator==` does not; it changes nothing. -/
theorem treeOf_ne (hr : Reach E s) (hc : Compares E eqv eq) (ha : Alive s.o t) (ha' : Alive s.o t') (hL : Values E s t L)
    (hL' : Values E s t' L') : ∃ b s', Runs (treeNe eqv t t') s b s' ∧
      (b = true ↔ ¬ (L.length = L'.length ∧ ∀ (i : Nat) x y, L[i]? = some x → L'[i]? = some y → eq x.2 y.2 = true)) ∧ Unchanged E s s' := by
  obtain ⟨b, s', h1, h2, h3⟩ := treeOf_equal hr hc ha ha' hL hL'
  refine ⟨!b, s', VO.runs_bind_iff.2 ⟨b, s', h1, rfl⟩, ?_, h3⟩
  rw [← h2]; cases b <;> simp

/-- C110: `operator>` is `operator<` the other way round; `operator<=` and `operator>=` are the negations of `operator>` and `operator<`.
Nothing is changed. -/
theorem treeOf_order (hr : Reach E s) (hc : Compares E lss lt) (ha : Alive s.o t) (ha' : Alive s.o t') (hL : Values E s t L)
    (hL' : Values E s t' L') :
    (∃ b s', Runs (treeGt lss t t') s b s' ∧ (b = true ↔ Alg.LexBefore lt (L'.map Prod.snd) (L.map Prod.snd)) ∧ Unchanged E s s') ∧
    (∃ b s', Runs (treeLe lss t t') s b s' ∧ (b = true ↔ ¬ Alg.LexBefore lt (L'.map Prod.snd) (L.map Prod.snd)) ∧ Unchanged E s s') ∧
    (∃ b s', Runs (treeGe lss t t') s b s' ∧ (b = true ↔ ¬ Alg.LexBefore lt (L.map Prod.snd) (L'.map Prod.snd)) ∧ Unchanged E s s') := by
  obtain ⟨b, s1, h1, h2, h3⟩ := treeOf_less hr hc ha' ha hL' hL
  obtain ⟨c, s2, k1, k2, k3⟩ := treeOf_less hr hc ha ha' hL hL'
  refine ⟨⟨b, s1, h1, h2, h3⟩, ⟨!b, s1, VO.runs_bind_iff.2 ⟨b, s1, h1, rfl⟩, ?_, h3⟩, !c, s2, VO.runs_bind_iff.2 ⟨c, s2, k1, rfl⟩, ?_, k3⟩
  · rw [← h2]; cases b <;> simp
  · rw [← k2]; cases c <;> simp

/-- C110: the comparison operators of trees agree with each other: if `<` of the elements is a strict weak order and `==` of the elements
holds iff neither is less, then exactly one of `x < y`, `x == y` and `x > y` holds, `x <= y` iff `x < y` or `x == y`, and `x >= y` iff
`x > y` or `x == y`, and `x != y` iff not `x == y`. -/
theorem treeOf_comparisons (hr : Reach E s) (hc : Compares E lss lt) (hce : Compares E eqv eq) (ho : SWO lt)
    (he : ∀ a b, eq a b = true ↔ lt a b = false ∧ lt b a = false) (ha : Alive s.o t) (ha' : Alive s.o t') (hL : Values E s t L)
    (hL' : Values E s t' L') :
    ∃ l g e n le ge s1 s2 s3 s4 s5 s6, Runs (treeLess lss t t') s l s1 ∧ Runs (treeGt lss t t') s g s2 ∧ Runs (treeEq eqv t t') s e s3 ∧
      Runs (treeNe eqv t t') s n s4 ∧ Runs (treeLe lss t t') s le s5 ∧ Runs (treeGe lss t t') s ge s6 ∧
      ((l = true ∧ e = false ∧ g = false) ∨ (l = false ∧ e = true ∧ g = false) ∨ (l = false ∧ e = false ∧ g = true)) ∧
      n = !e ∧ le = (l || e) ∧ ge = (g || e) := by
  obtain ⟨l, s1, h1, h2, -⟩ := treeOf_less hr hc ha ha' hL hL'
  obtain ⟨⟨g, s2, g1, g2, -⟩, ⟨le, s5, le1, le2, -⟩, ⟨ge, s6, ge1, ge2, -⟩⟩ := treeOf_order hr hc ha ha' hL hL'
  obtain ⟨e, s3, e1, e2, -⟩ := treeOf_equal hr hce ha ha' hL hL'
  obtain ⟨n, s4, n1, n2, -⟩ := treeOf_ne hr hce ha ha' hL hL'
  have e3 : e = true ↔ listEq eq (L.map Prod.snd) (L'.map Prod.snd) = true := by
    rw [e2]
    simp only [listEq, decide_eq_true_eq, List.length_map, List.getElem?_map]
    refine and_congr .rfl ⟨fun h i x y hx hy => ?_, fun h i x y hx hy => h i x.2 y.2 (by simp [hx]) (by simp [hy])⟩
    simp only [Option.map_eq_some_iff] at hx hy
    obtain ⟨x, hx, rfl⟩ := hx
    obtain ⟨y, hy, rfl⟩ := hy
    exact h i x y hx hy
  rw [← e2] at n2
  refine ⟨l, g, e, n, le, ge, s1, s2, s3, s4, s5, s6, h1, g1, e1, n1, le1, ge1, ?_⟩
  have := lex_trichotomy ho he (L.map Prod.snd) (L'.map Prod.snd)
  rw [← h2, ← g2, ← e3] at this
  rw [← g2] at le2
  rw [← h2] at ge2
  revert this n2 le2 ge2
  clear h1 h2 g1 g2 e1 e2 e3 n1 le1 ge1
  revert l g e n le ge
  decide

/-- The trees with the values 7, 8 and with the value 7. -/
example : Reach Elem.box Demo.s5 ∧ Compares Elem.box Demo.ord.less Demo.ord.lt ∧ Compares Elem.box LO.Demo.boxEq (fun x y => x == y) ∧
    SWO Demo.ord.lt ∧ (∀ a b : Nat, (a == b) = true ↔ Demo.ord.lt a b = false ∧ Demo.ord.lt b a = false) ∧
    Alive Demo.s5.o Demo.v ∧ Alive Demo.s5.o Demo.u ∧ Values Elem.box Demo.s5 Demo.v [(.dyn 0, 7), (.dyn 1, 8)] ∧
    Values Elem.box Demo.s5 Demo.u [(.dyn 2, 7)] :=
  ⟨Demo.r5, Demo.ord_ok, LO.Demo.boxEq_ok, Demo.ord_swo, fun a b => by simp [Demo.ord]; omega, Demo.alive (by decide +kernel),
    Demo.alive (by decide +kernel), Demo.vals5, Demo.vals5u⟩

end Nestl.TO
