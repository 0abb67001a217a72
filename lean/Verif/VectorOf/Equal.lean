import Verif.VectorOf.NestProps
import Verif.NodeOf.Elems
set_option autoImplicit false
/-
C109: `operator==` of vectors of objects.
-/
namespace Nestl.VO
open Nestl.Vec (W Obj Blk VCell Sg ElemSize rdObj slotRd)
open Nestl.NO (Compares)
variable {S A X : Type}

/-! ### Model -/

/-- The loop of `operator==`: vector.hpp:241-250; `eq` is the comparison of elements. -/
def eqLoop (eq : Ptr → Ptr → M S Bool) (p q : Ptr) (i : Nat) : Nat → M (NS S) Bool
  | 0 => pure true
  | n + 1 => do
    let a ← onO (slotRd p i)
    let b ← onO (slotRd q i)
    if !(← onI (eq a b)) then pure false else eqLoop eq p q (i + 1) n

/-- `operator==`: vector.hpp:226-253. -/
def equal (eq : Ptr → Ptr → M S Bool) (l r : Ptr) : M (NS S) Bool := do
  let o ← onO (rdObj l)
  let u ← onO (rdObj r)
  if o.fin ≠ u.fin then pure false else eqLoop eq o.start u.start 0 o.fin

/-! ### Proofs -/

variable {E : Elem S A X} {s : NS S} {σ : Sg Ptr}

variable [ElemSize Ptr] in
theorem NInv.same (h : NInv E s σ) {i : S} (hi : E.inv i) (hv : E.val i = E.val s.i) : NInv E ⟨s.o, i⟩ σ :=
  ⟨h.outer, hi, by rw [hv]; exact h.live, h.uniq⟩

variable [ElemSize Ptr] in
theorem NInv.eqLoop (h : NInv E s σ) {eqv : Ptr → Ptr → M S Bool} {eq : A → A → Bool} (hc : Compares E eqv eq) {t u : Ptr} {x y : Vec.Vec Ptr}
    (hx : σ t = some x) (hy : σ u = some y) (hl : x.els.length = y.els.length) : ∀ (n j : Nat) (i : S), E.inv i → E.val i = E.val s.i →
      E.rest i = E.rest s.i → j + n = x.els.length → ∃ b i', Runs (eqLoop eqv x.start y.start j n) ⟨s.o, i⟩ b ⟨s.o, i'⟩ ∧
        (b = true ↔ ∀ k p q a c, j ≤ k → x.els[k]? = some p → y.els[k]? = some q → E.val s.i p = some a → E.val s.i q = some c →
          eq a c = true) ∧ E.inv i' ∧ E.val i' = E.val s.i ∧ E.rest i' = E.rest s.i := by
  intro n
  induction n with
  | zero =>
    intro j i h1 h2 h3 h4
    refine ⟨true, i, rfl, ⟨fun _ k p q a c k1 k2 => ?_, fun _ => rfl⟩, h1, h2, h3⟩
    rw [List.getElem?_eq_none (by omega)] at k2; cases k2
  | succ n ih =>
    intro j i h1 h2 h3 h4
    have hj : j < x.els.length := by omega
    have hj' : j < y.els.length := by omega
    have g1 := List.getElem?_eq_getElem hj
    have g2 := List.getElem?_eq_getElem hj'
    obtain ⟨a, ha⟩ := Option.ne_none_iff_exists'.1 (h.live _ _ _ hx (List.getElem_mem hj))
    obtain ⟨c, hc'⟩ := Option.ne_none_iff_exists'.1 (h.live _ _ _ hy (List.getElem_mem hj'))
    obtain ⟨r, i1, k1, rfl, k2, k3, k4⟩ := (hc i _ _ a c h1 (by rw [h2]; exact ha) (by rw [h2]; exact hc')).runs
    have r1 := ((Vec.wp_slot h.outer.st hx g1 (Q := fun r w => r = _ ∧ w = s.o)).2 ⟨rfl, rfl⟩).runs
    have r2 := ((Vec.wp_slot h.outer.st hy g2 (Q := fun r w => r = _ ∧ w = s.o)).2 ⟨rfl, rfl⟩).runs
    obtain ⟨_, _, r1, rfl, rfl⟩ := r1
    obtain ⟨_, _, r2, rfl, e⟩ := r2
    rw [e] at r2
    obtain ⟨b, i', m1, m2, m3⟩ := ih (j + 1) i1 k2 (k4.trans h2) (k3.trans h3) (by omega)
    cases hb : eq a c with
    | false =>
      refine ⟨false, i1, runs_bind_iff.2 ⟨_, _, runs_onO r1, runs_bind_iff.2 ⟨_, _, runs_onO r2, runs_bind_iff.2 ⟨_, _, runs_onI k1, ?_⟩⟩⟩,
        ⟨(fun e => by cases e), fun k => ?_⟩, k2, k4.trans h2, k3.trans h3⟩
      · rw [hb]; rfl
      · rw [k j _ _ a c (Nat.le_refl _) g1 g2 ha hc'] at hb; cases hb
    | true =>
      refine ⟨b, i', runs_bind_iff.2 ⟨_, _, runs_onO r1, runs_bind_iff.2 ⟨_, _, runs_onO r2, runs_bind_iff.2 ⟨_, _, runs_onI k1, ?_⟩⟩⟩,
        m2.trans ⟨fun k l p q a' c' l1 l2 l3 l4 l5 => ?_, fun k l p q a' c' l1 => k l p q a' c' (by omega)⟩, m3⟩
      · rw [hb]; exact m1
      · by_cases e : l = j
        · subst e
          rw [g1] at l2; rw [g2] at l3
          cases l2; cases l3
          rw [ha] at l4; rw [hc'] at l5
          cases l4; cases l5
          exact hb
        · exact k l p q a' c' (by omega) l2 l3 l4 l5

variable [ElemSize Ptr] in
theorem NInv.equal (h : NInv E s σ) {eqv : Ptr → Ptr → M S Bool} {eq : A → A → Bool} (hc : Compares E eqv eq) {t u : Ptr} {x y : Vec.Vec Ptr}
    (hx : σ t = some x) (hy : σ u = some y) {L L' : List A} (hL : x.els.map (E.val s.i) = L.map some)
    (hL' : y.els.map (E.val s.i) = L'.map some) : ∃ b i', Runs (equal eqv t u) s b ⟨s.o, i'⟩ ∧
        (b = true ↔ L.length = L'.length ∧ ∀ (k : Nat) a c, L[k]? = some a → L'[k]? = some c → eq a c = true) ∧
        E.inv i' ∧ E.val i' = E.val s.i ∧ E.rest i' = E.rest s.i := by
  have e1 : x.els.length = L.length := by simpa using congrArg List.length hL
  have e2 : y.els.length = L'.length := by simpa using congrArg List.length hL'
  have n1 := h.outer.st.ne_null hx
  have n2 := h.outer.st.ne_null hy
  obtain ⟨_, _, r1, rfl, rfl⟩ := ((Vec.wp_rdObj (h.outer.st.obj _ _ hx).2 n1 (Q := fun r w => r = _ ∧ w = s.o)).2 ⟨rfl, rfl⟩).runs
  obtain ⟨_, _, r2, rfl, e⟩ := ((Vec.wp_rdObj (h.outer.st.obj _ _ hy).2 n2 (Q := fun r w => r = _ ∧ w = s.o)).2 ⟨rfl, rfl⟩).runs
  rw [e] at r2
  by_cases hl : x.els.length = y.els.length
  · obtain ⟨b, i', m1, m2, m3⟩ := h.eqLoop hc hx hy hl x.els.length 0 s.i h.inv rfl rfl (by omega)
    refine ⟨b, i', runs_bind_iff.2 ⟨_, _, runs_onO r1, runs_bind_iff.2 ⟨_, _, runs_onO r2, ?_⟩⟩, ?_, m3⟩
    · show Runs (if _ then _ else _) _ _ _
      rw [if_neg (by simpa using hl)]
      exact m1
    · rw [m2]
      have g1 : ∀ k : Nat, (x.els[k]?).map (E.val s.i) = (L[k]?).map some := fun k => by
        rw [← List.getElem?_map, ← List.getElem?_map, hL]
      have g2 : ∀ k : Nat, (y.els[k]?).map (E.val s.i) = (L'[k]?).map some := fun k => by
        rw [← List.getElem?_map, ← List.getElem?_map, hL']
      constructor
      · refine fun k => ⟨by omega, fun j a c k1 k2 => ?_⟩
        have g1 := g1 j
        have g2 := g2 j
        rw [k1] at g1
        rw [k2] at g2
        obtain ⟨p, p1, p2⟩ := Option.map_eq_some_iff.1 g1
        obtain ⟨q, q1, q2⟩ := Option.map_eq_some_iff.1 g2
        exact k j p q a c (Nat.zero_le _) p1 q1 p2 q2
      · rintro ⟨-, k⟩ j p q a c - k1 k2 k3 k4
        have g1 := g1 j
        have g2 := g2 j
        rw [k1, Option.map_some, k3] at g1
        rw [k2, Option.map_some, k4] at g2
        obtain ⟨a', p1, p2⟩ := Option.map_eq_some_iff.1 g1.symm
        obtain ⟨c', q1, q2⟩ := Option.map_eq_some_iff.1 g2.symm
        cases p2; cases q2
        exact k j a c p1 q1
  · refine ⟨false, s.i, runs_bind_iff.2 ⟨_, _, runs_onO r1, runs_bind_iff.2 ⟨_, _, runs_onO r2, ?_⟩⟩,
      ⟨(fun e => by cases e), fun k => (hl (by omega)).elim⟩, h.inv, rfl, rfl⟩
    show Runs (if _ then _ else _) _ _ _
    rw [if_pos (by simpa using hl)]
    rfl

end Nestl.VO
