import Verif.Full.RotAll
import Verif.RBTree.RotErase
import Verif.RBTree.Move
set_option autoImplicit false
/-
C123: the passes of the rebalancing loops over a whole history of one object.
-/
namespace Nestl.Full
open Nestl.RB Nestl.Set Nestl.Multi
variable {K : Type} {lt : K → K → Bool} {w w' : W K} {s : Ptr} {L : List (Ptr × K)}

/-- A history of the object at `s`: `a` insertions, each in any of the ways of `Way`, and `e` erased elements (one
at a time, in ranges or by key), in any order, whose rebalancing loops made `n` passes
altogether. In between, anything that leaves the object and its nodes alone may happen. -/
inductive Passes (lt : K → K → Bool) (s : Ptr) (w : W K) : Nat → Nat → Nat → W K → Prop
  | nil : Passes lt s w 0 0 0 w
  | insert {a e n : Nat} {w1 w2 : W K} {L : List (Ptr × K)} {y : Way} {v : K} {r : Ptr} {rot i : Nat} : Passes lt s w a e n w1 →
      Contents w1 s L → y.Ok lt v s L → Runs (insertByN lt s v y) (ready w1) (r, rot, i) w2 → Passes lt s w (a + 1) e (n + i) w2
  | erase {a e n : Nat} {w1 w2 : W K} {L : List (Ptr × K)} {p : Ptr × K} {r : Ptr} {rot i : Nat} : Passes lt s w a e n w1 →
      Contents w1 s L → p ∈ L → Runs (eraseIterN s p.1) w1 (r, rot, i) w2 → Passes lt s w a (e + 1) (n + i) w2
  | range {a e n : Nat} {w1 w2 : W K} {A M B : List (Ptr × K)} {r : Ptr} {rot i : Nat} : Passes lt s w a e n w1 →
      Contents w1 s (A ++ (M ++ B)) → Runs (eraseRangeN s (firstP s (M ++ B)) (firstP s B)) w1 (r, rot, i) w2 →
      Passes lt s w a (e + M.length) (n + i) w2
  | key {a e n : Nat} {w1 w2 : W K} {k : K} {r rot i : Nat} : Passes lt s w a e n w1 →
      Runs (eraseKeyN lt s k) w1 (r, rot, i) w2 → Passes lt s w a (e + r) (n + i) w2
  | other {a e n : Nat} {w1 w2 : W K} {L : List (Ptr × K)} : Passes lt s w a e n w1 → Contents w1 s L →
      w2.heap s = w1.heap s → (∀ p ∈ L, w2.heap p.1 = w1.heap p.1) → Passes lt s w a e n w2

theorem Passes.phi {o a e n : Nat} {t : T K} (h : Passes lt s w a e n w') (ht : Tree w.heap s o t) :
    ∃ t', Tree w'.heap s o t' ∧ n + phi t' ≤ phi t + 7 * a + 12 * e := by
  induction h with
  | nil => exact ⟨t, ht, by omega⟩
  | @insert a e n w1 w2 L y v r rot i _ hc hy hr ih =>
    obtain ⟨t1, ht1, hp⟩ := ih
    obtain rfl := (contents_iff ht1).1 hc
    obtain ⟨b, w3, h1, t2, h2, -, -, h3⟩ := wp.runs (wp_insertByN (w := ready w1) (by exact ht1) hy rfl)
    obtain ⟨rfl, rfl⟩ := Runs.det hr h1
    exact ⟨t2, h2, by simp only at h3; omega⟩
  | @erase a e n w1 w2 L p r rot i _ hc hm hr ih =>
    obtain ⟨t1, ht1, hp⟩ := ih
    obtain rfl := (contents_iff ht1).1 hc
    obtain ⟨p, k⟩ := p
    obtain ⟨A, B, hn⟩ := List.append_of_mem hm
    obtain ⟨b, w3, h1, t2, h2, h3⟩ := wp.runs (m := eraseIterN s p) (s := w1)
      (Q := fun b w' => ∃ t2, Tree w'.heap s o t2 ∧ b.2.2 + RB.phi t2 ≤ RB.phi t1 + 12)
      (wp_eraseIterN ht1 hn fun _ _ t2 h2 _ _ _ h3 => ⟨t2, h2, h3⟩)
    obtain ⟨rfl, rfl⟩ := Runs.det hr h1
    exact ⟨t2, h2, by simp only at h3; omega⟩
  | @range a e n w1 w2 A M B r rot i _ hc hr ih =>
    obtain ⟨t1, ht1, hp⟩ := ih
    obtain ⟨rot', i', w3, t2, h1, -, h2, -, -, h3⟩ := eraseRangeN_runs ht1 ((contents_iff ht1).1 hc).symm
    obtain ⟨e1, rfl⟩ := Runs.det hr h1
    simp only [Prod.mk.injEq] at e1
    obtain ⟨-, -, rfl⟩ := e1
    exact ⟨t2, h2, by omega⟩
  | @key a e n w1 w2 k r rot i _ hr ih =>
    obtain ⟨t1, ht1, hp⟩ := ih
    obtain ⟨A, M, B, rot', i', w3, t2, h1, -, -, h2, -, -, h3⟩ := eraseKeyN_runs (lt := lt) (k := k) ht1
    obtain ⟨e1, rfl⟩ := Runs.det hr h1
    simp only [Prod.mk.injEq] at e1
    obtain ⟨rfl, -, rfl⟩ := e1
    exact ⟨t2, h2, by omega⟩
  | @other a e n w1 w2 L _ hc h1 h2 ih =>
    obtain ⟨t1, ht1, hp⟩ := ih
    obtain rfl := (contents_iff ht1).1 hc
    refine ⟨t1, ht1.congr h1 ?_, hp⟩
    intro p hm
    obtain ⟨q, hq, rfl⟩ := List.mem_map.1 hm
    exact h2 q hq

/-- C123: rebalancing is constant on average. A history of `a` insertions and `e` erased elements of a set that starts with `N`
elements makes at most `7a + 12e + 2N` passes of the rebalancing loops, so at most twelve per operation from an empty set. -/
theorem tree_rebalance_amortised {a e n : Nat} (hr : FReach lt w) (hs : Alive w s) (hL : Contents w s L) (h : Passes lt s w a e n w') :
    n ≤ 7 * a + 12 * e + 2 * L.length := by
  obtain ⟨o, t, ht, rfl⟩ := hr.tree hs hL
  obtain ⟨t', -, h1⟩ := h.phi ht
  have := phi_le t
  omega

/-- C123: every insertion and every erasure (of an element, of a range, of a key) extends such a history: the counted calls return. -/
theorem tree_rebalance_continues {a e n : Nat} (hr : FReach lt w) (hs : Alive w s) (h : Passes lt s w a e n w') :
    ∃ L, Contents w' s L ∧
      (∀ v (y : Way), y.Ok lt v s L → ∃ i w2, Passes lt s w (a + 1) e (n + i) w2 ∧ ∃ r, Runs (insertBy lt s v y) (ready w') r w2) ∧
      (∀ p ∈ L, ∃ i w2, Passes lt s w a (e + 1) (n + i) w2 ∧ ∃ r, Runs (eraseIter s p.1) w' r w2) ∧
      (∀ A M B, L = A ++ (M ++ B) → ∃ i w2, Passes lt s w a (e + M.length) (n + i) w2 ∧ ∃ r, Runs (eraseRange s (firstP s (M ++ B)) (firstP s B)) w' r w2) ∧
      ∀ k, ∃ i w2 r, Passes lt s w a (e + r) (n + i) w2 ∧ Runs (eraseKey lt s k) w' r w2 := by
  obtain ⟨i, o, t, rfl, -, ht, -⟩ := hr.inv.tree hs
  obtain ⟨t', ht', -⟩ := h.phi ht
  refine ⟨t'.nodes, (contents_iff ht').2 rfl, fun v y hy => ?_, fun p hp => ?_, fun A M B hL => ?_, fun k => ?_⟩
  · obtain ⟨⟨r, rot, j⟩, w2, h1, -⟩ := wp.runs (wp_insertByN (w := ready w') (by exact ht') hy rfl)
    exact ⟨j, w2, h.insert ((contents_iff ht').2 rfl) hy h1, r, insertByN_sim y _ _ _ trivial h1⟩
  · obtain ⟨p, k⟩ := p
    obtain ⟨A, B, hn⟩ := List.append_of_mem hp
    obtain ⟨⟨r, rot, j⟩, w2, h1, -⟩ := wp.runs (m := eraseIterN (.stk i) p) (s := w') (Q := fun _ _ => True)
      (wp_eraseIterN ht' hn fun _ _ _ _ _ _ _ _ => trivial)
    exact ⟨j, w2, h.erase ((contents_iff ht').2 rfl) hp h1, r, eraseIterN_sim _ _ _ trivial h1⟩
  · obtain ⟨rot, j, w2, t2, h1, h2, -⟩ := eraseRangeN_runs ht' hL
    exact ⟨j, w2, h.range (by rw [← hL]; exact (contents_iff ht').2 rfl) h1, _, h2⟩
  · obtain ⟨A, M, B, rot, j, w2, t2, h1, h2, -⟩ := eraseKeyN_runs (lt := lt) (k := k) ht'
    exact ⟨j, w2, _, h.key h1, h2⟩

/-- A history of the four-element object of `fdemo`: an erasure, an insertion at the lower end and one with a hint. -/
example : ∃ (w w' : W (Nat × Nat)) (L : List (Ptr × (Nat × Nat))) (n : Nat), FReach pairLt w ∧ Alive w (.stk 0) ∧ Contents w (.stk 0) L ∧
    L.length = 4 ∧ Passes pairLt (.stk 0) w 2 1 n w' ∧ n ≤ 34 := by
  obtain ⟨w, L, M, hr, -, ha, -, hc, -, hL, -⟩ := fdemo 7
  have hlen : L.length = 4 := by rw [← List.length_map (f := Prod.snd), hL]; rfl
  match L, hlen, hc with
  | p :: L', hlen, hc =>
    obtain ⟨L1, hc1, -, h1, -⟩ := tree_rebalance_continues (lt := pairLt) hr ha .nil
    obtain ⟨rfl, -⟩ := Runs.det hc hc1
    obtain ⟨i1, w1, hp1, -⟩ := h1 p (by simp)
    obtain ⟨L2, -, h2, -⟩ := tree_rebalance_continues hr ha hp1
    obtain ⟨i2, w2, hp2, -⟩ := h2 (2, 2) .lower trivial
    obtain ⟨L3, -, h3, -⟩ := tree_rebalance_continues hr ha hp2
    obtain ⟨i3, w3, hp3, -⟩ := h3 (9, 1) (.hint (.stk 0)) ⟨by intro a h; simp only [pairLt, decide_eq_true_eq, decide_eq_false_iff_not] at *; omega, Or.inl rfl⟩
    have := tree_rebalance_amortised hr ha hc hp3
    exact ⟨w, w3, _, _, hr, ha, hc, hlen, hp3, by omega⟩

end Nestl.Full
