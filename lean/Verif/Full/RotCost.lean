import Verif.RBTree.RotOps
import Verif.Full.Props
set_option autoImplicit false
/-
C122: rotations and passes of the rebalancing loops.
-/
namespace Nestl.Full
open Nestl.RB Nestl.Set Nestl.Multi
variable {K : Type} {lt : K → K → Bool} {w w' : W K} {s : Ptr} {L : List (Ptr × K)}

/-- C122: an insertion into a set of `n` elements makes at most two rotations and `log2(n+1)` passes of the rebalancing loop. -/
theorem tree_insert_rotations {v : K} (hr : FReach lt w) (hs : Alive w s) (hL : Contents w s L) :
    ∃ r rot passes w', Runs (insertUniqueN lt s v) (ready w) (r, rot, passes) w' ∧ Runs (insertUnique lt s v) (ready w) r w' ∧
      rot ≤ 2 ∧ passes ≤ Nat.log2 (L.length + 1) := by
  obtain ⟨o, t, ht, rfl⟩ := hr.tree hs hL
  obtain ⟨⟨r, n, i⟩, w', h1, h2, h3⟩ := wp.runs (m := insertUniqueN lt s v) (s := ready w)
    (Q := fun a _ => a.2.1 ≤ 2 ∧ a.2.2 ≤ Nat.log2 (t.nodes.length + 1)) (wp_insertUniqueN (w := ready w) (by exact ht) rfl fun _ _ _ _ h1 h2 _ => ⟨h1, h2⟩)
  exact ⟨r, n, i, w', h1, insertUniqueN_sim _ _ _ trivial h1, h2, h3⟩

/-- C122: erasing an element of a tree of `n` elements makes at most three rotations and `2 log2(n)` passes. -/
theorem tree_erase_rotations {p : Ptr × K} (hr : FReach lt w) (hs : Alive w s) (hL : Contents w s L) (hp : p ∈ L) :
    ∃ r rot passes w', Runs (eraseIterN s p.1) w (r, rot, passes) w' ∧ Runs (eraseIter s p.1) w r w' ∧
      rot ≤ 3 ∧ passes ≤ 2 * Nat.log2 L.length := by
  obtain ⟨o, t, ht, rfl⟩ := hr.tree hs hL
  obtain ⟨p, k⟩ := p
  obtain ⟨A, B, hn⟩ := List.append_of_mem hp
  obtain ⟨⟨r, n, i⟩, w', h1, h2, h3⟩ := wp.runs (m := eraseIterN s p) (s := w)
    (Q := fun a _ => a.2.1 ≤ 3 ∧ a.2.2 ≤ 2 * Nat.log2 t.nodes.length) (wp_eraseIterN ht hn fun _ _ _ _ _ h1 h2 _ => ⟨h1, h2⟩)
  exact ⟨r, n, i, w', h1, eraseIterN_sim _ _ _ trivial h1, h2, h3⟩

/-- C122: every way of inserting a node (unique or equivalent, with or without a hint) links it at a free place of the tree
with `rb_tree_insert_and_rebalance`; whatever the place, this makes at most two rotations and `log2(n+1)` passes. -/
theorem tree_link_rotations {o i : Nat} {ctx : Ctx K} {nx : TNode K} {k : K} (h : Tree w.heap s o (plug ctx .nil))
    (hfree : w.heap (.dyn i) = none) (hv : nx.val = some k) (ho : nx.owner = o) (hc : nx.count = 0) :
    ∃ rot passes w', Runs (insertAndRebalanceN (isL ctx) (.dyn i) (par s ctx) s) (w.setHeap (upd w.heap (.dyn i) (some nx))) (rot, passes) w' ∧
      Runs (insertAndRebalance (isL ctx) (.dyn i) (par s ctx) s) (w.setHeap (upd w.heap (.dyn i) (some nx))) () w' ∧
      rot ≤ 2 ∧ passes ≤ Nat.log2 ((plug ctx (T.nil : T K)).nodes.length + 1) := by
  obtain ⟨⟨n, j⟩, w', h1, h2, h3⟩ := wp.runs (m := insertAndRebalanceN (isL ctx) (.dyn i) (par s ctx) s) (s := w.setHeap (upd w.heap (.dyn i) (some nx)))
    (Q := fun a _ => a.1 ≤ 2 ∧ a.2 ≤ Nat.log2 ((plug ctx (T.nil : T K)).nodes.length + 1))
    (wp_insertAndRebalanceN h _ rfl hfree hv ho hc fun _ _ _ _ _ _ h1 h2 _ => ⟨h1, h2⟩)
  exact ⟨n, j, w', h1, insertAndRebalanceN_sim _ _ _ trivial h1, h2, h3⟩

/-- The four-element object of `fdemo`: erasing its third element makes at most three rotations and four passes. -/
example : ∃ (w w' : W (Nat × Nat)) (p : Ptr) (r : Ptr) (n i : Nat), FReach pairLt w ∧ Alive w (.stk 0) ∧
    Runs (eraseIterN (.stk 0) p) w (r, n, i) w' ∧ n ≤ 3 ∧ i ≤ 4 := by
  obtain ⟨w, L, M, hr, -, ha, -, hc, -, hL, -⟩ := fdemo 7
  match L, hL, hc with
  | [], hL, _ | [_], hL, _ | [_, _], hL, _ | [_, _, _], hL, _ | _ :: _ :: _ :: _ :: _ :: _, hL, _ => simp at hL
  | [a, b, c, d], _, hc =>
    obtain ⟨r, n, i, w', h1, -, h2, h3⟩ := tree_erase_rotations (p := c) hr ha hc (by simp)
    exact ⟨w, w', c.1, r, n, i, hr, ha, h1, h2, by
      have e : Nat.log2 4 = 2 := by decide
      simp only [List.length_cons, List.length_nil] at h3
      rw [show 0 + 1 + 1 + 1 + 1 = 4 from rfl, e] at h3
      exact h3⟩

/-- The same object: inserting (2,2) makes at most two rotations and two passes. -/
example : ∃ (w w' : W (Nat × Nat)) (r : Ptr × Bool) (n i : Nat), FReach pairLt w ∧ Alive w (.stk 0) ∧
    Runs (insertUniqueN pairLt (.stk 0) (2, 2)) (ready w) (r, n, i) w' ∧ n ≤ 2 ∧ i ≤ 2 := by
  obtain ⟨w, L, M, hr, -, ha, -, hc, -, hL, -⟩ := fdemo 7
  have hlen : L.length = 4 := by rw [← List.length_map (f := Prod.snd), hL]; rfl
  obtain ⟨r, n, i, w', h1, -, h2, h3⟩ := tree_insert_rotations (v := (2, 2)) hr ha hc
  rw [hlen] at h3
  exact ⟨w, w', r, n, i, hr, ha, h1, h2, h3⟩

/-- Linking a node into the object at `.stk 1` of `fdemo`, left of its only element. -/
example : ∃ (w : W (Nat × Nat)) (o i : Nat) (ctx : Ctx (Nat × Nat)) (nx : TNode (Nat × Nat)), FReach pairLt w ∧ Tree w.heap (.stk 1) o (plug ctx .nil) ∧
    w.heap (.dyn i) = none ∧ nx.val = some (4, 0) ∧ nx.owner = o ∧ nx.count = 0 ∧ ctx.length = 1 := by
  obtain ⟨w, L, M, hr, hg, -, ha, -, hc, -, hM, -⟩ := fdemo 7
  obtain ⟨o, t, ht, rfl⟩ := hr.tree ha hc
  obtain ⟨a, -, hf⟩ : ∃ a, w.env.addr w.nAlloc = some a ∧ w.heap (.dyn a) = none := by
    obtain ⟨a, h⟩ := hg.some w.nAlloc
    refine ⟨a, h, Classical.byContradiction fun hne => ?_⟩
    obtain ⟨j, hj, hj2⟩ := hg.past a hne
    have := hg.inj j w.nAlloc (hj2.trans h.symm)
    omega
  cases t with
  | nil => simp [T.nodes] at hM
  | node p c l k r =>
    have hl : l = .nil := by cases l with
      | nil => rfl
      | node =>
        have := congrArg List.length hM
        simp [T.nodes] at this
        omega
    subst hl
    exact ⟨w, o, a, [⟨.L, p, c, k, r⟩], { color := .red, parent := .null, left := .null, right := .null, val := some (4, 0), owner := o, count := 0 }, hr, ht, hf, rfl, rfl, rfl, rfl⟩

end Nestl.Full
