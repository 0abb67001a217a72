import Verif.RBTree.RotAll
import Verif.Full.RotCost
import Verif.Full.HintProps
set_option autoImplicit false
/-
C126: rotations and passes of all ways to insert an element.
-/
namespace Nestl.Full
open Nestl.RB Nestl.Set Nestl.Multi
variable {K : Type} {lt : K → K → Bool} {w w' : W K} {s : Ptr} {L : List (Ptr × K)}

/-- C126: every way of inserting an element into a tree of `n` elements (unique or equivalent, at its upper or lower end, by
emplacement, with any iterator of the tree as the hint) makes at most two rotations and `log2(n+1)` passes of the rebalancing
loop, also if it fails or finds the key present. -/
theorem tree_insert_any_rotations {v : K} {y : Way} (hr : FReach lt w) (hs : Alive w s) (hL : Contents w s L) (hy : y.Ok lt v s L) :
    ∃ r rot passes w', Runs (insertByN lt s v y) (ready w) (r, rot, passes) w' ∧ Runs (insertBy lt s v y) (ready w) r w' ∧
      rot ≤ 2 ∧ passes ≤ Nat.log2 (L.length + 1) := by
  obtain ⟨o, t, ht, rfl⟩ := hr.tree hs hL
  obtain ⟨⟨r, n, i⟩, w', h1, t', -, h2, h3, -⟩ := wp.runs (wp_insertByN (w := ready w) (by exact ht) hy rfl)
  exact ⟨r, n, i, w', h1, insertByN_sim y _ _ _ trivial h1, h2, h3⟩

-- the four-element object of `fdemo`: all ways to insert (2, 2), with `end()` and with the first element as the hint
example : ∃ (w : W (Nat × Nat)) (p : Ptr) (L : List (Ptr × (Nat × Nat))), FReach pairLt w ∧ Alive w (.stk 0) ∧ Contents w (.stk 0) L ∧
    p ≠ .stk 0 ∧ L.length = 4 ∧
    ∀ y ∈ [Way.plain, .at p, .at (.stk 0), .emplace, .emplaceAt p, .equal, .equalAt p, .upper, .lower, .hint p, .hint (.stk 0)],
      y.Ok pairLt (2, 2) (.stk 0) L ∧ ∃ r n i w', Runs (insertByN pairLt (.stk 0) (2, 2) y) (ready w) (r, n, i) w' ∧ n ≤ 2 ∧ i ≤ 2 := by
  obtain ⟨w, L, M, hr, -, ha, -, hc, -, hL, -⟩ := fdemo 7
  have hlen : L.length = 4 := by rw [← List.length_map (f := Prod.snd), hL]; rfl
  match L, hlen, hc with
  | p :: L', hlen, hc =>
    have hasym : ∀ a : Nat × Nat, pairLt a (2, 2) = true → pairLt (2, 2) a = false := by
      intro a h
      simp only [pairLt, decide_eq_true_eq, decide_eq_false_iff_not] at *
      omega
    have hp : HintOk (.stk 0) p.1 (p :: L') := Or.inr ⟨p.2, by simp⟩
    have he : HintOk (.stk 0) (.stk 0) (p :: L') := Or.inl rfl
    have hne : p.1 ≠ .stk 0 := by
      obtain ⟨o, t, ht, hn⟩ := hr.tree ha hc
      refine ht.node_ne_hdr ?_
      rw [T.ptrs, ← hn]; simp
    refine ⟨w, p.1, p :: L', hr, ha, hc, hne, hlen, fun y hy => ?_⟩
    have hok : y.Ok pairLt (2, 2) (.stk 0) (p :: L') := by
      simp only [List.mem_cons, List.not_mem_nil, or_false] at hy
      rcases hy with rfl | rfl | rfl | rfl | rfl | rfl | rfl | rfl | rfl | rfl | rfl
      all_goals first | exact trivial | exact ⟨hasym, hp⟩ | exact ⟨hasym, he⟩
    obtain ⟨r, n, i, w', h1, -, h2, h3⟩ := tree_insert_any_rotations hr ha hc hok
    rw [hlen] at h3
    exact ⟨hok, r, n, i, w', h1, h2, h3⟩

end Nestl.Full
