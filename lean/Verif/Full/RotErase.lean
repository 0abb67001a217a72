import Verif.RBTree.RotErase
import Verif.Full.RotAmort
set_option autoImplicit false
/-
C128: the cost of erasing ranges and keys.
-/
namespace Nestl.Full
open Nestl.RB Nestl.Set Nestl.Multi
variable {K : Type} {lt : K → K → Bool} {w w' : W K} {s : Ptr} {L A M B : List (Ptr × K)} {k : K}

/-- C128: erasing a range of `m` elements of a tree of `n` elements makes at most `3 m` rotations and `12 m + 2 n` passes of the
rebalancing loop, and leaves the other elements. -/
theorem tree_erase_range_rotations (hr : FReach lt w) (ha : Alive w s) (hL : Contents w s (A ++ (M ++ B))) :
    ∃ rot passes w', Runs (eraseRangeN s (firstP s (M ++ B)) (firstP s B)) w (firstP s B, rot, passes) w' ∧
      Runs (eraseRange s (firstP s (M ++ B)) (firstP s B)) w (firstP s B) w' ∧ Contents w' s (A ++ B) ∧
      rot ≤ 3 * M.length ∧ passes ≤ 12 * M.length + 2 * (A ++ (M ++ B)).length := by
  obtain ⟨o, t, ht, hn⟩ := hr.tree ha hL
  have hphi := phi_le t
  obtain ⟨rot, i, w', t', h1, h2, h3, h4, h5, h6⟩ := eraseRangeN_runs ht hn.symm
  exact ⟨rot, i, w', h1, h2, (contents_iff h3).2 h4.symm, h5, by rw [hn]; omega⟩

/-- C128: erasing a key makes at most three rotations for every element it erases, and `12` passes for each of them plus twice
the number of elements. -/
theorem tree_erase_key_rotations (hr : FReach lt w) (ha : Alive w s) (hL : Contents w s L) :
    ∃ A M B rot passes w', L = A ++ (M ++ B) ∧ Runs (eraseKeyN lt s k) w (M.length, rot, passes) w' ∧ Runs (eraseKey lt s k) w M.length w' ∧
      Contents w' s (A ++ B) ∧ rot ≤ 3 * M.length ∧ passes ≤ 12 * M.length + 2 * L.length := by
  obtain ⟨o, t, ht, rfl⟩ := hr.tree ha hL
  have hphi := phi_le t
  obtain ⟨A, M, B, rot, i, w', t', h1, h2, hn, h3, h4, h5, h6⟩ := eraseKeyN_runs (lt := lt) (k := k) ht
  exact ⟨A, M, B, rot, i, w', hn, h1, h2, (contents_iff h3).2 h4.symm, h5, by omega⟩

/-- The four-element object of `fdemo`: erasing its two middle elements makes at most six rotations, and erasing a key. -/
example : ∃ (w : W (Nat × Nat)) (a b c d : Ptr × (Nat × Nat)), FReach pairLt w ∧ Alive w (.stk 0) ∧ Contents w (.stk 0) [a, b, c, d] ∧
    (∃ rot i w', Runs (eraseRangeN (.stk 0) b.1 d.1) w (d.1, rot, i) w' ∧ Contents w' (.stk 0) [a, d] ∧ rot ≤ 6) ∧
    ∃ n rot i w', Runs (eraseKeyN pairLt (.stk 0) a.2) w (n, rot, i) w' ∧ rot ≤ 3 * n := by
  obtain ⟨w, L, M, hr, -, ha, -, hc, -, hL, -⟩ := fdemo 7
  match L, hL, hc with
  | [], hL, _ | [_], hL, _ | [_, _], hL, _ | [_, _, _], hL, _ | _ :: _ :: _ :: _ :: _ :: _, hL, _ => simp at hL
  | [a, b, c, d], _, hc =>
    obtain ⟨rot, i, w', h1, -, h2, h3, -⟩ := tree_erase_range_rotations (A := [a]) (M := [b, c]) (B := [d]) hr ha hc
    obtain ⟨A, M', B, rot', i', w'', -, k1, -, -, k2, -⟩ := tree_erase_key_rotations (k := a.2) hr ha hc
    exact ⟨w, a, b, c, d, hr, ha, hc, ⟨rot, i, w', h1, h2, h3⟩, _, rot', i', w'', k1, k2⟩

end Nestl.Full
