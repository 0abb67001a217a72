import Verif.RBTree.Mute
import Verif.RBTree.Bounds
import Verif.Full.Props
set_option autoImplicit false
/-
C116 (trees of values): which calls on trees call no comparator, and how often erasing an array of keys calls it.
-/
namespace Nestl.Full
open Nestl.RB Nestl.Set Nestl.Multi
variable {K : Type} {lt : K → K → Bool} {w w' : W K} {c : FCall K} {r : FRes K} {s : Ptr} {L : List (Ptr × K)}

/-- Calls on trees that do not look for a key: they create, empty, copy, move, exchange, assign or destroy trees, or erase elements
that are given by iterators. -/
def Unordered : FCall K → Prop
  | .multi (.base (.insert _ _)) | .multi (.base (.eraseKey _ _)) | .multi (.base (.find _ _)) | .multi (.equal _ _ _) => False
  | .multi (.base _) | .swap _ _ _ | .assign _ _ _ => True
  | .eraseKeys _ _ | .unique _ _ _ => False

theorem mute_index (c : MCall K) : Mute (index c) := by
  unfold index
  split
  · exact .pure _
  · exact .bind (Mute.begin_ _) fun _ => .bind (Mute.walkFrom _ _) fun _ => .pure _

/-- C116: calls that do not look for a key call no comparator, whether they succeed or fail. -/
theorem tree_no_comparisons (hc : Unordered c) (h : Runs (fexec lt c) (ready w) r w') : w'.nCmp = w.nCmp := by
  suffices hm : Mute (fexec lt c) from hm (ready w) _ _ h
  cases c with
  | multi c =>
    cases c with
    | base c =>
      refine .bind (.bind (mute_index _) fun _ => .bind ?_ fun _ => .pure _) fun _ => .pure _
      unfold mrun Set.exec
      cases c <;> first | exact hc.elim | mutes
    | equal m s k => exact hc.elim
  | swap prop s t => unfold fexec; mutes
  | assign prop d s => unfold fexec; mutes
  | eraseKeys s ks => exact hc.elim
  | unique m s k => exact hc.elim

theorem log2_mono {a b : Nat} (h : a ≤ b) (ha : a ≠ 0) : Nat.log2 a ≤ Nat.log2 b :=
  (Nat.le_log2 (by omega)).2 (Nat.le_trans (Nat.log2_self_le ha) h)

/-- Erasing the keys of an array one after the other. -/
theorem wp_eraseKeys_cmp {n o : Nat} {u : T K} {ks : List K} (hu : Tree w.heap s o u) (hn : u.nodes.length ≤ n) :
    wp (eraseKeys lt s ks) w fun _ w' => w'.nCmp ≤ w.nCmp + ks.length * (4 * Nat.log2 (n + 1)) := by
  induction ks generalizing w u with
  | nil =>
    unfold eraseKeys
    rw [wp_pure]
    omega
  | cons k ks ih =>
    unfold eraseKeys
    simp only [wp_bind]
    refine wp_eraseKey hu ?_
    intro m H' t1 A M B g1 g2 g3 g4 g5 g6 g7
    have h2 : t1.nodes.length ≤ n := by
      rw [g5]; rw [g2] at hn
      simp only [List.length_append] at hn ⊢
      omega
    refine wp_mono (ih (w := (w.addCmp m).setHeap H') (by exact g4) h2) ?_
    intro _ w' h3
    have h4 : u.height ≤ 2 * Nat.log2 (n + 1) :=
      Nat.le_trans hu.height_le (Nat.mul_le_mul_left 2 (log2_mono (by omega) (by omega)))
    simp only [World.setHeap_nCmp, World.addCmp_nCmp, List.length_cons, Nat.add_mul, Nat.one_mul] at h3 ⊢
    omega

theorem erase_keys_cmp {P : List (Ptr × K) → Prop} {ks : List K} (hI : InvP P w) (ha : Alive w s) (hL : Contents w s L)
    (h : Runs (fexec lt (.eraseKeys s ks)) (ready w) r w') : w'.nCmp ≤ w.nCmp + ks.length * (4 * Nat.log2 (L.length + 1)) := by
  obtain ⟨i, o, u, rfl, _, hu, -⟩ := hI.tree ha
  have e := (contents_iff hu).1 hL
  subst e
  refine Runs.wp (Q := fun _ w' => w'.nCmp ≤ w.nCmp + ks.length * (4 * Nat.log2 (u.nodes.length + 1))) ?_ h
  show wp (eraseKeys lt _ ks >>= fun _ => pure FRes.unit) (ready w) _
  rw [wp_bind]
  refine wp_mono (wp_eraseKeys_cmp (lt := lt) (w := ready w) hu (Nat.le_refl _)) fun _ w' h1 => ?_
  rw [wp_pure]
  exact h1

/-- C116: erasing the `m` keys of an array from a tree of `n` elements calls the comparator at most `m * 4 log2(n+1)` times,
whatever the comparator answers. -/
theorem tree_erase_keys_comparisons {ks : List K} (hr : FReach lt w) (ha : Alive w s) (hL : Contents w s L)
    (h : Runs (fexec lt (.eraseKeys s ks)) (ready w) r w') : w'.nCmp ≤ w.nCmp + ks.length * (4 * Nat.log2 (L.length + 1)) :=
  erase_keys_cmp hr.inv ha hL h

/-- Copying object 0 of `fdemo` over object 1 calls no comparator; erasing two keys of an array from it (it has four elements)
calls it at most sixteen times. -/
example : ∃ w r w' r2 w2, Runs (fexec pairLt (.multi (.base (.copy false (.stk 1) (.stk 0))))) (ready w) r w' ∧ w'.nCmp = w.nCmp ∧
    Runs (fexec pairLt (.eraseKeys (.stk 0) [(2, 9), (8, 8)])) (ready w) r2 w2 ∧ w2.nCmp ≤ w.nCmp + 16 := by
  obtain ⟨w, L, M, hr, hg, h0, h1, hc, -, e, -⟩ := fdemo 7
  obtain ⟨r, w', h2, -, -⟩ := hr.step (c := .multi (.base (.copy false (.stk 1) (.stk 0)))) ⟨h1, h0⟩
  obtain ⟨r2, w2, h3, -, -⟩ := hr.step (c := .eraseKeys (.stk 0) [(2, 9), (8, 8)]) h0
  have hl : L.length = 4 := by simpa using congrArg List.length e
  have := tree_erase_keys_comparisons hr h0 hc h3
  rw [hl] at this
  exact ⟨w, r, w', r2, w2, h2, tree_no_comparisons (c := .multi (.base (.copy false (.stk 1) (.stk 0)))) trivial h2, h3, this⟩

end Nestl.Full
