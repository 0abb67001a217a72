import Verif.TreeOf.Asks
import Verif.RBTree.Bounds
import Verif.Full.Costs
set_option autoImplicit false
/-
C114, C116 (trees of objects): how often a call on a tree with `n` elements calls the comparator.
-/
namespace Nestl.TO
open Nestl.VO (Elem ElemOps Boxes boxOps)
open Nestl.NO
open Nestl.RB (TNode T Tree)
open Nestl.Set (InvP Alive Contents contents_iff posOf)
open Nestl.Full (FCall FValid fexec)
variable {S A X : Type} {E : Elem S A X} {s s' : ST S} {c : Call S A} {r : Res} {t : Ptr} {L : List (Ptr × Ptr)}

/-- The number of calls of the comparator allowed for an insertion into a tree with `n` elements. -/
def How.limit (n : Nat) : How → Nat
  | .plain => 2 * Nat.log2 (n + 1) + 2
  | .upper | .lower | .hint _ => 2 * Nat.log2 (n + 1) + 3
  | .at _ | .emplace | .emplaceAt _ => 2 * Nat.log2 (n + 1) + 5

/-- The tree in which a call looks for a single key, and the number of calls of the comparator allowed if it has `n` elements. -/
def Call.Limit (n : Nat) (t : Ptr) (k : Nat) : Call S A → Prop
  | .insert _ h v _ => v = t ∧ k = h.limit n
  | .eraseKey _ v _ => v = t ∧ k = 4 * Nat.log2 (n + 1)
  | .find _ v _ => v = t ∧ k = 2 * Nat.log2 (n + 1) + 1
  | _ => False

/-- C114 (trees of objects): `find`, every kind of insertion and `erase(key)` on a tree of `n` objects call the comparator only
`O(log n)` times, whatever the class of the objects and whatever the comparator answers. -/
theorem treeOf_log_comparisons {k : Nat} (hr : Reach E s) (hv : Valid E s c) (hL : Objs s t L) (hk : c.Limit L.length t k)
    (h : Runs (exec E.toElemOps c) (ready s) r s') : s'.o.nCmp ≤ s.o.nCmp + k := by
  obtain ⟨c', w, w', r', hm, hR, -, hI, -, hv', h1, -, -, -, e1, e2⟩ := hr.inv.valued hv h
  have hi := hr.inv
  have he := Full.step_effect hI hv' h1
  rw [← e1, ← e2]
  have e0 : (Set.ready w).nCmp = w.nCmp := rfl
  have hn : ∀ {v : Ptr} {o : Nat} {t0 : T A}, v = t → Alive s.o v → Tree w.heap v o t0 → t0.height ≤ 2 * Nat.log2 (L.length + 1) := by
    rintro v o t0 rfl ha ht
    obtain ⟨L2, k1, k2⟩ := contents_lift hR hi.ready.outer ha (contents_ready hi.outer ha hL)
    have := ht.height_le
    rw [← (contents_iff ht).1 k1, k2] at this
    exact this
  cases c with
  | insert ord m v a =>
    obtain ⟨x, -, rfl⟩ := hm
    obtain ⟨ev, rfl⟩ := hk
    cases m with
    | plain =>
      cases he with
      | multi he =>
        cases he with
        | base he _ =>
          cases he with
          | insertOld ht _ _ _ _ _ _ _ _ hc => have := hn ev hv.1 ht; simp only [How.limit]; omega
          | insertFail ht _ _ _ _ _ _ hc => have := hn ev hv.1 ht; simp only [How.limit]; omega
          | insertNew ht _ _ _ _ _ _ _ hc _ => have := hn ev hv.1 ht; simp only [How.limit]; omega
    | upper =>
      cases he with
      | multi he =>
        cases he with
        | fail ht _ _ _ _ hc => have := hn ev hv.1 ht; simp only [How.limit]; omega
        | new ht _ _ _ _ _ _ _ _ _ hc hc' => have := hn ev hv.1 ht; simp only [How.limit]; omega
    | lower =>
      cases he with
      | multi he =>
        cases he with
        | fail ht _ _ _ _ hc => have := hn ev hv.1 ht; simp only [How.limit]; omega
        | new ht _ _ _ _ _ _ _ _ _ hc hc' => have := hn ev hv.1 ht; simp only [How.limit]; omega
    | hint pos =>
      cases he with
      | multi he =>
        cases he with
        | fail ht _ _ _ _ hc => have := hn ev hv.1.1 ht; simp only [How.limit]; omega
        | new ht _ _ _ _ _ _ _ _ _ hc hc' => have := hn ev hv.1.1 ht; simp only [How.limit]; omega
    | «at» pos =>
      cases he with
      | uniqueOld ht _ _ _ _ _ _ hc => have := hn ev hv.1.1 ht; simp only [How.limit]; omega
      | uniqueFail ht _ _ _ _ hc => have := hn ev hv.1.1 ht; simp only [How.limit]; omega
      | uniqueNew ht _ _ _ _ _ _ _ hc => have := hn ev hv.1.1 ht; simp only [How.limit]; omega
    | emplace =>
      cases he with
      | uniqueOld ht _ _ _ _ _ _ hc => have := hn ev hv.1.1 ht; simp only [How.limit]; omega
      | uniqueFail ht _ _ _ _ hc => have := hn ev hv.1.1 ht; simp only [How.limit]; omega
      | uniqueNew ht _ _ _ _ _ _ _ hc => have := hn ev hv.1.1 ht; simp only [How.limit]; omega
    | emplaceAt pos =>
      cases he with
      | uniqueOld ht _ _ _ _ _ _ hc => have := hn ev hv.1.1 ht; simp only [How.limit]; omega
      | uniqueFail ht _ _ _ _ hc => have := hn ev hv.1.1 ht; simp only [How.limit]; omega
      | uniqueNew ht _ _ _ _ _ _ _ hc => have := hn ev hv.1.1 ht; simp only [How.limit]; omega
  | eraseKey ord v q =>
    obtain ⟨x, -, rfl⟩ := hm
    obtain ⟨ev, rfl⟩ := hk
    cases he with
    | multi he =>
      cases he with
      | base he _ =>
        cases he with
        | eraseKey ht _ _ _ _ _ _ _ hc => have := hn ev hv.1 ht; omega
  | find ord v q =>
    obtain ⟨x, -, rfl⟩ := hm
    obtain ⟨ev, rfl⟩ := hk
    cases he with
    | multi he =>
      cases he with
      | base he _ =>
        cases he with
        | findNone ht _ _ _ _ _ _ hc => have := hn ev hv.1 ht; omega
        | findSome ht _ _ _ _ _ _ hc => have := hn ev hv.1 ht; omega
  | _ => exact hk.elim

open Demo in
/-- Moving a second box into `v` calls the comparator at most four times; the emplacement that fails at most five times. -/
example : s4.o.nCmp ≤ s3.o.nCmp + 4 ∧ s6.o.nCmp ≤ s5.o.nCmp + 5 :=
  ⟨treeOf_log_comparisons r3 v3 o3 ⟨rfl, rfl⟩ run3, treeOf_log_comparisons r5 v5 o5u ⟨rfl, rfl⟩ run5⟩

/-- C116 (trees of objects): calls that do not look for a key (creating, emptying, copying, moving, exchanging, assigning and
destroying trees, and erasing elements given by iterators) call no comparator, whether they succeed or fail. -/
theorem treeOf_no_comparisons (hr : Reach E s) (hv : Valid E s c) (hc : Full.Unordered c.addr)
    (h : Runs (exec E.toElemOps c) (ready s) r s') : s'.o.nCmp = s.o.nCmp := by
  obtain ⟨c', w, w', r', hm, -, -, -, -, -, h1, -, -, -, e1, e2⟩ := hr.inv.valued hv h
  rw [← e1, ← e2]
  refine Full.tree_no_comparisons ?_ h1
  cases c with
  | insert ord k v a => cases k <;> exact hc.elim
  | eraseKey ord v t => exact hc.elim
  | eraseKeys ord v ts => exact hc.elim
  | find ord v t => exact hc.elim
  | _ => obtain rfl := hm; exact hc

/-- C116 (trees of objects): erasing the `m` keys of an array from a tree of `n` objects calls the comparator at most
`m * 4 log2(n+1)` times. -/
theorem treeOf_erase_keys_comparisons {ord : Order S A} {ts : List Ptr} (hr : Reach E s) (hv : Valid E s (.eraseKeys ord t ts))
    (hL : Objs s t L) (h : Runs (exec E.toElemOps (.eraseKeys ord t ts)) (ready s) r s') :
    s'.o.nCmp ≤ s.o.nCmp + ts.length * (4 * Nat.log2 (L.length + 1)) := by
  obtain ⟨c', w, w', r', hm, hR, -, hI, -, hv', h1, -, -, -, e1, e2⟩ := hr.inv.valued hv h
  have hi := hr.inv
  obtain ⟨xs, hx, rfl⟩ := hm
  obtain ⟨L2, k1, k2⟩ := contents_lift hR hi.ready.outer hv.1 (contents_ready hi.outer hv.1 hL)
  have := Full.erase_keys_cmp hI hv' k1 h1
  have hl : ts.length = xs.length := by simpa using congrArg List.length hx
  rw [← e1, ← e2, hl, ← k2]
  exact this

open Demo in
/-- Exchanging two trees of boxes calls no comparator. -/
example : ∃ r s', Runs (exec boxOps (.swap false u v : Call Boxes Nat)) (ready s5) r s' ∧ s'.o.nCmp = s5.o.nCmp := by
  obtain ⟨B, hB, -⟩ := r5.inv.shows
  obtain ⟨r, s', B', h, -⟩ := r5.inv.call hB v5' (c' := .swap false u v) rfl
  exact ⟨r, s', h, treeOf_no_comparisons r5 v5' trivial h⟩

open Demo in
/-- Erasing the key of a separate box, twice, from a tree of two boxes calls the comparator at most eight times. -/
example : ∃ r s', Runs (exec boxOps (.eraseKeys ord v [.stk 0, .stk 0])) (ready s5) r s' ∧ s'.o.nCmp ≤ s5.o.nCmp + 8 := by
  have hv : Valid Elem.box s5 (.eraseKeys ord v [.stk 0, .stk 0]) :=
    ⟨alive (by decide +kernel), trivial, by intro q hq; rw [show q = .stk 0 by simpa [Call.reads] using hq]; exact live (by decide +kernel),
      fun _ h => h.elim, by intro q hq; rw [show q = .stk 0 by simpa [Call.outer] using hq]; exact notElem r5 (by decide +kernel),
      by rintro o ho; cases ho; exact ord_ok⟩
  obtain ⟨B, hB, -⟩ := r5.inv.shows
  obtain ⟨c', hm⟩ := hv.means
  obtain ⟨r, s', B', h, -⟩ := r5.inv.call hB hv hm
  exact ⟨r, s', h, treeOf_erase_keys_comparisons r5 hv o5 h⟩

end Nestl.TO
