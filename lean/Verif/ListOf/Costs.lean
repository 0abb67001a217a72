import Verif.ListOf.Asks
import Verif.LinkedList.Merge
import Verif.LinkedList.Sort
import Verif.LinkedList.Costs
set_option autoImplicit false
/-
C114, C116 (lists of objects): how often `merge` and `sort` call the comparator; no other call does.
-/
namespace Nestl.LO
open Nestl.VO (Elem ElemOps Boxes boxOps)
open Nestl.NO
open Nestl.LL (LNode Lst Sg)
variable {S A X : Type} {E : Elem S A X} {s s' : ST S} {r : LC.Res} {u v : Ptr} {L L' : List (Ptr × Ptr)} {less : Ptr → Ptr → M S Bool}

theorem lift_len {σ : Sg Ptr} {ls : Lst Ptr} (h : NInv E s σ) (hs : σ u = some ls) (hL : Objs s u L) :
    lift (E.val s.i) σ u = some ⟨ls.alloc, ls.els.filterMap (liftE (E.val s.i))⟩ ∧
      (ls.els.filterMap (liftE (E.val s.i))).length = L.length := by
  refine ⟨by simp [lift, hs], ?_⟩
  obtain rfl := (LC.contents_iff h.outer hs).1 hL
  rw [← lv_length (h.view_live hs), ← lv_view, LC.length_view]

/-- C114 (lists of objects): `u.merge(v, less)` calls the comparator less often than there are elements. -/
theorem listOf_merge_comparisons (hr : Reach E s) (hv : Valid E s (.merge less u v)) (hL : Objs s u L) (hL' : Objs s v L')
    (h : Runs (exec E.toElemOps (.merge less u v)) (ready s) r s') : s'.o.nCmp ≤ s.o.nCmp + (L.length + L'.length - 1) := by
  obtain ⟨σ, hi⟩ := hr.inv
  obtain ⟨c', hm⟩ := hv.means
  obtain ⟨x, hx⟩ := (LC.alive_iff hi.outer).1 hv.1.1
  obtain ⟨y, hy⟩ := (LC.alive_iff hi.outer).1 hv.1.2.1
  obtain ⟨w, w', hi', h1, hv', -, -, -, e1, e2⟩ := hi.ready.valued rfl (LC.valid_ready hi.outer hv.1) hm (fun q hq => hq.elim) h
  obtain ⟨lt, -, rfl⟩ := hm
  obtain ⟨k1, k2⟩ := lift_len hi hx hL
  obtain ⟨k3, k4⟩ := lift_len hi hy hL'
  obtain ⟨a, w1, h2, h3⟩ := runs_steps h1
  cases h3
  have := Runs.wp (LL.wp_merge lt hi'.ready k1 k3 hv.1.2.2.2 (Q := fun _ w' => w'.nCmp ≤ (LC.ready w).nCmp + (L.length + L'.length - 1))
    (fun w' ha _ _ _ => by have := ha.cmps; simp only [k2, k4] at this; omega)) h2
  rw [← e2, show s.o.nCmp = (LC.ready w).nCmp from e1.symm]
  exact this

/-- C114 (lists of objects): `u.sort(less)` calls the comparator at most `2 n log2 n` times. -/
theorem listOf_sort_comparisons (hr : Reach E s) (hv : Valid E s (.sort less u)) (hL : Objs s u L)
    (h : Runs (exec E.toElemOps (.sort less u)) (ready s) r s') : s'.o.nCmp ≤ s.o.nCmp + 2 * L.length * Nat.log2 L.length := by
  obtain ⟨σ, hi⟩ := hr.inv
  obtain ⟨c', hm⟩ := hv.means
  obtain ⟨x, hx⟩ := (LC.alive_iff hi.outer).1 hv.1.1
  obtain ⟨w, w', hi', h1, hv', -, -, -, e1, e2⟩ := hi.ready.valued rfl (LC.valid_ready hi.outer hv.1) hm (fun q hq => hq.elim) h
  obtain ⟨lt, -, rfl⟩ := hm
  obtain ⟨k1, k2⟩ := lift_len hi hx hL
  obtain ⟨a, w1, h2, h3⟩ := runs_steps h1
  cases h3
  obtain ⟨-, L2, hL2, hlen⟩ := hv.1
  have hlen : L.length < 2 ^ 64 := by
    rw [(LC.contents_iff hi.outer hx).1 hL, ← (LC.contents_iff hi.outer hx).1 hL2]; exact hlen
  have := Runs.wp (LL.wp_sort lt hi'.ready k1 (by rw [k2]; exact hlen)
    (Q := fun _ w' => w'.nCmp ≤ (LC.ready w).nCmp + 2 * L.length * Nat.log2 L.length)
    (fun w' _ ha _ _ _ _ => by have := ha.cmps; simp only [k2] at this; omega)) h2
  rw [← e2, show s.o.nCmp = (LC.ready w).nCmp from e1.symm]
  exact this

open Demo in
/-- Merging the list of three boxes into the empty list needs at most two comparisons. -/
example : ∃ r s', Runs (exec boxOps (.merge boxLess Demo.u Demo.v)) (ready s6) r s' ∧ s'.o.nCmp ≤ s6.o.nCmp + 2 := by
  have hv : Valid Elem.box s6 (.merge boxLess Demo.u Demo.v) := v_merge (a := 0)
    ⟨alive (by decide +kernel), hasAlloc r6 (alive (by decide +kernel)) (by decide +kernel)⟩
    ⟨alive (by decide +kernel), hasAlloc r6 (alive (by decide +kernel)) (by decide +kernel)⟩ (by decide)
  obtain ⟨r, h⟩ := runs_box r6 hv
  exact ⟨r, _, h, listOf_merge_comparisons r6 hv (L := []) (objs r6 (alive (by decide +kernel)) (by decide +kernel)) o6 h⟩

open Demo in
/-- The list of three boxes: sorting it needs at most six comparisons. -/
example : s7.o.nCmp ≤ s6.o.nCmp + 6 := by
  obtain ⟨_, h6⟩ := run6
  exact listOf_sort_comparisons r6 v6 o6 h6

/-- C116 (lists of objects): calls other than `merge` and `sort` call no comparator, whether they succeed or fail. -/
theorem listOf_no_comparisons {c : Call S} (hr : Reach E s) (hv : Valid E s c) (hc : LC.Unordered c.addr)
    (h : Runs (exec E.toElemOps c) (ready s) r s') : s'.o.nCmp = s.o.nCmp := by
  obtain ⟨σ, hi⟩ := hr.inv
  obtain ⟨c', hm⟩ := hv.means
  obtain ⟨w, w', -, h1, -, -, -, -, e1, e2⟩ := hi.ready.valued rfl (LC.valid_ready hi.outer hv.1) hm
    (fun q hq => hi.out (hv.2.2.1 q hq).2) h
  rw [← e2, show s.o.nCmp = w.nCmp from e1.symm]
  refine LC.list_no_comparisons ?_ h1
  cases c <;> first | exact hc.elim | (obtain rfl := hm; trivial) | (obtain ⟨x, -, rfl⟩ := hm; trivial)

open Demo in
/-- Moving a box to the front of the list and the insertion of a copy that fails call no comparator. -/
example : s4.o.nCmp = s3.o.nCmp ∧ s6.o.err ≠ none ∧ s6.o.nCmp = s5.o.nCmp := by
  obtain ⟨_, h3⟩ := run3
  obtain ⟨_, h5⟩ := run5
  exact ⟨listOf_no_comparisons r3 v3 trivial h3, by decide +kernel, listOf_no_comparisons r5 v5 trivial h5⟩

end Nestl.LO
