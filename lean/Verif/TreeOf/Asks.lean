import Verif.TreeOf.PropLemmas
import Verif.TreeOf.Demo
import Verif.Full.Asks
set_option autoImplicit false
/-
C113 (trees of objects): how many nodes a call requests.
-/
namespace Nestl.TO
open Nestl.VO (Elem ElemOps Boxes boxOps)
open Nestl.NO
open Nestl.RB (TNode T Tree)
open Nestl.Set (InvP Alive Contents contents_iff posOf)
open Nestl.Full (FCall FValid fexec AddsNothing InsertsInto AlwaysBuilds)
variable {S A X : Type} {E : Elem S A X} {s s' : ST S} {c : Call S A} {c' : FCall A} {r : Res} {t : Ptr} {L L' : List (Ptr × Ptr)}

theorem AddsNothing.lift {f : Ptr → Option A} {b : A} (hm : c.Means b f c') (h : AddsNothing c.addr) : AddsNothing c' := by
  cases c with
  | insert ord k v a => obtain ⟨x, -, rfl⟩ := hm; cases k <;> exact h
  | eraseKey ord v t => obtain ⟨x, -, rfl⟩ := hm; exact h
  | eraseKeys ord v ts => obtain ⟨x, -, rfl⟩ := hm; exact h
  | find ord v t => obtain ⟨x, -, rfl⟩ := hm; exact h
  | _ => obtain rfl := hm; exact h

theorem InsertsInto.lift {f : Ptr → Option A} {b : A} (hm : c.Means b f c') (h : InsertsInto t c.addr) : InsertsInto t c' := by
  cases c with
  | insert ord k v a => obtain ⟨x, -, rfl⟩ := hm; cases k <;> exact h
  | _ => exact h.elim

theorem AlwaysBuilds.lift {f : Ptr → Option A} {b : A} (hm : c.Means b f c') (h : AlwaysBuilds c.addr) : AlwaysBuilds c' := by
  cases c with
  | insert ord k v a => obtain ⟨x, -, rfl⟩ := hm; cases k <;> exact h
  | _ => exact h.elim

theorem ready_self {V : Type} {w : RB.W V} (h : w.err = none) : Set.ready w = w := by
  cases w; cases h; rfl

/-- The objects of a tree are as many as its values. -/
theorem contents_lift {w : RB.W A} (hR : Rel E s w) (hI : TInv s.o) (hv : Alive s.o t) (hL : Contents s.o t L) :
    ∃ L2 : List (Ptr × A), Contents w t L2 ∧ L2.length = L.length := by
  obtain ⟨k, a, v, rfl, -, ht, -⟩ := hI.tree hv
  obtain ⟨t', h1, h2⟩ := rel_lift hR ht
  rw [(contents_iff ht).1 hL]
  refine ⟨t'.nodes, (contents_iff h2).2 rfl, ?_⟩
  have := congrArg List.length h1.ptrs
  simpa [T.ptrs] using this.symm

/-- The same call on trees of values. -/
theorem contents_ready {w : RB.W Ptr} (hI : TInv w) (hv : Alive w t) (hL : Contents w t L) : Contents (Set.ready w) t L := by
  obtain ⟨k, a, v, rfl, -, ht, -⟩ := hI.tree hv
  exact (contents_iff (w := Set.ready w) ht).2 ((contents_iff ht).1 hL)

theorem NInv.valued (h : NInv E s) (hv : Valid E s c) (hr : Runs (exec E.toElemOps c) (TO.ready s) r s') :
    ∃ (c' : FCall A) (w w' : RB.W A) (r' : Full.FRes A), c.Means E.blank (E.val s.i) c' ∧ Rel E (TO.ready s) w ∧ Rel E s' w' ∧ TInv w ∧ TInv w' ∧
      FValid c.lt w c' ∧ Runs (fexec c.lt c') (Set.ready w) r' w' ∧ w.nAlloc = s.o.nAlloc ∧ w'.nAlloc = s'.o.nAlloc ∧
      (w'.err = none ↔ s'.o.err = none) ∧ w.nCmp = s.o.nCmp ∧ w'.nCmp = s'.o.nCmp := by
  obtain ⟨c', hm⟩ := hv.means
  obtain ⟨h1, h2, h3, h4, h5, h6⟩ := hv
  obtain ⟨B, hB, -⟩ := h.ready.shows
  have hR := h.ready.rel
  have hval : ∀ cc, FValid c.lt (oracle (absW E (TO.ready s)) cc) c' := fun cc =>
    valid_lift (rel_oracle hR cc) h.ready.outer (h1.ready h.outer) h2 hm
  have hall : ∀ cc, wp (vexec c.lt c') (oracle (absW E (TO.ready s)) cc) fun r w' => TInv w' ∧ ∃ B', Abs w' B' ∧ Spec c.lt B c' r w'.err.isSome B' := by
    intro cc
    have hR' := rel_oracle hR cc
    exact vexec_spec (inv_lift hR' h.ready.outer) ((shows_iff hR' h.ready.outer).1 hB) (hval cc) rfl
  obtain ⟨r1, s1, w', k1, k2, k3, k4, k6⟩ := sim_exec (h1.ready h.outer) h2 h6 hm (fun q hq => h.out (h4 q hq).2)
    (fun q hq => h.out (h5 q hq)) (TO.ready s) (absW E (TO.ready s)) hR ⟨rfl, rfl, rfl⟩ (fun cc _ => by
    obtain ⟨r, w', h1, -⟩ := (hall cc).runs
    exact ⟨r, w', h1⟩)
  obtain ⟨rfl, rfl⟩ := Runs.det hr k1
  have h7 := k6 w'.env.ctor fun _ _ => rfl
  have hR' := rel_oracle hR w'.env.ctor
  have hI := inv_lift hR' h.ready.outer
  obtain ⟨r2, w2, h8, -⟩ := (Full.fexec_effectS (S := False) (lt := c.lt) hI (fun _ _ _ _ _ h => h.elim) (hval _) rfl).runs
  have h9 := vexec_runs hI (hval _) h8
  obtain ⟨-, rfl⟩ := Runs.det h7 h9
  obtain ⟨hI', -⟩ := h7.wp (hall _)
  refine ⟨c', _, _, r2, hm, hR', k2, hI, hI', hval _, ?_, rfl, k2.same.nAlloc, ?_, rfl, k2.same.nCmp⟩
  · rw [ready_self rfl]; exact h8
  · have : w'.err.isSome = s'.o.err.isSome := k2.err
    rw [← Option.not_isSome_iff_eq_none, ← Option.not_isSome_iff_eq_none]
    exact not_congr (by rw [← this])

/-- C113 (trees of objects): calls that neither insert an element nor copy another tree request no node and never fail. -/
theorem treeOf_requests_nothing (hr : Reach E s) (hv : Valid E s c) (hc : AddsNothing c.addr)
    (h : Runs (exec E.toElemOps c) (ready s) r s') : s'.o.nAlloc = s.o.nAlloc ∧ s'.o.err = none := by
  obtain ⟨c', w, w', r', hm, -, -, -, -, -, h1, e1, e2, e3, -⟩ := hr.inv.valued hv h
  have := Full.tree_requests_nothing (AddsNothing.lift hm hc) h1
  rw [← e1, ← e2, ← e3]
  exact ⟨this.1, this.2.2⟩

/-- C113 (trees of objects): an insertion of an equal key and every emplacement requests one node, also if an equivalent key is
there already. -/
theorem treeOf_requests_one (hr : Reach E s) (hv : Valid E s c) (hc : AlwaysBuilds c.addr)
    (h : Runs (exec E.toElemOps c) (ready s) r s') :
    s'.o.nAlloc ≤ s.o.nAlloc + 1 ∧ (s'.o.err = none → s'.o.nAlloc = s.o.nAlloc + 1) := by
  obtain ⟨c', w, w', r', hm, -, -, -, -, -, h1, e1, e2, e3, -⟩ := hr.inv.valued hv h
  have := Full.tree_requests_one (AlwaysBuilds.lift hm hc) h1
  rw [← e1, ← e2, ← e3]
  exact ⟨this.1, fun e => (this.2.2 e).1⟩

/-- C113 (trees of objects): `insert` without or with a hint requests at most one node; it requests one exactly if the tree then
has one element more. -/
theorem treeOf_requests_insert (hr : Reach E s) (hv : Valid E s c) (hc : InsertsInto t c.addr) (hL : Objs s t L)
    (h : Runs (exec E.toElemOps c) (ready s) r s') (hL' : Objs s' t L') :
    s'.o.nAlloc ≤ s.o.nAlloc + 1 ∧ (s'.o.err = none → s'.o.nAlloc + L.length = s.o.nAlloc + L'.length) := by
  obtain ⟨c', w, w', r', hm, hR, hR', hI, hI', hv', h1, e1, e2, e3, -⟩ := hr.inv.valued hv h
  have hi := hr.inv
  have hc' := InsertsInto.lift hm hc
  rw [← e1, ← e2, ← e3]
  refine ⟨((Full.once_insert (lt := c.lt) hc').1 (Set.ready w) _ _ h1 rfl).1, fun he => ?_⟩
  obtain ⟨⟨i, hi1, ht⟩, ⟨j, hj1, ht'⟩⟩ := Full.insert_keeps hI hv' hc' h1 he
  have ht : Alive s.o t := ⟨i, hi1, fun e => ht ((hR.same.none _).2 e)⟩
  have ht' : Alive s'.o t := ⟨j, hj1, fun e => ht' ((hR'.same.none _).2 e)⟩
  obtain ⟨L2, k1, k2⟩ := contents_lift hR hi.ready.outer ht (contents_ready hi.outer ht hL)
  obtain ⟨L3, k3, k4⟩ := contents_lift hR' (Reach.inv (.call hr hv h)).outer ht' hL'
  rw [← k2, ← k4]
  exact ((Full.insert_requests hI hv' hc' k1 h1 k3).2.2 he).1

/-- C113 (trees of objects): copying another tree requests a node for each of its elements; a copy that fails requests no more. -/
theorem treeOf_requests_copy {prop : Bool} {d : Ptr} (hr : Reach E s) (hv : Valid E s (.copy prop d t : Call S A)) (hne : d ≠ t)
    (hL : Objs s t L) (h : Runs (exec E.toElemOps (.copy prop d t : Call S A)) (ready s) r s') :
    s'.o.nAlloc ≤ s.o.nAlloc + L.length ∧ (s'.o.err = none → s'.o.nAlloc = s.o.nAlloc + L.length) := by
  obtain ⟨c', w, w', r', hm, hR, hR', hI, hI', hv', h1, e1, e2, e3, -⟩ := hr.inv.valued hv h
  have hi := hr.inv
  obtain rfl := hm
  obtain ⟨L2, k1, k2⟩ := contents_lift hR hi.ready.outer hv.1.2 (contents_ready hi.outer hv.1.2 hL)
  have := Full.copy_requests hI hv' hne k1 h1
  rw [← e1, ← e2, ← e3, ← k2]
  exact ⟨this.1, fun e => (this.2.2 e).1⟩

/-! ### Trees of boxes -/

open Demo in
/-- Erasing an element of `v`, or exchanging the trees, requests nothing. -/
example : ∃ r s' r2 s2, Runs (exec boxOps (.eraseAt v (.dyn 1) : Call Boxes Nat)) (ready s5) r s' ∧ s'.o.nAlloc = s5.o.nAlloc ∧
    Runs (exec boxOps (.swap false u v : Call Boxes Nat)) (ready s5) r2 s2 ∧ s2.o.nAlloc = s5.o.nAlloc := by
  obtain ⟨B, hB, -⟩ := r5.inv.shows
  obtain ⟨r, s', B', h1, -⟩ := r5.inv.call hB v5e (c' := .multi (.base (.eraseAt v (.dyn 1)))) rfl
  obtain ⟨r2, s2, B2, h2, -⟩ := r5.inv.call hB v5' (c' := .swap false u v) rfl
  exact ⟨r, s', r2, s2, h1, (treeOf_requests_nothing r5 v5e trivial h1).1, h2, (treeOf_requests_nothing r5 v5' trivial h2).1⟩

open Demo in
/-- The insertion of an equal key into `u` whose copy fails has requested at most one node. -/
example : s6.o.err ≠ none ∧ s6.o.nAlloc ≤ s5.o.nAlloc + 1 :=
  ⟨by decide +kernel, (treeOf_requests_one r5 v5 trivial run5).1⟩

open Demo in
/-- Moving a box into `v` requests one node: the tree has one element more.  Inserting a key that is there requests none. -/
example : s4.o.nAlloc = s3.o.nAlloc + 1 ∧ (go boxOps (.insert ord .plain v (.obj (.stk 2))) s3).o.nAlloc = s3.o.nAlloc := by
  have h := (treeOf_requests_insert r3 v3 rfl o3 run3 o4).2 (by decide +kernel)
  have h' := (treeOf_requests_insert r3 v3' rfl o3 run3' (L' := [(.dyn 0, .stk 2)])
    (objs (tree1 (o := 0) (by decide +kernel) (by decide +kernel) ⟨_, rfl⟩))).2 (by decide +kernel)
  simp only [List.length_cons, List.length_nil] at h h'
  exact ⟨by omega, by omega⟩

open Demo in
/-- Copying `v`, which has two elements, over `u` requests at most two nodes. -/
example : ∃ r s', Runs (exec boxOps (.copy false u v : Call Boxes Nat)) (ready s5) r s' ∧ s'.o.nAlloc ≤ s5.o.nAlloc + 2 := by
  obtain ⟨B, hB, -⟩ := r5.inv.shows
  obtain ⟨r, s', B', h1, -⟩ := r5.inv.call hB v5'' (c' := .multi (.base (.copy false u v))) rfl
  exact ⟨r, s', h1, (treeOf_requests_copy r5 v5'' (by decide) o5 h1).1⟩

end Nestl.TO
