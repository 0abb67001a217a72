import Verif.TreeOf.Props
import Verif.TreeOf.Asks
import Verif.Full.IterCost
import Verif.RBTree.RotOps
import Verif.NodeOf.Does
set_option autoImplicit false
/-
C125: links followed by iterators of trees of objects, and rotations and passes of the rebalancing loops when objects are inserted
and erased.
-/
namespace Nestl.TO
open Nestl.VO (Elem ElemOps boxOps)
open Nestl.NO
open Nestl.RB (TNode T Tree W firstP incrementN decrementN insertAndRebalanceN rebalanceForEraseN)
open Nestl.Set (Alive contents_iff)
open Nestl.Full (forward forwardN backward backwardN step_tree forward_tree backward_tree all_tree FCall)
variable {S A X : Type} {E : Elem S A X}

/-! ### Model -/

section
variable (less : Ptr → Ptr → M S Bool)

/-- Linking a node that is ready: rbt.hpp:1416-1421 (as `linkNode`).  Also returns the rotations and the passes of the loop. -/
def linkNodeN {K : Type} (insertLeft : Bool) (hdr p l : Ptr) : M (W K) (Ptr × Nat × Nat) := do
  let n ← insertAndRebalanceN insertLeft l p hdr
  RB.setCount hdr (· + 1)
  pure (l, n)

/-- `m_insert_`: rbt.hpp:1405-1422 (as `insert_`). -/
def insertN_ (E : ElemOps S) (hdr x p : Ptr) (a : Arg) : M (ST S) (Ptr × Nat × Nat) := do
  let insertLeft ← (if x ≠ .null then pure true else if p = hdr then pure true
    else do compare less (theArg a) (← keyOf p))
  let l ← createNode E hdr a
  if (← failed) then pure (hdr, 0, 0) else onO (linkNodeN insertLeft hdr p l)

/-- `m_insert_unique`: rbt.hpp:1776-1791; `set::insert_nothrow`: set.hpp:312-326 (as `insertUnique`). -/
def insertUniqueN (E : ElemOps S) (hdr : Ptr) (a : Arg) : M (ST S) ((Ptr × Bool) × Nat × Nat) := do
  let (x, p) ← getInsertUniquePos less hdr (theArg a)
  if p ≠ .null then
    let r ← insertN_ less E hdr x p a
    pure ((r.1, true), r.2)
  else pure ((x, false), 0, 0)

/-- `m_erase_aux(position)`: rbt.hpp:2142-2149 (as `eraseAux`). -/
def eraseAuxN (E : ElemOps S) (hdr z : Ptr) : M (ST S) (Nat × Nat) := do
  let y ← onO (rebalanceForEraseN z hdr)
  destroyNode E hdr y.1
  onO (RB.setCount hdr (· - 1))
  pure y.2

/-- `erase(const_iterator)`: rbt.hpp:1191-1207; set.hpp:328-333 (as `eraseIter`). -/
def eraseIterN (E : ElemOps S) (hdr z : Ptr) : M (ST S) (Ptr × Nat × Nat) := do
  let r ← onO (RB.increment z)
  let n ← eraseAuxN E hdr z
  pure (r, n)

end

/-! ### The counted programs do what the others do -/

theorem sim_onO {α β : Type} {m : M (W Ptr) α} {n : M (W Ptr) β} {f : α → β} (h : RB.Sim (fun _ => True) m n f) :
    RB.Sim (fun _ => True) (onO m : M (ST S) α) (onO n) f := by
  intro s a s' _ hr
  obtain ⟨o, h1, rfl⟩ := of_onO hr
  exact runs_onO (h _ _ _ trivial h1)

theorem rebalanceForEraseN_sim {K : Type} {hdr z : Ptr} :
    RB.Sim (fun _ => True) (rebalanceForEraseN z hdr : M (W K) _) (RB.rebalanceForErase z hdr) Prod.fst := by
  unfold rebalanceForEraseN RB.rebalanceForErase
  refine .same fun _ => .same fun _ => .ite (fun _ => ?_) fun _ => .pure rfl
  refine .bind (g := Prod.fst) (fun w a w' _ h => RB.eraseFixN_sim hdr a.2.2 _ _ w a w' rfl h) fun _ => ?_
  exact .ite (fun _ => .same fun _ => .pure rfl) fun _ => .pure rfl

theorem linkNodeN_sim {K : Type} {b : Bool} {hdr p l : Ptr} : RB.Sim (fun _ => True) (linkNodeN b hdr p l : M (W K) _) (linkNode b hdr p l) Prod.fst := by
  unfold linkNodeN linkNode
  exact .bind (g := fun _ => ()) RB.insertAndRebalanceN_sim fun _ => .same fun _ => .pure rfl

theorem insertUniqueN_sim {less : Ptr → Ptr → M S Bool} {E : ElemOps S} {hdr : Ptr} {a : Arg} :
    RB.Sim (fun _ => True) (insertUniqueN less E hdr a) (insertUnique less E hdr a) Prod.fst := by
  unfold insertUniqueN insertUnique insertN_ insert_
  refine .same fun _ => .ite (fun _ => .bind (g := Prod.fst) ?_ fun _ => .pure rfl) fun _ => .pure rfl
  exact .same fun _ => .same fun _ => .same fun _ => .ite (fun _ => .pure rfl) fun _ => sim_onO linkNodeN_sim

theorem eraseIterN_sim {E : ElemOps S} {hdr z : Ptr} : RB.Sim (fun _ => True) (eraseIterN E hdr z) (eraseIter E hdr z) Prod.fst := by
  unfold eraseIterN eraseIter eraseAuxN eraseAux
  refine .same fun _ => .bind (g := fun _ => ()) ?_ fun _ => .pure rfl
  exact .bind (g := Prod.fst) (sim_onO rebalanceForEraseN_sim) fun _ => .same fun _ => .last (P' := fun _ => True) (f' := fun _ => ()) (fun _ _ _ _ h => h) (fun _ _ => trivial) fun _ => rfl

/-! ### Trees of objects and of values -/

theorem n_rotG (s : RB.Side) (hdr x : Ptr) : Both (RB.rotG s hdr x) A fun _ => True := by
  cases s
  · exact n_rotateLeft _ _
  · exact n_rotateRight _ _

theorem n_insFixN (hdr x : Ptr) : Both (RB.insFixN hdr x) A fun _ => True := by
  revert x
  refine RB.insFixN.fixpoint_induct (K := A) hdr (motive := fun n => ∀ x, NSim (RB.insFixN hdr x : M (W Ptr) (Nat × Nat)) (n x) fun _ => True) ?_ ?_
  · exact NSim.admissible1 _ _
  · intro g ih x
    rw [RB.insFixN]
    repeat (first | nstep2 | refine NSim.bind (n_rotG _ _ _) fun _ _ => ?_ | refine NSim.bind (ih _) fun _ _ => ?_)

theorem n_insertAndRebalanceN (b : Bool) (x p hdr : Ptr) : Both (insertAndRebalanceN b x p hdr) A fun _ => True := by
  unfold Both insertAndRebalanceN
  exact .bind (n_insLink _ _ _ _) fun _ _ => .bind (n_insFixN _ _) fun _ _ => .rd fun _ _ => .bind (n_setColor _ _) fun _ _ => .pure trivial

theorem n_linkNodeN (b : Bool) (hdr p l : Ptr) : Both (linkNodeN b hdr p l) A fun _ => True :=
  .bind (n_insertAndRebalanceN _ _ _ _) fun _ _ => .bind (n_setCount _ _) fun _ _ => .pure trivial

section
variable {P P1 : ST S → Prop} {a : Arg} {v : A} {less : Ptr → Ptr → M S Bool} {lt : A → A → Bool} (hl : Compares E less lt)
  (hP : NO.Grows E P) (hP1 : Stable P1) (hc : Ctor E P a v P1) (hk : ∀ s, P s → Knows E (theArg a) v s)
include hl hP hP1 hc hk

theorem s_insertN_ (hdr x p : Ptr) : NO.Sim E P (insertN_ less E.toElemOps hdr x p a) (RB.insertN_ lt hdr x p v) fun _ => Tried P P1 := by
  refine .bind (Q := fun _ => P) (.ite (fun _ => .pure _ fun _ h => h) fun _ => .ite (fun _ => .pure _ fun _ h => h) fun _ => ?_) fun b => ?_
  · exact (q_cmpL0 hl hP.calm hk).sim
  · refine .bind (s_createNode hP hP1 hc hdr) fun z => .bind .failed fun _ => .ite (fun hb => .pure _ fun s h => h.1) fun hb => ?_
    exact (((n_linkNodeN _ _ _ _).quiet' (Tried.stable hP.stable hP1)).sim).weaken (fun _ h => h.1) fun _ _ h => h

theorem s_insertUniqueN (hdr : Ptr) : NO.Sim E P (insertUniqueN less E.toElemOps hdr a) (RB.insertUniqueN lt hdr v) fun _ _ => True := by
  refine .bind (q_getInsertUniquePos hl hP.calm hk hdr).sim ?_
  rintro ⟨x, p⟩
  exact .ite (fun _ => .bind (s_insertN_ hl hP hP1 hc hk hdr x p) fun _ => .pure _ fun _ _ => trivial) fun _ => .pure _ fun _ _ => trivial

end

variable {s : ST S} {t : Ptr} {L : List (Ptr × Ptr)}

/-- C125: one `++` from an element of a tree of `n` objects follows at most `2 log2(n+1) + 1` links, and one `--` at most
`2 log2(n+1)`; neither looks at the objects. -/
theorem treeOf_iterator_step {B C : List (Ptr × Ptr)} {p : Ptr × Ptr} (hr : Reach E s) (ha : Alive s.o t) (hL : Objs s t (B ++ p :: C)) :
    (∃ n, Runs (onO (incrementN p.1)) s (firstP t C, n) s ∧ Runs (onO (RB.increment p.1)) s (firstP t C) s ∧
      n ≤ 2 * Nat.log2 ((B ++ p :: C).length + 1) + 1) ∧
    ∃ n, Runs (onO (decrementN (firstP t C))) s (p.1, n) s ∧ Runs (onO (RB.decrement (firstP t C))) s p.1 s ∧
      n ≤ 2 * Nat.log2 ((B ++ p :: C).length + 1) := by
  obtain ⟨i, a, v, rfl, -, ht, -⟩ := hr.inv.outer.tree ha
  obtain ⟨⟨n, h1, h2, h3⟩, m, h4, h5, h6⟩ := step_tree ht ((contents_iff ht).1 hL)
  exact ⟨⟨n, runs_onO h1, runs_onO h2, h3⟩, m, runs_onO h4, runs_onO h5, h6⟩

/-- C125: from any position, `m` successive `++` or `--` follow `2 m` links up to `4 log2(n+1)`, and change nothing. -/
theorem treeOf_iterate {B C D : List (Ptr × Ptr)} (hr : Reach E s) (ha : Alive s.o t) (hL : Objs s t (B ++ (C ++ D))) :
    (∃ n, Runs (onO (forwardN C.length (firstP t (C ++ D)))) s (firstP t D, n) s ∧
      Runs (onO (forward C.length (firstP t (C ++ D)))) s (firstP t D) s ∧
      n ≤ 2 * C.length + 4 * Nat.log2 ((B ++ (C ++ D)).length + 1) ∧ 2 * C.length ≤ n + 4 * Nat.log2 ((B ++ (C ++ D)).length + 1)) ∧
    ∃ n, Runs (onO (backwardN C.length (firstP t D))) s (firstP t (C ++ D), n) s ∧
      Runs (onO (backward C.length (firstP t D))) s (firstP t (C ++ D)) s ∧
      n ≤ 2 * C.length + 4 * Nat.log2 ((B ++ (C ++ D)).length + 1) ∧ 2 * C.length ≤ n + 4 * Nat.log2 ((B ++ (C ++ D)).length + 1) := by
  obtain ⟨i, a, v, rfl, -, ht, -⟩ := hr.inv.outer.tree ha
  have hn := (contents_iff ht).1 hL
  obtain ⟨n, h1, h2, h3⟩ := forward_tree ht hn
  obtain ⟨m, h4, h5, h6⟩ := backward_tree ht hn
  exact ⟨⟨n, runs_onO h1, runs_onO h2, h3⟩, m, runs_onO h4, runs_onO h5, h6⟩

/-- C125: a pass over all `n` objects of a tree, from `begin()` to `end()` or back, follows at most `2 n` links. -/
theorem treeOf_iterate_all (hr : Reach E s) (ha : Alive s.o t) (hL : Objs s t L) :
    Runs (onO (RB.begin_ t)) s (firstP t L) s ∧ Runs (onO (RB.end_ t)) s t s ∧
    (∃ n, Runs (onO (forwardN L.length (firstP t L))) s (t, n) s ∧
      Runs (onO (forward L.length (firstP t L))) s t s ∧ n ≤ 2 * L.length ∧ 2 * L.length ≤ n + 2 * Nat.log2 (L.length + 1)) ∧
    ∃ n, Runs (onO (backwardN L.length t)) s (firstP t L, n) s ∧
      Runs (onO (backward L.length t)) s (firstP t L) s ∧ n ≤ 2 * L.length ∧ 2 * L.length ≤ n + 4 * Nat.log2 (L.length + 1) := by
  obtain ⟨i, a, v, rfl, -, ht, -⟩ := hr.inv.outer.tree ha
  obtain ⟨h0, h1, ⟨n, h2, h3, h4⟩, m, h5, h6, h7⟩ := all_tree ht ((contents_iff ht).1 hL)
  exact ⟨runs_onO h0, runs_onO h1, ⟨n, runs_onO h2, runs_onO h3, h4⟩, m, runs_onO h5, runs_onO h6, h7⟩

/-- C125: erasing an element of a tree of `n` objects makes at most three rotations and `2 log2(n)` passes of the rebalancing
loop, whatever the class of the objects. -/
theorem treeOf_erase_rotations {p : Ptr × Ptr} (hr : Reach E s) (ha : Alive s.o t) (hL : Objs s t L) (hp : p ∈ L)
    (hv : Valid E s (.eraseAt t p.1 : Call S A)) :
    ∃ r rot passes s', Runs (eraseIterN E.toElemOps t p.1) (ready s) (r, rot, passes) s' ∧
      Runs (exec E.toElemOps (.eraseAt t p.1 : Call S A)) (ready s) (.pos r) s' ∧ rot ≤ 3 ∧ passes ≤ 2 * Nat.log2 L.length := by
  obtain ⟨r0, s', h0, -⟩ := treeOf_calls_safe hr hv
  obtain ⟨r, s1, h1, h2⟩ := VO.runs_bind_iff.1 h0
  cases h2
  obtain ⟨r', s2, k1, k2⟩ := VO.runs_bind_iff.1 h1
  obtain ⟨u, s3, k3, k4⟩ := VO.runs_bind_iff.1 k2
  cases k4
  obtain ⟨o2, k1', rfl⟩ := of_onO k1
  obtain ⟨y, s4, k5, k6⟩ := VO.runs_bind_iff.1 k3
  obtain ⟨o4, k5', rfl⟩ := of_onO k5
  obtain ⟨u2, s5, k7, k8⟩ := VO.runs_bind_iff.1 k6
  obtain ⟨i, a, v, rfl, -, ht, -⟩ := hr.inv.outer.tree ha
  obtain rfl := (contents_iff ht).1 hL
  obtain ⟨p, q⟩ := p
  obtain ⟨B, C, hn⟩ := List.append_of_mem hp
  obtain ⟨ctx, c, l, r1, rfl, hB, hC, hz⟩ := ht.toZ' hn
  have hst := (step_tree (w := (ready s).o) (p := (p, q)) (A := B) (C := C) ht hn.symm).1
  obtain ⟨-, -, hst, -⟩ := hst
  obtain ⟨rfl, rfl⟩ := Runs.det k1' hst
  obtain ⟨⟨z, n, j⟩, o5, e1, e2, e3⟩ := wp.runs (m := rebalanceForEraseN p (.stk i)) (s := (ready s).o)
    (Q := fun b _ => b.2.1 ≤ 3 ∧ b.2.2 ≤ 2 * Nat.log2 (RB.plug ctx (.node p c l q r1)).nodes.length)
    (RB.wp_rebalanceForEraseN ht fun _ _ _ _ _ h1 h2 _ _ _ _ _ _ _ => ⟨h1, h2⟩)
  obtain ⟨rfl, rfl⟩ := Runs.det k5' (rebalanceForEraseN_sim _ _ _ trivial e1)
  refine ⟨_, n, j, _, ?_, h0, e2, e3⟩
  exact VO.runs_bind_iff.2 ⟨_, _, k1, VO.runs_bind_iff.2 ⟨(n, j), _, VO.runs_bind_iff.2 ⟨(_, n, j), _, runs_onO e1,
    VO.runs_bind_iff.2 ⟨_, _, k7, VO.runs_bind_iff.2 ⟨_, _, k8, rfl⟩⟩⟩, rfl⟩⟩

/-- C125: inserting a copy or a moved object into a set of `n` objects makes at most two rotations and `log2(n+1)` passes of the
rebalancing loop, whatever the class of the objects, the comparator and the failures. -/
theorem treeOf_insert_rotations {ord : Order S A} {a : Arg} (hr : Reach E s) (hL : Objs s t L)
    (hv : Valid E s (.insert ord .plain t a)) :
    ∃ r rot passes s', Runs (insertUniqueN ord.less E.toElemOps t a) (ready s) (r, rot, passes) s' ∧
      Runs (exec E.toElemOps (.insert ord .plain t a)) (ready s) (.ins r.1 r.2) s' ∧ rot ≤ 2 ∧ passes ≤ Nat.log2 (L.length + 1) := by
  have hI := hr.inv
  have ha : Alive s.o t := hv.1
  obtain ⟨c', x, hx, -⟩ := hv.means
  have hR := hI.ready.rel
  obtain ⟨L2, k1, k2⟩ := contents_lift hR hI.ready.outer ha (contents_ready hI.outer ha hL)
  have ha' : Alive (absW E (TO.ready s)) t := by
    obtain ⟨i, hi, h⟩ := ha
    exact ⟨i, hi, fun e => h ((hR.same.none _).1 e)⟩
  obtain ⟨i, b, v, rfl, -, ht, -⟩ := (inv_lift hR hI.ready.outer).tree ha'
  obtain rfl := (contents_iff ht).1 k1
  have hw : ∀ cc, wp (RB.insertUniqueN ord.lt (.stk i) x) (oracle (absW E (TO.ready s)) cc) fun a _ => a.2.1 ≤ 2 ∧ a.2.2 ≤ Nat.log2 (v.nodes.length + 1) :=
    fun cc => RB.wp_insertUniqueN (w := oracle (absW E (TO.ready s)) cc) (by exact ht) rfl fun _ _ _ _ h1 h2 _ => ⟨h1, h2⟩
  have hsim : ∃ P : ST S → Prop, P (TO.ready s) ∧
      NO.Sim E P (insertUniqueN ord.less E.toElemOps (.stk i) a) (RB.insertUniqueN ord.lt (.stk i) x) fun _ _ => True := by
    have hcmp := hv.2.2.2.2.2 ord rfl
    cases a with
    | none => exact hv.2.1.1.elim
    | obj q =>
      have hG : NO.Grows E (Knows (N := TNode) E q x) := Knows.grows
      exact ⟨_, hx, s_insertUniqueN (v := x) hcmp hG hG.stable (.copy (a := .obj q) hG fun _ h => h) (fun _ h => h) _⟩
    | mov q =>
      have hx' : (outside E s).1 q = some x := (hI.out (hv.2.2.2.1 q rfl).2).trans hx
      have hL := Keep.loose (N := TNode) (E := E) (u := outside E s)
      have hL1 := Keep.loose (N := TNode) (E := E) (u := movedOut E (outside E s) q)
      exact ⟨NO.Keep E (outside E s), rfl, s_insertUniqueN (v := x) hcmp hL.grows hL1.grows.stable (.move hx') (fun s h => Keep.knows hx' h) _⟩
  obtain ⟨P, hp, hsim⟩ := hsim
  obtain ⟨⟨r, n, j⟩, s', w', e1, e2, -, e4, e5⟩ := hsim (TO.ready s) _ hR hp fun cc _ => by
    obtain ⟨r, w', h1, -⟩ := (hw cc).runs
    exact ⟨r, w', h1⟩
  obtain ⟨h1, h2⟩ := (e5 w'.env.ctor fun _ _ => rfl).wp (hw _)
  refine ⟨r, n, j, s', e1, VO.runs_bind_iff.2 ⟨r, s', insertUniqueN_sim _ _ _ trivial e1, rfl⟩, h1, ?_⟩
  rw [← k2]; exact h2

open Demo in
/-- The tree of two boxes: from its first element, one `++` reaches the second and one `--` returns. -/
example : (∃ n, Runs (onO (incrementN (.dyn 0))) s5 (.dyn 1, n) s5 ∧ n ≤ 3) ∧ ∃ n, Runs (onO (decrementN (.dyn 1))) s5 (.dyn 0, n) s5 ∧ n ≤ 2 := by
  have hL : Objs s5 v ([] ++ (.dyn 0, .stk 2) :: [(.dyn 1, .stk 3)]) := o5
  obtain ⟨⟨n, h1, -, h2⟩, m, h3, -, h4⟩ := treeOf_iterator_step r5 (alive (by decide +kernel)) hL
  exact ⟨⟨n, h1, h2⟩, m, h3, h4⟩

open Demo in
/-- The tree of two boxes: two `++` go from its first element to the end. -/
example : ∃ n, Runs (onO (forwardN 2 (.dyn 0))) s5 (v, n) s5 ∧ n ≤ 4 := by
  obtain ⟨-, -, ⟨n, h1, -, h2, -⟩, -⟩ := treeOf_iterate_all r5 (alive (by decide +kernel)) o5
  exact ⟨n, h1, h2⟩

open Demo in
/-- The tree of two boxes: one `++` from its second element. -/
example : ∃ n, Runs (onO (forwardN 1 (.dyn 1))) s5 (v, n) s5 ∧ n ≤ 6 := by
  have hL : Objs s5 v ([(.dyn 0, .stk 2)] ++ ([(.dyn 1, .stk 3)] ++ [])) := o5
  obtain ⟨⟨n, h1, -, h2, -⟩, -⟩ := treeOf_iterate r5 (alive (by decide +kernel)) hL
  exact ⟨n, h1, h2⟩

open Demo in
/-- Erasing the second of two boxes, and inserting a moved box beside another one. -/
example : (∃ r n i s', Runs (eraseIterN boxOps v (.dyn 1)) (ready s5) (r, n, i) s' ∧ n ≤ 3 ∧ i ≤ 2) ∧
    ∃ r n i s', Runs (insertUniqueN ord.less boxOps v (.mov (.stk 1))) (ready s3) (r, n, i) s' ∧ n ≤ 2 ∧ i ≤ 1 := by
  obtain ⟨r, n, i, s', h1, -, h2, h3⟩ := treeOf_erase_rotations (p := (.dyn 1, .stk 3)) r5 (alive (by decide +kernel)) o5 (by simp) v5e
  obtain ⟨r', n', i', s'', k1, -, k2, k3⟩ := treeOf_insert_rotations r3 o3 v3
  exact ⟨⟨r, n, i, s', h1, h2, h3⟩, r', n', i', s'', k1, k2, k3⟩

end Nestl.TO
