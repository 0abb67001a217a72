import Verif.TreeOf.Refs
import Verif.TreeOf.NestDemo
import Verif.TreeOf.Props
import Verif.Report
set_option autoImplicit false
/-
C100, C101 for trees of objects: references and iterators to elements stay valid, and errors have a cause.
-/
namespace Nestl.TO
open Nestl.VO (Elem ElemOps boxOps)
open Nestl.NO
open Nestl.RB (TNode)
open Nestl.Set (Alive)
variable {S A X : Type} {E : Elem S A X} {s s' : ST S} {c : Call S A} {r : Res}

/-- The position `p` of some tree denotes the object `q`: `*p` is `q`. -/
def At (s : ST S) (p q : Ptr) : Prop := ∃ t qs, Alive s.o t ∧ Objs s t qs ∧ (p, q) ∈ qs

theorem createNode_build (E : ElemOps S) (l : Ptr) (a : Arg) : createNode E l a =
    (node l >>= fun n => build (fun junk => { junk with val := none, owner := n.owner, count := 0 }) (RB.putNode l) E a) := rfl

theorem more_createNode (E : ElemOps S) (l : Ptr) (a : Arg) : Does More (createNode E l a) := by
  have hR : Moves (More (N := TNode) (S := S)) := moves_more
  rw [createNode_build]
  exact .bind hR (d_node hR _) fun _ => more_build (fun _ => rfl) fun _ => l_putNode _ _

theorem blame_createNode (E : ElemOps S) (tc : Prop) (l : Ptr) (a : Arg) : Does (Blame E tc) (createNode E l a) := by
  have hR : Moves (Blame (N := TNode) E tc) := moves_blame E tc
  rw [createNode_build]
  exact .bind hR (d_node hR _) fun _ => blame_build fun _ => l_putNode _ _

/-- Every element except the one in the node `z` is still there. -/
def Spare (z : Ptr) (s s' : ST S) : Prop := Typed s.o → Typed s'.o ∧ ∀ p q, p ≠ z → Held s.o p q → Held s'.o p q

theorem moves_spare (z : Ptr) : Moves (Spare (S := S) z) where
  refl _ ht := ⟨ht, fun _ _ _ h => h⟩
  trans s s1 s2 h h' ht := by
    obtain ⟨h1, h2⟩ := h ht
    obtain ⟨h3, h4⟩ := h' h1
    exact ⟨h3, fun p q hp hq => h4 p q hp (h2 p q hp hq)⟩
  link m hm s r s' h ht := by
    obtain ⟨o, h1, rfl⟩ := of_onO h
    have := (hm _ _ _ h1).2 ht
    exact ⟨fun p q hq => ht p q ((this p q).1 hq), fun p q _ hq => (this p q).2 hq⟩
  inner _ _ ht := ⟨ht, fun _ _ _ h => h⟩

theorem spare_destroyNode (E : ElemOps S) (hdr z : Ptr) : Does (Spare z) (destroyNode E hdr z) := by
  refine .bind (moves_spare z) ?_ fun _ => (moves_spare z).link _ (l_putNode _ _)
  intro s r s' h ht
  obtain ⟨-, h1, -⟩ := runs_destroyElem h
  exact ⟨fun p q hq => ht p q ((h1 p q).1 hq).2, fun p q hp hq => (h1 p q).2 ⟨hp, hq⟩⟩

/-- A new node is created; afterwards everything but this node stays. -/
theorem more_create {β : Type} {E : ElemOps S} {hdr : Ptr} {a : Arg} {r0 : β} {k : Ptr → M (ST S) β} (hk : ∀ z, Does (Spare z) (k z)) :
    Does More (createNode E hdr a >>= fun z => failed >>= fun b => if b then pure r0 else k z) := by
  intro s r s' h ht
  obtain ⟨z, s1, h1, h2⟩ := VO.runs_bind_iff.1 h
  obtain ⟨b, s2, h3, h4⟩ := VO.runs_bind_iff.1 h2
  rw [createNode_build] at h1
  obtain ⟨n, s0, h5, h6⟩ := VO.runs_bind_iff.1 h1
  obtain ⟨o, h7, rfl⟩ := of_onO h5
  obtain ⟨-, -, rfl⟩ := runs_rd.1 h7
  cases h3
  rcases runs_build (fun _ => rfl) (fun _ => l_putNode _ _) h6 ht with ⟨k1, k2⟩ | ⟨b, q, rfl, k1, k2, k3⟩
  · have : s1.o.err.isSome = true := by cases e : s1.o.err <;> simp_all
    simp only [this, if_true] at h4
    cases h4
    exact ⟨fun p q hq => ht p q ((k2 p q).1 hq), fun p q hq => (k2 p q).2 hq⟩
  · simp only [k2, Option.isSome_none, Bool.false_eq_true, if_false] at h4
    have ht1 : Typed s1.o := by
      intro p y hy
      rcases (k3 p y).1 hy with ⟨rfl, -⟩ | h
      · exact ⟨b, rfl⟩
      · exact ht p y h
    obtain ⟨a1, a2⟩ := hk _ _ _ _ h4 ht1
    refine ⟨a1, fun p y hy => a2 p y ?_ ((k3 p y).2 (.inr hy))⟩
    rintro rfl
    obtain ⟨c, hc, -⟩ := hy
    have k1 : s.o.heap (.dyn b) = none := k1
    rw [k1] at hc; cases hc

theorem more_emplaceUnique (less : Ptr → Ptr → M S Bool) (E : ElemOps S) (hdr : Ptr) (a : Arg) : Does More (emplaceUnique less E hdr a) := by
  unfold emplaceUnique
  refine more_create fun z => ?_
  have hR := moves_spare (S := S) z
  repeat' (first | with_reducible exact spare_destroyNode _ _ _ | does1)

theorem more_emplaceHintUnique (less : Ptr → Ptr → M S Bool) (E : ElemOps S) (hdr pos : Ptr) (a : Arg) :
    Does More (emplaceHintUnique less E hdr pos a) := by
  unfold emplaceHintUnique
  refine more_create fun z => ?_
  have hR := moves_spare (S := S) z
  repeat' (first | with_reducible exact spare_destroyNode _ _ _ | does1)

theorem more_insert (E : ElemOps S) (ord : Order S A) (h : How) (t : Ptr) (a : Arg) : Does More (exec E (.insert ord h t a)) := by
  have hR : Moves (More (N := TNode) (S := S)) := moves_more
  have hC := more_createNode E
  cases h <;> unfold exec
  all_goals
    repeat' (first | with_reducible exact d_insertUnique hR hC _ _ _ | with_reducible exact d_insertUniqueAt hR hC _ _ _ _ |
      with_reducible exact more_emplaceUnique _ _ _ _ | with_reducible exact more_emplaceHintUnique _ _ _ _ _ |
      with_reducible exact d_emplaceEqual hR hC _ _ _ | with_reducible exact d_insertEqualLower hR hC _ _ _ |
      with_reducible exact d_emplaceHintEqual hR hC _ _ _ _ | does1)

/-- Calls that construct elements. -/
def Call.builds : Call S A → Prop
  | .insert _ _ _ _ | .copy _ _ _ => True
  | _ => False

theorem fewer_exec (E : ElemOps S) (hc : ¬ c.builds) : Does Fewer (exec E c) := by
  have hR : Moves (Fewer (N := TNode) (S := S)) := moves_fewer
  have hD := fewer_destroy (N := TNode) E
  have hO := fewer_drop (N := TNode) (S := S)
  cases c <;> first | exact (hc trivial).elim | skip
  all_goals
    unfold exec
    repeat' (first | with_reducible exact d_eraseKey hR hD _ _ _ | with_reducible exact d_eraseKeys hR hD _ _ _ | with_reducible exact d_eraseIter hR hD _ _ |
      with_reducible exact d_eraseRange hR hD _ _ _ | with_reducible exact d_clear hR hD _ |
      with_reducible exact d_moveAssign hR hD _ _ _ | with_reducible exact d_destroyTree hR hD hO _ | does1)

/-! ### C100: references -/

/-- C100: an insertion, successful or not, invalidates nothing: every element of every tree is still there, at the position where it was. -/
theorem treeOf_references_insert (hr : Reach E s) {ord : Order S A} {h : How} {t : Ptr} {a : Arg} (hv : Valid E s (.insert ord h t a))
    (hrun : Runs (exec E.toElemOps (.insert ord h t a)) (ready s) r s') {p q : Ptr} (h1 : At s p q) : At s' p q :=
  (Reach.call hr hv hrun).inv.at.2 ((more_insert _ _ _ _ _ _ _ _ hrun hr.inv.ready.typed).2 p q (hr.inv.at.1 h1))

/-- C100: the other calls, except copying, create no element: the elements after the call are objects that were elements before it, at
the same positions. -/
theorem treeOf_references_erase (hr : Reach E s) (hv : Valid E s c) (hc : ¬ c.builds) (hrun : Runs (exec E.toElemOps c) (ready s) r s')
    {p q : Ptr} (h1 : At s' p q) : At s p q :=
  hr.inv.at.2 (fewer_exec _ hc _ _ _ hrun hr.inv.ready.typed p q ((Reach.call hr hv hrun).inv.at.1 h1))

/-- Two insertions, and the erasure of an element. -/
example : Reach Elem.box Demo.s3 ∧ At Demo.s3 (.dyn 0) (.stk 2) ∧ Valid Elem.box Demo.s3 (.insert Demo.ord .plain Demo.v (.mov (.stk 1))) ∧
    Runs (exec boxOps (.insert Demo.ord .plain Demo.v (.mov (.stk 1)))) (ready Demo.s3) (.ins (.dyn 1) true) Demo.s4 ∧
    At Demo.s4 (.dyn 0) (.stk 2) ∧ At Demo.s4 (.dyn 1) (.stk 3) ∧
    Valid Elem.box Demo.s5 (.eraseAt Demo.v (.dyn 1)) ∧ ¬ Call.builds (S := VO.Boxes) (A := Nat) (.eraseAt Demo.v (.dyn 1)) :=
  ⟨Demo.r3, ⟨_, _, Demo.alive (by decide +kernel), Demo.o3, by simp⟩, Demo.v3, Demo.run3, ⟨_, _, Demo.alive (by decide +kernel), Demo.o4, by simp⟩,
    ⟨_, _, Demo.alive (by decide +kernel), Demo.o4, by simp⟩, Demo.v5e, id⟩

/-- C100: elements stay where they are.  Whatever a call does, succeeds or fails: a position that belongs to a tree before and after the
call denotes the same object before and after it.  (Copying first clears the target and may use the freed nodes again.) -/
theorem treeOf_references (hr : Reach E s) (hv : Valid E s c) (hc : ∀ b d t, c ≠ .copy b d t)
    (hrun : Runs (exec E.toElemOps c) (ready s) r s') {p q q' : Ptr} (h1 : At s p q) (h2 : At s' p q') : q' = q := by
  have hf : ∀ {s : ST S}, NInv E s → ∀ {q q'}, At s p q → At s p q' → q' = q := by
    intro s h q q' h1 h2
    obtain ⟨a, a1, a2⟩ := h.at.1 h1
    obtain ⟨b, b1, b2⟩ := h.at.1 h2
    rw [a1] at b1; cases b1
    rw [a2] at b2; cases b2
    rfl
  by_cases hb : c.builds
  · cases c with
    | insert ord h t a => exact hf (Reach.call hr hv hrun).inv (treeOf_references_insert hr hv hrun h1) h2
    | copy b d t => exact (hc _ _ _ rfl).elim
    | _ => exact hb.elim
  · exact hf hr.inv h1 (treeOf_references_erase hr hv hb hrun h2)

example : Reach Elem.box Demo.s3 ∧ Valid Elem.box Demo.s3 (.insert Demo.ord .plain Demo.v (.mov (.stk 1))) ∧
    Runs (exec boxOps (.insert Demo.ord .plain Demo.v (.mov (.stk 1)))) (ready Demo.s3) (.ins (.dyn 1) true) Demo.s4 ∧
    At Demo.s3 (.dyn 0) (.stk 2) ∧ At Demo.s4 (.dyn 0) (.stk 2) :=
  ⟨Demo.r3, Demo.v3, Demo.run3, ⟨_, _, Demo.alive (by decide +kernel), Demo.o3, by simp⟩, ⟨_, _, Demo.alive (by decide +kernel), Demo.o4, by simp⟩⟩

/-! ### C101: errors -/

theorem blame_exec (E : ElemOps S) (c : Call S A) : Does (Blame E True) (exec E c) :=
  d_exec (moves_blame E True) (blame_createNode _ _) (blame_destroy _ _) (blame_tryCtor _ trivial) (blame_drop _ _) c

/-- C101: an error has a cause: either the allocator did not serve a request for memory made by the call, and the error says so, or the
comparator could not be copied, and the error says so, or an element could not be copied, and the error is the one reported by the element. -/
theorem treeOf_error_cause (hrun : Runs (exec E.toElemOps c) (ready s) r s') {e : Err} (he : s'.o.err = some e) :
    (e = .badAlloc ∧ ∃ k, s.o.nAlloc ≤ k ∧ k < s'.o.nAlloc ∧ Denied s.o k) ∨
      (e = .ctorFailed ∧ ∃ k, s.o.nCtor ≤ k ∧ k < s'.o.nCtor ∧ s.o.env.ctor k = false) ∨
      ∃ q i i', Runs (E.copy q) i (.error e) i' := by
  have h := blame_exec _ c _ _ _ hrun
  rcases h.cause with h1 | ⟨e', h1, h2⟩
  · rw [he] at h1; cases h1
  · rw [he] at h1; cases h1
    rcases h2 with h2 | ⟨-, h2⟩ | h2
    · exact .inl h2
    · exact .inr (.inl h2)
    · exact .inr (.inr h2)

/-- Everything in dynamic memory was handed out by the allocator. -/
theorem Reach.handed (hr : Reach E s) : Handed s.o := by
  induction hr with
  | start _ => intro a h; exact (h rfl).elim
  | call hr hv hrun ih =>
    have h := blame_exec _ _ _ _ _ hrun
    intro a ha
    rw [h.env]
    rcases h.heap a ha with h1 | ⟨j, h1, h2, h3⟩
    · obtain ⟨k, h2, h3⟩ := ih a h1
      exact ⟨k, Nat.lt_of_lt_of_le h2 h.allocs, h3⟩
    · exact ⟨j, h2, h3⟩
  | client _ _ _ ih => exact ih

/-- C101: if the copies of elements and of the comparator do not fail and the allocator does not hand out memory twice, then a call fails
exactly if the allocator refuses a request for memory. -/
theorem treeOf_error_iff (hr : Reach E s) (hrun : Runs (exec E.toElemOps c) (ready s) r s') (hd : Distinct s.o.env)
    (hw : ∀ q i e i', ¬ Runs (E.copy q) i (.error e) i') (hk : ∀ k, s.o.nCtor ≤ k → k < s'.o.nCtor → s.o.env.ctor k = true) :
    s'.o.err = none ↔ ∀ k, s.o.nAlloc ≤ k → k < s'.o.nAlloc → s.o.env.addr k ≠ none := by
  have h := blame_exec _ c _ _ _ hrun
  refine ⟨fun he => (h.served he).2, fun hs => ?_⟩
  cases he : s'.o.err with
  | none => rfl
  | some e =>
    rcases treeOf_error_cause hrun he with ⟨-, k, h1, h2, h3⟩ | ⟨-, k, h1, h2, h3⟩ | ⟨q, i, i', h1⟩
    · exact (hs k h1 h2 (Denied.none hd hr.handed h1 h3)).elim
    · rw [hk k h1 h2] at h3; cases h3
    · exact (hw _ _ _ _ h1).elim

namespace Demo

/-- No memory. -/
def z0 : ST VO.Boxes := ⟨Set.start { env with addr := fun _ => none }, s0.i⟩
def z1 : ST VO.Boxes := go boxOps (.create 0 : Call VO.Boxes Nat) z0
def z2 : ST VO.Boxes := go boxOps (.insert ord .plain v (.obj (.stk 0))) z1
theorem zrun : Runs (exec boxOps (.insert ord .plain v (.obj (.stk 0)))) (ready z1) (.ins v true) z2 := runs (by rfl)

theorem shared_copy {q : Ptr} {i i' : SP.W Nat} {e : Err} : ¬ Runs (VO.sharedOps.copy q) i (.error e) i' := by
  intro h
  obtain ⟨_, _, -, h⟩ := VO.runs_bind_iff.1 h
  obtain ⟨_, _, -, h⟩ := VO.runs_bind_iff.1 h
  cases h

theorem prun3 : Runs (exec VO.sharedOps (.insert (same : Order _ SP.Hnd) .upper v (.obj (.stk 0)))) (ready p3) (.pos (.dyn 0)) p4 :=
  runs (by decide +kernel)

end Demo

/-- The copies of boxes have run out; there is no memory; copies of `shared_ptr` do not fail. -/
example : Runs (exec boxOps (.insert Demo.ord .upper Demo.u (.obj (.stk 0)))) (ready Demo.s5) (.pos Demo.u) Demo.s6 ∧
    Demo.s6.o.err = some .badAlloc ∧ Demo.s6.o.nAlloc = Demo.s5.o.nAlloc + 1 ∧ ¬ Denied Demo.s5.o Demo.s5.o.nAlloc ∧
    Runs (exec boxOps (.insert Demo.ord .plain Demo.v (.obj (.stk 0)))) (ready Demo.z1) (.ins Demo.v true) Demo.z2 ∧
    Demo.z2.o.err = some .badAlloc ∧ Denied Demo.z1.o Demo.z1.o.nAlloc ∧ Reach Elem.shared Demo.p3 ∧ Distinct Demo.p3.o.env ∧
    Runs (exec VO.sharedOps (.insert (Demo.same : Order _ SP.Hnd) .upper Demo.v (.obj (.stk 0)))) (ready Demo.p3) (.pos (.dyn 0)) Demo.p4 ∧
    (∀ k, Demo.p3.o.env.ctor k = true) ∧ ∀ q i e i', ¬ Runs (VO.sharedOps.copy q : M (SP.W Nat) _) i (.error e) i' := by
  refine ⟨Demo.run5, by decide +kernel, by decide +kernel, fun h => ?_, Demo.zrun, by decide +kernel, fun a h => ?_, Demo.pr3,
    fun i j a h1 h2 => ?_, Demo.prun3, fun _ => rfl, fun _ _ _ _ => Demo.shared_copy⟩
  · have h1 : Demo.s5.o.nAlloc = 3 := by decide +kernel
    rw [h1] at h
    rcases h 3 (by decide +kernel) with h | ⟨j, h2, h3, -⟩
    · exact h (by decide +kernel)
    · omega
  · cases (show (none : Option Nat) = some a from h)
  · cases (show some i = some a from h1)
    cases (show some j = some i from h2)
    rfl

end Nestl.TO
