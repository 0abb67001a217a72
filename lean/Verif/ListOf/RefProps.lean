import Verif.ListOf.Refs
import Verif.ListOf.NestProps
import Verif.Report
set_option autoImplicit false
/-
C100, C101 for lists of objects: references and iterators to elements stay valid, and errors have a cause.
-/
namespace Nestl.LO
open Nestl.VO (Elem ElemOps boxOps)
open Nestl.NO
open Nestl.LL (Sg)
variable {S A X : Type} {E : Elem S A X} {s s' : ST S} {σ : Sg Ptr} {c : Call S} {r : LC.Res}

/-- The position `p` of some list denotes the object `q`: `*p` is `q`. -/
def At (s : ST S) (p q : Ptr) : Prop := ∃ t qs, LC.Alive s.o t ∧ Objs s t qs ∧ (p, q) ∈ qs

theorem createNode_build (E : ElemOps S) (l : Ptr) (a : Arg) : createNode E l a =
    (onO (LC.getAlloc l) >>= fun al => build (fun junk => { junk with val := none, owner := al }) (LL.putNode l) E a) := rfl

theorem more_createNode (E : ElemOps S) (l : Ptr) (a : Arg) : Does More (createNode E l a) := by
  have hR : Moves (More (N := LL.LNode) (S := S)) := moves_more
  rw [createNode_build]
  exact .bind hR (hR.link _ (by links)) fun _ => more_build (fun _ => rfl) fun _ => l_putNode _ _

theorem blame_createNode (E : ElemOps S) (l : Ptr) (a : Arg) : Does (Blame E False) (createNode E l a) := by
  have hR : Moves (Blame (N := LL.LNode) E False) := moves_blame E False
  rw [createNode_build]
  exact .bind hR (hR.link _ (by links)) fun _ => blame_build fun _ => l_putNode _ _

/-- Calls that construct elements. -/
def Call.builds : Call S → Prop
  | .insert _ _ _ | .insertMove _ _ _ | .insertN _ _ _ _ | .insertRange _ _ _ | .pushBack _ _ | .pushBackMove _ _ | .pushFront _ _
  | .pushFrontMove _ _ | .assignN _ _ _ | .assignObjs _ _ | .assignRange _ _ _ _ | .copy _ _ => True
  | _ => False

/-- Insertions. -/
def Call.inserts : Call S → Prop
  | .insert _ _ _ | .insertMove _ _ _ | .insertN _ _ _ _ | .insertRange _ _ _ | .pushBack _ _ | .pushBackMove _ _ | .pushFront _ _
  | .pushFrontMove _ _ => True
  | _ => False

/-- First elements are added, then elements are destroyed. -/
def Both (s s' : ST S) : Prop := ∃ s1, More s s1 ∧ Fewer s1 s'

theorem Does.both {α β : Type} {m : M (ST S) α} {k : α → M (ST S) β} (h1 : Does More m) (h2 : ∀ r, Does Fewer (k r)) : Does Both (m >>= k) := by
  intro s r s' h
  obtain ⟨a, s1, k1, k2⟩ := VO.runs_bind_iff.1 h
  exact ⟨s1, h1 _ _ _ k1, h2 _ _ _ _ k2⟩

theorem Does.more_both {α β : Type} {m : M (ST S) α} {k : α → M (ST S) β} (h1 : Does More m) (h2 : ∀ r, Does Both (k r)) :
    Does Both (m >>= k) := by
  intro s r s' h
  obtain ⟨a, s1, k1, k2⟩ := VO.runs_bind_iff.1 h
  obtain ⟨s2, k3, k4⟩ := h2 _ _ _ _ k2
  exact ⟨s2, moves_more.trans _ _ _ (h1 _ _ _ k1) k3, k4⟩

theorem Does.both_pure {α β : Type} {m : M (ST S) α} {f : α → β} (h : Does Both m) : Does Both (m >>= fun x => pure (f x)) := by
  intro s r s' h'
  obtain ⟨a, s1, k1, k2⟩ := VO.runs_bind_iff.1 h'
  cases k2
  exact h _ _ _ k1

section
variable (E : ElemOps S) (l : Ptr)

theorem both_assignN (n : Nat) (a : Arg) : Does Both (assignN E l n a) := by
  have hR : Moves (More (N := LL.LNode) (S := S)) := moves_more
  unfold assignN
  refine Does.more_both (hR.link _ (by links)) fun _ => Does.more_both (hR.link _ (by links)) fun _ => Does.both ?_ fun _ => ?_
  · exact d_assignLoop hR (more_createNode E) _ _ _
  · exact d_destroyList moves_fewer (fewer_destroy E) fewer_drop _

theorem both_assignVals (ts : List Ptr) : Does Both (assignVals E l ts) := by
  have hR : Moves (More (N := LL.LNode) (S := S)) := moves_more
  unfold assignVals
  refine Does.more_both (hR.link _ (by links)) fun _ => Does.more_both (hR.link _ (by links)) fun _ => Does.both ?_ fun _ => ?_
  · exact d_assignValsLoop hR (more_createNode E) _ _
  · exact d_destroyList moves_fewer (fewer_destroy E) fewer_drop _

theorem both_assignIt (f l' : Ptr) : Does Both (assignIt E l f l') := by
  have hR : Moves (More (N := LL.LNode) (S := S)) := moves_more
  unfold assignIt
  refine Does.more_both (hR.link _ (by links)) fun _ => Does.more_both (hR.link _ (by links)) fun _ => Does.both ?_ fun _ => ?_
  · exact d_assignItLoop hR (more_createNode E) _ _ _
  · exact d_destroyList moves_fewer (fewer_destroy E) fewer_drop _

end

theorem more_inserts (E : ElemOps S) (hc : c.inserts) : Does More (exec E c) := by
  have hR : Moves (More (N := LL.LNode) (S := S)) := moves_more
  have hC := more_createNode E
  cases c with
  | insert _ _ _ => exact .bind hR (d_emplace hR hC _ _ _) fun _ => .pure hR
  | insertMove _ _ _ => exact .bind hR (d_emplace hR hC _ _ _) fun _ => .pure hR
  | insertN _ _ _ _ => exact .bind hR (d_insertN hR hC _ _ _ _) fun _ => .pure hR
  | insertRange _ _ _ => exact .bind hR (d_insertRange hR hC _ _ _) fun _ => .pure hR
  | pushBack _ _ => exact .bind hR (d_pushBack hR hC _ _) fun _ => .pure hR
  | pushBackMove _ _ => exact .bind hR (d_pushBack hR hC _ _) fun _ => .pure hR
  | pushFront _ _ => exact .bind hR (d_pushFront hR hC _ _) fun _ => .pure hR
  | pushFrontMove _ _ => exact .bind hR (d_pushFront hR hC _ _) fun _ => .pure hR
  | _ => exact hc.elim

theorem fewer_exec (E : ElemOps S) (hc : ¬ c.builds) : Does Fewer (exec E c) := by
  have hR : Moves (Fewer (N := LL.LNode) (S := S)) := moves_fewer
  have hD := fewer_destroy (N := LL.LNode) E
  have hO := fewer_drop (N := LL.LNode) (S := S)
  cases c <;> first | exact (hc trivial).elim | skip
  all_goals
    unfold exec
    repeat' (first | with_reducible exact d_erase hR hD _ _ | with_reducible exact d_eraseRange hR hD _ _ _ |
      with_reducible exact d_popBack hR hD _ | with_reducible exact d_popFront hR hD _ | with_reducible exact d_clear hR hD _ |
      with_reducible exact d_moveAssign hR hD hO _ _ | with_reducible exact d_merge hR _ _ _ | with_reducible exact d_sort hR hD hO _ _ |
      with_reducible exact d_destroyList hR hD hO _ | does1)

theorem both_exec (E : ElemOps S) (c : Call S) : Does Both (exec E c) := by
  by_cases hc : c.inserts
  · exact fun s r s' h => ⟨s', more_inserts E hc _ _ _ h, moves_fewer.refl _⟩
  by_cases hb : c.builds
  · cases c with
    | assignN _ _ _ => exact Does.both_pure (both_assignN E _ _ _)
    | assignObjs _ _ => exact Does.both_pure (both_assignVals E _ _)
    | assignRange _ _ _ _ => exact Does.both_pure (both_assignIt E _ _ _)
    | copy _ _ =>
      exact Does.both_pure (Does.more_both (moves_more.link _ (by links)) fun _ => Does.more_both (moves_more.link _ (by links)) fun _ =>
        both_assignIt E _ _ _)
    | _ => first | exact (hc trivial).elim | exact hb.elim
  · exact fun s r s' h => ⟨s, moves_more.refl _, fewer_exec E hb _ _ _ h⟩

theorem NInv.typed (h : NInv E s σ) : Typed (LO.ready s).o := h.rel.same.typed

/-! ### C100: references -/

/-- C100: elements stay where they are.  Whatever a call does, succeeds or fails: a position that belongs to a list before and
after the call denotes the same object before and after it. -/
theorem listOf_references (hr : Reach E s) (hv : Valid E s c) (hrun : Runs (exec E.toElemOps c) (ready s) r s') {p q q' : Ptr}
    (h1 : At s p q) (h2 : At s' p q') : q' = q := by
  obtain ⟨σ, h⟩ := hr.inv
  obtain ⟨σ', h'⟩ := (Reach.call hr hv hrun).inv
  obtain ⟨s1, k1, k2⟩ := both_exec _ c _ _ _ hrun
  obtain ⟨k3, k4⟩ := k1 h.typed
  obtain ⟨a, a1, a2⟩ := k4 p q (h.at.1 h1)
  obtain ⟨b, b1, b2⟩ := k2 k3 p q' (h'.at.1 h2)
  rw [a1] at b1; cases b1
  rw [a2] at b2; cases b2
  rfl

/-- C100: an insertion, successful or not, invalidates nothing: every element of every list is still there, at the position where it was. -/
theorem listOf_references_insert (hr : Reach E s) (hv : Valid E s c) (hc : c.inserts) (hrun : Runs (exec E.toElemOps c) (ready s) r s')
    {p q : Ptr} (h1 : At s p q) : At s' p q := by
  obtain ⟨σ, h⟩ := hr.inv
  obtain ⟨σ', h'⟩ := (Reach.call hr hv hrun).inv
  exact h'.at.2 ((more_inserts _ hc _ _ _ hrun h.typed).2 p q (h.at.1 h1))

/-- C100: the calls that erase elements or change their order create no element: the elements after the call are objects that were
elements before it, at the same positions. -/
theorem listOf_references_erase (hr : Reach E s) (hv : Valid E s c) (hc : ¬ c.builds) (hrun : Runs (exec E.toElemOps c) (ready s) r s')
    {p q : Ptr} (h1 : At s' p q) : At s p q := by
  obtain ⟨σ, h⟩ := hr.inv
  obtain ⟨σ', h'⟩ := (Reach.call hr hv hrun).inv
  exact h.at.2 (fewer_exec _ hc _ _ _ hrun h.typed p q (h'.at.1 h1))

/-- Insertion, sorting, clearing, and a copy of an element. -/
example : Reach Elem.box Demo.s4 ∧ At Demo.s4 (.dyn 0) (.stk 2) ∧ Valid Elem.box Demo.s4 (.pushFront Demo.v (.obj (.stk 2))) ∧
    Call.inserts (S := VO.Boxes) (.pushFront Demo.v (.obj (.stk 2))) ∧ At Demo.s5 (.dyn 0) (.stk 2) ∧ Reach Elem.box Demo.s6 ∧
    Valid Elem.box Demo.s6 (.sort Demo.boxLess Demo.v) ∧ ¬ Call.builds (.sort Demo.boxLess Demo.v) :=
  ⟨Demo.r4, ⟨_, _, Demo.alive (by decide +kernel), Demo.o4, by simp⟩, Demo.v4, trivial,
    ⟨_, _, Demo.alive (by decide +kernel), Demo.o5, by simp⟩, Demo.r6, Demo.v6, id⟩

/-- The position belongs to some list. -/
theorem At.pos (hr : Reach E s) {B : LC.AState A} (hB : Shows E s B) {p : Ptr} :
    (∃ q, At s p q) ↔ ∃ t al L x, B t = some (al, L) ∧ (p, x) ∈ L := by
  constructor
  · rintro ⟨q, t, qs, h1, h2, h3⟩
    obtain ⟨⟨al, L⟩, hb⟩ := Option.ne_none_iff_exists'.1 ((hB.1 t).1 h1)
    obtain ⟨-, qs', h4, h5⟩ := hB.2 _ _ _ hb
    obtain rfl := (Runs.det h2 h4).1
    have : (p, E.val s.i q) ∈ L.map fun x => (x.1, some x.2) := by rw [← h5]; exact List.mem_map.2 ⟨_, h3, rfl⟩
    obtain ⟨⟨p', x⟩, h6, h7⟩ := List.mem_map.1 this
    obtain rfl : p' = p := congrArg Prod.fst h7
    exact ⟨t, al, L, x, hb, h6⟩
  · rintro ⟨t, al, L, x, hb, h6⟩
    obtain ⟨-, qs', h4, h5⟩ := hB.2 _ _ _ hb
    have : (p, some x) ∈ qs'.map fun x => (x.1, E.val s.i x.2) := by rw [h5]; exact List.mem_map.2 ⟨_, h6, rfl⟩
    obtain ⟨⟨p', q⟩, h7, h8⟩ := List.mem_map.1 this
    obtain rfl : p' = p := congrArg Prod.fst h8
    exact ⟨q, t, _, (hB.1 t).2 (by rw [hb]; simp), h4, h7⟩

/-- C100: `sort` neither copies nor moves elements: afterwards the same objects are elements at the same positions, in another order. -/
theorem listOf_references_sort (hr : Reach E s) {less : Ptr → Ptr → M S Bool} {l : Ptr} (hv : Valid E s (.sort less l))
    (hrun : Runs (exec E.toElemOps (.sort less l)) (ready s) r s') {p q : Ptr} : At s' p q ↔ At s p q := by
  refine ⟨listOf_references_erase hr hv id hrun, fun h1 => ?_⟩
  have hr' := Reach.call hr hv hrun
  obtain ⟨B, hB, -⟩ := listOf_shows hr
  obtain ⟨c', hm⟩ := hv.means
  obtain ⟨B', hB', hs⟩ := listOf_calls_refine hr hv hrun hm hB
  obtain ⟨lt, -, rfl⟩ := hm
  obtain ⟨-, a, L, L', hb, hp, rfl⟩ := hs
  obtain ⟨t, al, M, x, hb', hx⟩ := (At.pos hr hB).1 ⟨q, h1⟩
  have : ∃ q', At s' p q' := by
    refine (At.pos hr' hB').2 ?_
    by_cases e : t = l
    · subst e
      rw [hb] at hb'; cases hb'
      exact ⟨t, _, L', x, upd_same _ _ _, hp.1.mem_iff.2 hx⟩
    · exact ⟨t, al, M, x, by rw [upd_other _ _ e]; exact hb', hx⟩
  obtain ⟨q', h2⟩ := this
  have := listOf_references hr hv hrun h1 h2
  subst this
  exact h2

/-! ### C101: errors -/

/-- C101: an error has a cause: either the allocator did not serve a request for memory made by the call, and the error says so,
or an element could not be copied, and the error is the one reported by the element. -/
theorem listOf_error_cause (hrun : Runs (exec E.toElemOps c) (ready s) r s') {e : Err} (he : s'.o.err = some e) :
    (e = .badAlloc ∧ ∃ k, s.o.nAlloc ≤ k ∧ k < s'.o.nAlloc ∧ Denied s.o k) ∨ ∃ q i i', Runs (E.copy q) i (.error e) i' := by
  have h := d_exec (moves_blame E.toElemOps False) (blame_createNode _) (blame_destroy _ _) (blame_drop _ _) c _ _ _ hrun
  rcases h.cause with h1 | ⟨e', h1, h2⟩
  · rw [he] at h1; cases h1
  · rw [he] at h1; cases h1
    rcases h2 with h2 | ⟨h2, -⟩ | h2
    · exact .inl h2
    · exact h2.elim
    · exact .inr h2

/-- Everything in dynamic memory was handed out by the allocator. -/
theorem Reach.handed (hr : Reach E s) : Handed s.o := by
  induction hr with
  | start _ => intro a h; exact (h rfl).elim
  | call hr hv hrun ih =>
    have h := d_exec (moves_blame E.toElemOps False) (blame_createNode _) (blame_destroy _ _) (blame_drop _ _) _ _ _ _ hrun
    intro a ha
    rw [h.env]
    rcases h.heap a ha with h1 | ⟨j, h1, h2, h3⟩
    · obtain ⟨k, h2, h3⟩ := ih a h1
      exact ⟨k, Nat.lt_of_lt_of_le h2 h.allocs, h3⟩
    · exact ⟨j, h2, h3⟩
  | client _ _ _ ih => exact ih

/-- C101: if the copies of elements do not fail and the allocator does not hand out memory twice, then a call fails exactly if the
allocator refuses a request for memory. -/
theorem listOf_error_iff (hr : Reach E s) (hrun : Runs (exec E.toElemOps c) (ready s) r s') (hd : Distinct s.o.env)
    (hw : ∀ q i e i', ¬ Runs (E.copy q) i (.error e) i') :
    s'.o.err = none ↔ ∀ k, s.o.nAlloc ≤ k → k < s'.o.nAlloc → s.o.env.addr k ≠ none := by
  have h := d_exec (moves_blame E.toElemOps False) (blame_createNode _) (blame_destroy _ _) (blame_drop _ _) c _ _ _ hrun
  refine ⟨fun he => (h.served he).2, fun hs => ?_⟩
  cases he : s'.o.err with
  | none => rfl
  | some e =>
    rcases listOf_error_cause hrun he with ⟨-, k, h1, h2, h3⟩ | ⟨q, i, i', h1⟩
    · exact (hs k h1 h2 (Denied.none hd hr.handed h1 h3)).elim
    · exact (hw _ _ _ _ h1).elim

namespace Demo

/-- No memory. -/
def z0 : ST VO.Boxes := ⟨LC.start { env with addr := fun _ => none }, s0.i⟩
def z1 : ST VO.Boxes := go boxOps (.create 0) z0
def z2 : ST VO.Boxes := go boxOps (.pushBack v (.obj (.stk 0))) z1

theorem shared_copy {q : Ptr} {i i' : SP.W Nat} {e : Err} : ¬ Runs (VO.sharedOps.copy q) i (.error e) i' := by
  intro h
  obtain ⟨_, _, -, h⟩ := VO.runs_bind_iff.1 h
  obtain ⟨_, _, -, h⟩ := VO.runs_bind_iff.1 h
  cases h

end Demo

/-- The copies of boxes have run out; there is no memory; copies of `shared_ptr` do not fail. -/
example : (∃ r, Runs (exec boxOps (.pushBack Demo.v (.obj (.stk 0)))) (ready Demo.s5) r Demo.s6) ∧ Demo.s6.o.err = some .badAlloc ∧
    Demo.s6.o.nAlloc = Demo.s5.o.nAlloc + 1 ∧ ¬ Denied Demo.s5.o Demo.s5.o.nAlloc ∧
    (∃ r, Runs (exec boxOps (.pushBack Demo.v (.obj (.stk 0)))) (ready Demo.z1) r Demo.z2) ∧ Demo.z2.o.err = some .badAlloc ∧
    Denied Demo.z1.o Demo.z1.o.nAlloc ∧ Reach Elem.shared Demo.p3 ∧ Distinct Demo.p3.o.env ∧
    (∃ r, Runs (exec VO.sharedOps (.pushBack Demo.v (.obj (.stk 0)))) (ready Demo.p3) r Demo.p4) ∧
    ∀ q i e i', ¬ Runs (VO.sharedOps.copy q : M (SP.W Nat) _) i (.error e) i' := by
  refine ⟨Demo.run5, by decide +kernel, by decide +kernel, fun h => ?_, Demo.runs (by decide +kernel), by decide +kernel, fun a h => ?_, Demo.pr3,
    fun i j a h1 h2 => ?_, Demo.prun3, fun _ _ _ _ => Demo.shared_copy⟩
  · have h1 : Demo.s5.o.nAlloc = 3 := by decide +kernel
    rw [h1] at h
    rcases h 3 (by decide +kernel) with h | ⟨j, h2, h3, -⟩
    · exact h (by decide +kernel)
    · omega
  · cases (show (none : Option Nat) = some a from h)
  · cases (show some i = some a from h1)
    cases (show some j = some i from h2)
    rfl

end Nestl.LO
