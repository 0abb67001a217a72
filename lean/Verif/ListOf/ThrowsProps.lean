import Verif.ListOf.Throws
set_option autoImplicit false
/-
C106, lists: `nestl::has_exceptions::list` of objects of any class.
-/
namespace Nestl.LO
open Nestl.VO (Elem ElemOps boxOps runs_bind_iff)
open Nestl.NO
variable {S A X : Type} {E : Elem S A X} {s s' s1 s2 : ST S} {v t u d : Ptr}

/-- The call of the interface with error objects that a throwing `push_back` makes. -/
def Push.call (v : Ptr) : Push → Call S
  | .copy a => .pushBack v a
  | .move t => .pushBackMove v t

/-- The value that is appended. -/
def Push.Means (E : Elem S A X) (s : ST S) : Push → A → Prop
  | .copy a, x => a.Means E.blank (E.val s.i) x
  | .move t, x => E.val s.i t = some x

theorem callPush_runs {x : Push} {r0 : LC.Res} (hrun : Runs (exec E.toElemOps (x.call v)) (ready s) r0 s') :
    Runs (callPush E.toElemOps v x) (ready s) (thrown s'.o.err) (ready s') := by
  cases x with
  | copy a =>
    exact runs_bind_iff.2 ⟨(), ready s, rfl, runs_bind_iff.2 ⟨(), s', of_unit' hrun, runs_bind_iff.2 ⟨s'.o.err, ready s', rfl, rfl⟩⟩⟩
  | move t =>
    exact runs_bind_iff.2 ⟨(), ready s, rfl, runs_bind_iff.2 ⟨(), s', of_unit' hrun, runs_bind_iff.2 ⟨s'.o.err, ready s', rfl, rfl⟩⟩⟩

/-- C106: a throwing `push_back` of a copy or of a moved object throws the error that `push_back_nothrow` reports, and returns if that
reports none; otherwise it does the same. -/
theorem listOf_throws_push {x : Push} {r0 : LC.Res} (hrun : Runs (exec E.toElemOps (x.call v)) (ready s) r0 s') :
    ∃ r, Runs (callPush E.toElemOps v x) (ready s) r (ready s') ∧ (∀ e, r = .error e ↔ s'.o.err = some e) ∧ (r = .ok () ↔ s'.o.err = none) := by
  refine ⟨_, callPush_runs hrun, ?_⟩
  cases s'.o.err with
  | none => exact ⟨fun e => ⟨(fun k => by cases k), (fun k => by cases k)⟩, fun _ => rfl, fun _ => rfl⟩
  | some e => exact ⟨fun e' => ⟨(fun k => by cases k; rfl), (fun k => by cases k; rfl)⟩, (fun k => by cases k), (fun k => by cases k)⟩

open Demo in
/-- The copies have run out. -/
example : Reach Elem.box Demo.s5 ∧ (∃ r, Runs (exec boxOps (Push.call Demo.v (.copy (.obj (.stk 0))))) (ready Demo.s5) r Demo.s6) ∧
    Demo.s6.o.err = some .badAlloc := ⟨Demo.r5, Demo.run5, by decide +kernel⟩

/-- C106: a throwing `push_back` that throws leaves the positions and values of all lists, and the objects of the client (also one that
was to be moved), as they were; one that returns has appended the value.  In both cases all elements are the same objects as before. -/
theorem listOf_throws_push_strong {x : Push} (hr : Reach E s) (hv : Valid E s (x.call v)) {B : LC.AState A} (hB : Shows E s B) :
    ∃ r s', Runs (callPush E.toElemOps v x) (ready s) r s' ∧ Reach E s' ∧ (∀ p q, At s p q → At s' p q) ∧
      (∀ e, r = .error e → Shows E s' B ∧ ∀ q a, ¬ IsElem s q → E.val s.i q = some a → E.val s'.i q = some a) ∧
      (r = .ok () → ∃ al L n a, B v = some (al, L) ∧ x.Means E s a ∧ LC.Unused B n ∧ Shows E s' (upd B v (some (al, L ++ [(n, a)])))) := by
  obtain ⟨r, s', h1, h2⟩ := listOf_calls_safe hr hv
  obtain ⟨c', hm⟩ := hv.means
  obtain ⟨a, hma, rfl⟩ : ∃ a, x.Means E s a ∧ c' = .pushBack v a := by cases x <;> exact hm
  obtain ⟨B', h3, al, L, h4, h6⟩ := listOf_calls_refine hr hv h1 hm hB
  obtain ⟨-, k2, k3⟩ := listOf_calls_outside hr hv h1
  have hal' : LC.Alive s'.o v := by
    refine (h3.1 v).2 ?_
    split at h6
    · rw [h6, h4]; simp
    · obtain ⟨n, -, h6⟩ := h6
      rw [h6, upd_same]; simp
  refine ⟨_, _, callPush_runs h1, h2.ready hal', ?_, ?_, ?_⟩
  · intro p q h
    obtain ⟨t, qs, a1, a2, a3⟩ := listOf_references_insert hr hv (by cases x <;> trivial) h1 h
    exact ⟨t, qs, a1, (objs_ready h2 a1).2 a2, a3⟩
  · intro e he
    have he' : s'.o.err.isSome = true := by
      cases k : s'.o.err with
      | none => rw [k] at he; cases he
      | some _ => rfl
    rw [if_pos he'] at h6
    subst h6
    refine ⟨h3.ready h2, fun q z a1 a2 => ?_⟩
    obtain ⟨y, hy⟩ := Option.ne_none_iff_exists'.1 ((k2 q).2 ⟨a1, by rw [a2]; simp⟩).2
    rw [← (k3 q z y a1 a2 hy).2 (by rw [he']; simp)]
    exact hy
  · intro he
    have he' : s'.o.err.isSome = false := by
      cases k : s'.o.err with
      | none => rfl
      | some _ => rw [k] at he; cases he
    rw [if_neg (by rw [he']; simp)] at h6
    obtain ⟨n, hn, rfl⟩ := h6
    exact ⟨al, L, n, a, h4, hma, hn, h3.ready h2⟩

open Demo in
example : Reach Elem.box Demo.s5 ∧ Valid Elem.box Demo.s5 (Push.call Demo.v (.copy (.obj (.stk 0)))) ∧
    Valid Elem.box Demo.s5 (Push.call Demo.v (.move (.stk 0))) ∧ ∃ B, Shows Elem.box Demo.s5 B :=
  ⟨r5, v5, ⟨alive (by decide +kernel), fun _ h => h.elim, by
    rintro q rfl; exact ⟨live (by decide +kernel), notElem r5 (by decide +kernel)⟩, fun _ h => h.elim⟩, (listOf_shows r5).imp fun _ h => h.1⟩

/-- C106: the copy constructor terminates without undefined behaviour.  If it throws, all lists consist of the same objects with the same
values at the same positions as before, and the objects of the client are untouched: nothing is left behind.  If it returns, there is
one list more, with the values of the source in new elements. -/
theorem listOf_throws_copy (hr : Reach E s) (ha : LC.Alive s.o t) {B : LC.AState A} (hB : Shows E s B) :
    ∃ r s', Runs (copyCtor E.toElemOps t) (ready s) r s' ∧ Reach E s' ∧ ClientKeeps E s s' ∧ ObjsKeep (fun _ => True) s s' ∧
      (∀ e, r = .error e → Shows E s' B) ∧
      ∀ d, r = .ok d → ∃ al L N, B t = some (al, L) ∧ B d = none ∧ LC.NewElems B N (L.map Prod.snd) ∧
        Shows E s' (upd B d (some (LL.defaultAlloc, N))) := by
  obtain ⟨r, s', h1, h2, h3, h4, -, h5, h6⟩ := copyCtor_all hr ha hB
  exact ⟨r, s', h1, h2, h3, h4, h5, h6⟩

open Demo in
example : Reach Elem.box Demo.s6 ∧ LC.Alive Demo.s6.o Demo.v ∧ Values Elem.box Demo.s6 Demo.v [(.dyn 2, 7), (.dyn 1, 8), (.dyn 0, 7)] ∧
    ∃ B, Shows Elem.box Demo.s6 B := ⟨r6, alive (by decide +kernel), vals6, (listOf_shows r6).imp fun _ h => h.1⟩

/-- C106: the copy constructor throws exactly the error that `copy_nothrow` into a new list reports. -/
theorem listOf_throws_copy_error {r1 : LC.Res} {r : Except Err Ptr}
    (h1 : Runs (exec E.toElemOps (.create LL.defaultAlloc)) (ready s) (.obj d) s1) (h2 : Runs (exec E.toElemOps (.copy d t)) (ready s1) r1 s2)
    (hrun : Runs (copyCtor E.toElemOps t) (ready s) r s') :
    (∀ e, r = .error e ↔ s2.o.err = some e) ∧ (r = .ok d ↔ s2.o.err = none) := by
  obtain ⟨d', s1', k1, k2⟩ := runs_bind_iff.1 h1
  cases k2
  obtain ⟨d', s4, a2, hrun⟩ := runs_bind_iff.1 hrun
  obtain ⟨rfl, rfl⟩ := Runs.det a2 k1
  obtain ⟨_, s5, a3, hrun⟩ := runs_bind_iff.1 hrun
  cases a3
  obtain ⟨_, s6, a4, hrun⟩ := runs_bind_iff.1 hrun
  obtain ⟨-, rfl⟩ := Runs.det a4 (of_unit' h2)
  obtain ⟨e, s7, a5, hrun⟩ := runs_bind_iff.1 hrun
  cases a5
  cases he : s6.o.err with
  | none =>
    rw [he] at hrun
    cases hrun
    exact ⟨fun e => ⟨(fun k => by cases k), (fun k => by cases k)⟩, fun _ => rfl, fun _ => rfl⟩
  | some e =>
    rw [he] at hrun
    obtain ⟨_, s8, a6, hrun⟩ := runs_bind_iff.1 hrun
    cases hrun
    exact ⟨fun e' => ⟨(fun k => by cases k; rfl), (fun k => by cases k; rfl)⟩, (fun k => by cases k), (fun k => by cases k)⟩

open Demo in
/-- The calls exist: a list is created in a state with a list of three boxes and is copied to. -/
example : Reach Elem.box Demo.s6 ∧ ∃ d s1 s2 r1 r s', Runs (exec boxOps (.create LL.defaultAlloc)) (ready Demo.s6) (.obj d) s1 ∧
    Runs (exec boxOps (.copy d Demo.v)) (ready s1) r1 s2 ∧ Runs (copyCtor boxOps Demo.v) (ready Demo.s6) r s' := by
  have ha : LC.Alive Demo.s6.o Demo.v := alive (by decide +kernel)
  obtain ⟨B, hB, -⟩ := listOf_shows r6
  obtain ⟨r, s', h, -⟩ := listOf_throws_copy r6 ha hB
  obtain ⟨d, s1, k1, h1⟩ := runs_bind_iff.1 h
  obtain ⟨_, _, k2, h1⟩ := runs_bind_iff.1 h1
  cases k2
  obtain ⟨_, s2, k3, h1⟩ := runs_bind_iff.1 h1
  exact ⟨r6, d, s1, s2, .unit, r, s', runs_bind_iff.2 ⟨d, s1, k1, rfl⟩, runs_bind_iff.2 ⟨(), s2, k3, rfl⟩, h⟩

/-- C106: the copy assignment to a list with a default constructed allocator has the strong guarantee, also for a list that is assigned
to itself: if it throws, all lists consist of the same objects with the same values at the same positions as before.  If it returns,
the target has the values of the source in new elements, and all other lists consist of the same objects as before.  The objects of
the client are untouched, and none is left behind.  Missing: targets with another allocator; there the assignment swaps lists with
different allocators (undefined behaviour, `listOf_throws_assign_wrong_allocator` in Verif/ListOf/ThrowsWrong.lean). -/
theorem listOf_throws_assign_partial (hr : Reach E s) (hs : LC.Alive s.o v) (hal : LC.HasAlloc s.o v LL.defaultAlloc)
    (ha : LC.Alive s.o t) {B : LC.AState A} (hB : Shows E s B) :
    ∃ r s', Runs (copyAssign E.toElemOps v t) (ready s) r s' ∧ Reach E s' ∧ ClientKeeps E s s' ∧ ObjsKeep (fun u => u ≠ v) s s' ∧
      (∀ e, r = .error e → Shows E s' B ∧ ObjsKeep (fun _ => True) s s') ∧
      (r = .ok () → ∃ al L N, B t = some (al, L) ∧ LC.NewElems B N (L.map Prod.snd) ∧
        Shows E s' (upd B v (some (LL.defaultAlloc, N)))) :=
  copyAssign_all hr hs hal ha hB

open Demo in
example : Reach Elem.box Demo.s6 ∧ LC.Alive Demo.s6.o Demo.v ∧ LC.HasAlloc Demo.s6.o Demo.v LL.defaultAlloc ∧ LC.Alive Demo.s6.o Demo.u ∧
    LC.HasAlloc Demo.s6.o Demo.u LL.defaultAlloc ∧ ∃ B, Shows Elem.box Demo.s6 B :=
  ⟨r6, alive (by decide +kernel), hasAlloc r6 (alive (by decide +kernel)) (by decide +kernel), alive (by decide +kernel),
    hasAlloc r6 (alive (by decide +kernel)) (by decide +kernel), (listOf_shows r6).imp fun _ h => h.1⟩

end Nestl.LO
