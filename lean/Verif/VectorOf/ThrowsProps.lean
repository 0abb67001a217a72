import Verif.VectorOf.Throws
set_option autoImplicit false
/-
C106, vectors: `nestl::has_exceptions::vector` of objects of any class.
-/
namespace Nestl.VO
open Nestl.Vec (ElemSize newVec getAlloc)
variable {S A X : Type} {E : Elem S A X} {s s' s1 s2 : NS S} {v t u d : Ptr}

namespace Demo

/-- The state after a throwing function. -/
def goT {α : Type} (m : M (NS S) α) (s : NS S) : NS S :=
  match m (ready s) with
  | some (.ok (_, s')) => s'
  | _ => s

/-- The error thrown by a throwing function. -/
def thrownBy {α : Type} (m : M (NS S) (Except Err α)) (s : NS S) : Option (Option Err) :=
  match m (ready s) with
  | some (.ok (.error e, _)) => some (some e)
  | some (.ok (.ok _, _)) => some none
  | _ => none

theorem runsThrows {α : Type} {m : M (NS S) (Except Err α)} {s : NS S} {e : Err} (h : thrownBy m s = some (some e)) :
    Runs m (ready s) (.error e) (goT m s) := by
  unfold thrownBy at h
  unfold goT Runs
  split at h
  · rename_i e' s' k; cases h; rw [k]
  · cases h
  · cases h

theorem runsReturns {α : Type} {m : M (NS S) (Except Err α)} {s : NS S} (h : thrownBy m s = some none) :
    ∃ r, Runs m (ready s) (.ok r) (goT m s) := by
  unfold thrownBy at h
  unfold goT Runs
  split at h
  · cases h
  · rename_i r s' k; exact ⟨r, by rw [k]⟩
  · cases h

/-- Many copies will succeed. -/
def m5 : NS Boxes := ⟨s5.o, { s5.i with left := 30 }⟩
theorem rm5 : Reach Elem.box m5 := more r5 30
/-- No copy will succeed. -/
def z5 : NS Boxes := ⟨s5.o, { s5.i with left := 0 }⟩
theorem rz5 : Reach Elem.box z5 := more r5 0

end Demo

/-- The call of the interface with error objects that a throwing `push_back` makes. -/
def Ins.push (v : Ptr) : Ins → Call
  | .copy a => .pushBack v a
  | .move t => .pushMove v t

variable [ElemSize Ptr] in
theorem callPush_runs {x : Ins} {r0 : VC.Res} (hrun : Runs (exec E.toElemOps (x.push v)) (ready s) r0 s') :
    Runs (callPush E.toElemOps v x) (ready s) (thrown s'.o.err) (ready s') := by
  cases x with
  | copy a =>
    obtain ⟨b, s1, h1, h2⟩ := runs_bind_iff.1 hrun
    obtain rfl := of_evalArg h1
    exact runs_bind_iff.2 ⟨b, _, h1, runs_bind_iff.2 ⟨(), ready s, rfl, runs_bind_iff.2 ⟨(), s', of_unit' h2,
      runs_bind_iff.2 ⟨s'.o.err, ready s', rfl, rfl⟩⟩⟩⟩
  | move t =>
    exact runs_bind_iff.2 ⟨(), ready s, rfl, runs_bind_iff.2 ⟨(), s', of_unit' hrun, runs_bind_iff.2 ⟨s'.o.err, ready s', rfl, rfl⟩⟩⟩

variable [ElemSize Ptr] in
/-- C106: a throwing `push_back` of a copy or of a moved object throws the error that `push_back_nothrow` reports, and returns if that
reports none; otherwise it does the same. -/
theorem vectorOf_throws_push {x : Ins} {r0 : VC.Res} (hrun : Runs (exec E.toElemOps (x.push v)) (ready s) r0 s') :
    ∃ r, Runs (callPush E.toElemOps v x) (ready s) r (ready s') ∧ (∀ e, r = .error e ↔ s'.o.err = some e) ∧ (r = .ok () ↔ s'.o.err = none) := by
  refine ⟨_, callPush_runs hrun, ?_⟩
  cases s'.o.err with
  | none => exact ⟨fun e => ⟨(fun k => by cases k), (fun k => by cases k)⟩, fun _ => rfl, fun _ => rfl⟩
  | some e => exact ⟨fun e' => ⟨(fun k => by cases k; rfl), (fun k => by cases k; rfl)⟩, (fun k => by cases k), (fun k => by cases k)⟩

open Demo in
/-- The last copy is used up by the growth of the block: `push_back` throws. -/
example : Reach Elem.box z5 ∧ (∃ r, Runs (exec boxOps (Ins.push Demo.v (.copy (.obj (.stk 0))))) (ready z5) r (go boxOps (.pushBack Demo.v (.obj (.stk 0))) z5)) ∧
    Runs (callPush boxOps Demo.v (.copy (.obj (.stk 0)))) (ready z5) (.error .badAlloc) (goT (callPush boxOps Demo.v (.copy (.obj (.stk 0)))) z5) :=
  ⟨rz5, runs (by decide +kernel), runsThrows (by decide +kernel)⟩

variable [ElemSize Ptr] in
/-- C106: a throwing `push_back` that throws leaves the values of all vectors, and the objects of the client (also one that was to be
moved), as they were; one that returns has appended the value. -/
theorem vectorOf_throws_push_strong {x : Ins} (hr : Reach E s) (hv : Valid E s (x.push v)) {B : VC.AState A} (hB : Shows E s B) :
    ∃ r s', Runs (callPush E.toElemOps v x) (ready s) r s' ∧ Reach E s' ∧ ObjsKeep (fun u => u ≠ v) s s' ∧
      (∀ e, r = .error e → Shows E s' B ∧ ∀ q a, ¬ IsElem s q → E.val s.i q = some a → E.val s'.i q = some a) ∧
      (r = .ok () → ∃ al L b a, B v = some (al, L) ∧ x.Means E.blank (E.val s.i) b ∧ VC.ArgIs B a b ∧
        Shows E s' (upd B v (some (al, L ++ [a])))) := by
  obtain ⟨r, s', h1, h2⟩ := vectorOf_calls_safe hr hv
  obtain ⟨b, hm⟩ := Ins.Means.exists (blank := E.blank) (f := E.val s.i) (x := x) fun q hq => (hv.2 q (by cases x <;> exact hq)).1
  have hm' : (x.push v).Means E.blank (E.val s.i) (.pushBack v b) := by
    cases x with
    | copy a => exact ⟨b, hm, rfl⟩
    | move t =>
      cases b with
      | val y => exact ⟨y, hm, rfl⟩
      | elem _ _ => exact (show False from hm).elim
  obtain ⟨B', h3, al, L, a, h4, h5, h6⟩ := vectorOf_calls_refine hr hv h1 hm' hB
  obtain ⟨-, k2, k3⟩ := vectorOf_calls_outside hr hv h1
  have hal : VC.Alive s.o v := by cases x <;> exact hv.1.1
  have hal' : VC.Alive s'.o v := by
    refine (h3.1 v).2 ?_
    split at h6
    · rw [h6, h4]; simp
    · rw [h6, upd_same]; simp
  refine ⟨_, _, callPush_runs h1, h2.ready hal', ?_, ?_, ?_⟩
  · refine ObjsKeep.trans (s1 := s') (fun u qs a0 a1 a2 => vectorOf_references hr hv h1 ?_ a1 a2) (objsKeep_ready h2 _)
    cases x <;> exact a0
  · intro e he
    have he' : s'.o.err.isSome = true := by
      cases k : s'.o.err with
      | none => rw [k] at he; cases he
      | some _ => rfl
    rw [if_pos he'] at h6
    subst h6
    refine ⟨h3.ready h2, fun q z a1 a2 => ?_⟩
    obtain ⟨y, hy⟩ := Option.ne_none_iff_exists'.1 ((k2 q).2 ⟨a1, by rw [a2]; simp⟩).2
    have := k3 q z y a1 a2 hy
    have hyz : y = z := by
      cases x with
      | copy c => exact this
      | move t =>
        have this : if q = t ∧ s'.o.err.isSome = false then y = E.blank else y = z := this
        rwa [if_neg (by rw [he']; simp)] at this
    rw [← hyz]; exact hy
  · intro he
    have he' : s'.o.err.isSome = false := by
      cases k : s'.o.err with
      | none => rfl
      | some _ => rw [k] at he; cases he
    rw [if_neg (by rw [he']; simp)] at h6
    subst h6
    exact ⟨al, L, b, a, h4, hm, h5, h3.ready h2⟩

open Demo in
example : Reach Elem.box z5 ∧ Valid Elem.box z5 (Ins.push Demo.v (.move (.stk 0))) ∧ Valid Elem.box z5 (Ins.push Demo.v (.copy (.obj (.stk 0)))) ∧
    ∃ B, Shows Elem.box z5 B :=
  ⟨rz5, ⟨⟨alive (by decide +kernel), trivial, .inl trivial⟩, by
      rintro q rfl; exact ⟨live (by decide +kernel), notElem rz5 (by decide +kernel)⟩⟩,
    ⟨⟨alive (by decide +kernel), trivial, .inl trivial⟩, by
      rintro q rfl; exact ⟨live (by decide +kernel), notElem rz5 (by decide +kernel)⟩⟩, (vectorOf_shows rz5).imp fun _ h => h.1⟩

variable [ElemSize Ptr] in
/-- C106: the copy constructor terminates without undefined behaviour.  If it throws, all vectors consist of the same objects with the
same values as before, and so do the objects of the client: nothing is left behind.  If it returns, there is one vector more, with
the values of the source (and the default allocator, C28). -/
theorem vectorOf_throws_copy (hr : Reach E s) (ha : VC.Alive s.o t) {B : VC.AState A} (hB : Shows E s B) :
    ∃ r s', Runs (copyCtor E.toElemOps t) (ready s) r s' ∧ Reach E s' ∧ ClientKeeps E s s' ∧ ObjsKeep (fun _ => True) s s' ∧
      (∀ e, r = .error e → Shows E s' B) ∧
      ∀ d, r = .ok d → ∃ al L, B t = some (al, L) ∧ B d = none ∧ Shows E s' (upd B d (some (Vec.defaultAlloc, L))) := by
  obtain ⟨r, s', h1, h2, h3, h4, -, h5, h6⟩ := copyCtor_all hr ha hB
  exact ⟨r, s', h1, h2, h3, h4, h5, h6⟩

open Demo in
/-- The second of two elements cannot be copied; with more memory the copy succeeds. -/
example : Reach Elem.box s5 ∧ VC.Alive s5.o Demo.v ∧ Values Elem.box s5 Demo.v [7, 8] ∧ (∃ B, Shows Elem.box s5 B) ∧
    Runs (copyCtor boxOps Demo.v) (ready s5) (.error .badAlloc) (goT (copyCtor boxOps Demo.v) s5) ∧
    Reach Elem.box m5 ∧ ∃ d, Runs (copyCtor boxOps Demo.v) (ready m5) (.ok d) (goT (copyCtor boxOps Demo.v) m5) :=
  ⟨r5, alive (by decide +kernel), vals5, (vectorOf_shows r5).imp fun _ h => h.1, runsThrows (by decide +kernel), rm5,
    runsReturns (by decide +kernel)⟩

variable [ElemSize Ptr] in
/-- C106: the copy constructor throws exactly the error that `copy_nothrow` into a new vector reports. -/
theorem vectorOf_throws_copy_error {a : Nat} {r1 : VC.Res} {r : Except Err Ptr} (hal : VC.HasAlloc (ready s).o t a)
    (h1 : Runs (exec E.toElemOps (.create a)) (ready s) (.obj d) s1) (h2 : Runs (exec E.toElemOps (.copy d t)) (ready s1) r1 s2)
    (hrun : Runs (copyCtor E.toElemOps t) (ready s) r s') :
    (∀ e, r = .error e ↔ s2.o.err = some e) ∧ (r = .ok d ↔ s2.o.err = none) := by
  obtain ⟨d', s1', k1, k2⟩ := runs_bind_iff.1 h1
  cases k2
  obtain ⟨a', s3, a1, hrun⟩ := runs_bind_iff.1 hrun
  obtain ⟨rfl, rfl⟩ := Runs.det a1 (runs_onO hal)
  obtain ⟨d', s4, a2, hrun⟩ := runs_bind_iff.1 hrun
  obtain ⟨rfl, rfl⟩ := Runs.det a2 k1
  obtain ⟨_, s5, a3, hrun⟩ := runs_bind_iff.1 hrun
  cases a3
  obtain ⟨_, s6, a4, hrun⟩ := runs_bind_iff.1 hrun
  obtain ⟨-, rfl⟩ := Runs.det a4 (of_unit' h2)
  obtain ⟨e, s7, a5, hrun⟩ := runs_bind_iff.1 hrun
  cases a5
  cases he : s6.o.err with
  | none =>
    rw [he] at hrun
    cases hrun
    exact ⟨fun e => ⟨(fun k => by cases k), (fun k => by cases k)⟩, fun _ => rfl, fun _ => rfl⟩
  | some e =>
    rw [he] at hrun
    obtain ⟨_, s8, a6, hrun⟩ := runs_bind_iff.1 hrun
    cases hrun
    exact ⟨fun e' => ⟨(fun k => by cases k; rfl), (fun k => by cases k; rfl)⟩, (fun k => by cases k), (fun k => by cases k)⟩

variable [ElemSize Ptr] in
/-- The calls of `vectorOf_throws_copy_error` exist. -/
theorem copy_calls (hr : Reach E s) (ha : VC.Alive s.o t) : ∃ a d s1 s2 r1 r s', VC.HasAlloc (ready s).o t a ∧
    Runs (exec E.toElemOps (.create a)) (ready s) (.obj d) s1 ∧ Runs (exec E.toElemOps (.copy d t)) (ready s1) r1 s2 ∧
    Runs (copyCtor E.toElemOps t) (ready s) r s' := by
  obtain ⟨B, hB, -⟩ := vectorOf_shows hr
  obtain ⟨σ, hi⟩ := hr.inv
  obtain ⟨y, hy⟩ := (VC.alive_iff hi.outer).1 ha
  have hal : VC.HasAlloc (ready s).o t y.alloc := (VC.hasAlloc_iff hi.ready.outer hy).2 rfl
  obtain ⟨r, s', h, -⟩ := vectorOf_throws_copy hr ha hB
  obtain ⟨a, s0, k0, h1⟩ := runs_bind_iff.1 h
  obtain ⟨rfl, rfl⟩ := Runs.det k0 (runs_onO hal)
  obtain ⟨d, s1, k1, h1⟩ := runs_bind_iff.1 h1
  obtain ⟨_, _, k2, h1⟩ := runs_bind_iff.1 h1
  cases k2
  obtain ⟨_, s2, k3, h1⟩ := runs_bind_iff.1 h1
  exact ⟨_, d, s1, s2, .unit, r, s', hal, runs_bind_iff.2 ⟨d, s1, k1, rfl⟩, runs_bind_iff.2 ⟨(), s2, k3, rfl⟩, h⟩

open Demo in
/-- A vector of two boxes. -/
example : ∃ a d s1 s2 r1 r s', VC.HasAlloc (ready s5).o Demo.v a ∧ Runs (exec Elem.box.toElemOps (.create a)) (ready s5) (.obj d) s1 ∧
    Runs (exec Elem.box.toElemOps (.copy d Demo.v)) (ready s1) r1 s2 ∧ Runs (copyCtor Elem.box.toElemOps Demo.v) (ready s5) r s' :=
  have ha : VC.Alive s5.o Demo.v := alive (by decide +kernel)
  copy_calls (E := Elem.box) (s := s5) (t := Demo.v) r5 ha

variable [ElemSize Ptr] in
/-- C106: the copy assignment has the strong guarantee, also for a vector that is assigned to itself: if it throws, all vectors consist
of the same objects with the same values as before.  If it returns, the target has the values of the source, and all other vectors
consist of the same objects as before.  The objects of the client are untouched, and none is left behind. -/
theorem vectorOf_throws_assign (hr : Reach E s) (hs : VC.Alive s.o v) (ha : VC.Alive s.o t) {B : VC.AState A} (hB : Shows E s B) :
    ∃ r s', Runs (copyAssign E.toElemOps v t) (ready s) r s' ∧ Reach E s' ∧ ClientKeeps E s s' ∧ ObjsKeep (fun u => u ≠ v) s s' ∧
      (∀ e, r = .error e → Shows E s' B ∧ ObjsKeep (fun _ => True) s s') ∧
      (r = .ok () → ∃ al L, B t = some (al, L) ∧ Shows E s' (upd B v (some (Vec.defaultAlloc, L)))) :=
  copyAssign_all hr hs ha hB

open Demo in
/-- A vector is assigned to another one and to itself; without memory both throw. -/
example : Reach Elem.box s5 ∧ VC.Alive s5.o Demo.u ∧ VC.Alive s5.o Demo.v ∧ (∃ B, Shows Elem.box s5 B) ∧
    Runs (copyAssign boxOps Demo.u Demo.v) (ready s5) (.error .badAlloc) (goT (copyAssign boxOps Demo.u Demo.v) s5) ∧
    Runs (copyAssign boxOps Demo.v Demo.v) (ready s5) (.error .badAlloc) (goT (copyAssign boxOps Demo.v Demo.v) s5) ∧
    Reach Elem.box m5 ∧ (∃ r, Runs (copyAssign boxOps Demo.u Demo.v) (ready m5) (.ok r) (goT (copyAssign boxOps Demo.u Demo.v) m5)) ∧
    ∃ r, Runs (copyAssign boxOps Demo.v Demo.v) (ready m5) (.ok r) (goT (copyAssign boxOps Demo.v Demo.v) m5) :=
  ⟨r5, alive (by decide +kernel), alive (by decide +kernel), (vectorOf_shows r5).imp fun _ h => h.1, runsThrows (by decide +kernel),
    runsThrows (by decide +kernel), rm5, runsReturns (by decide +kernel), runsReturns (by decide +kernel)⟩

end Nestl.VO
