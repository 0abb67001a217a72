import Verif.Threads.Inv
set_option autoImplicit false
/-
Property theorems about the use of copies of a `shared_ptr` in several threads (C88).

Full statement: threads that each use only their own `shared_ptr` and `weak_ptr` variables may use them without further
synchronisation; the object lives while it has owners and is destroyed once.  This is false for the code (`race_…`,
`leak`), also if the counters were atomic (`race_counters`), and even if every function of the control block were atomic the
way to use `weak_ptr::lock` that is safe in one thread is not safe in several (`race_lock`).  It holds if a lock is held
during the functions of the control block and `lock` is called only by owners (`threads_locked_partial`), and if only one
thread copies, creates or destroys the smart pointers (`threads_single_partial`).
-/
namespace Nestl.Th
variable {c : Cfg} {n : Nat}

/-! ### What holds -/

/-- C88 with a lock around the functions of the control block: for every number of threads, all programs and all interleavings,
nothing goes wrong, the object is alive while it has owners and the block is there while there are smart pointers; when
all calls have ended the counters are right, and the object has been destroyed once if it has no owners, and the block
deallocated once if there are no smart pointers left. -/
theorem threads_locked_partial (h : Reach .functions Guarded n c) :
    (∀ f, ¬ Faulty .functions c f) ∧ (0 < owners c → c.mem.died = 0) ∧ (0 < owners c + watchers c → c.mem.freed = 0) ∧
      (Quiet c → c.mem.use = owners c ∧ c.mem.weak = watchers c ∧ c.mem.died = (if owners c = 0 then 1 else 0) ∧
        c.mem.freed = (if owners c + watchers c = 0 then 1 else 0)) := by
  have hi := h.inv fun _ _ _ h => h
  refine ⟨hi.not_faulty, hi.died, hi.freed, ?_⟩
  intro hq
  exact rest_iff.1 (hi.rest fun t ht => by rw [hq t ht]; rfl)

/-- Only the first thread creates, copies and destroys smart pointers; the others dereference theirs and hand them over. -/
def Single (i : Nat) (op : Op) (t : Thread) : Prop :=
  Guarded i op t ∧ (i = 0 ∨ op = .deref ∨ op = .put ∨ op = .get ∨ op = .putWeak ∨ op = .getWeak)

/-- Nobody but the first thread is in a function of the control block. -/
def First (c : Cfg) : Prop := ∀ l t r, c.ts = l ++ t :: r → l ≠ [] → t.pc.inside = false

theorem First.others {m : Mem} {t : Thread} {r : List Thread} (h : First ⟨m, t :: r⟩) : ∀ u ∈ r, u.pc.inside = false := by
  intro u hu
  obtain ⟨a, b, rfl⟩ := List.append_of_mem hu
  exact h (t :: a) u b rfl (by simp)

theorem First.put {m m' : Mem} {t t' : Thread} {l r : List Thread} (h : First ⟨m, l ++ t :: r⟩) (ht : l ≠ [] → t'.pc.inside = false) :
    First ⟨m', l ++ t' :: r⟩ := by
  intro l1 t1 r1 he hl
  simp only at he
  rcases List.append_eq_append_iff.1 he with ⟨x, g1, g2⟩ | ⟨x, g1, g2⟩
  · cases x with
    | nil => simp at g1 g2; obtain ⟨rfl, -⟩ := g2; exact ht (g1 ▸ hl)
    | cons y x =>
      simp only [List.cons_append, List.cons.injEq] at g2
      obtain ⟨rfl, rfl⟩ := g2
      exact h (l ++ t :: x) t1 r1 (by simp) (by simp)
  · cases x with
    | nil => simp at g1 g2; obtain ⟨rfl, -⟩ := g2; exact ht (g1 ▸ hl)
    | cons y x =>
      simp only [List.cons_append, List.cons.injEq] at g2
      obtain ⟨rfl, rfl⟩ := g2
      exact h l1 t1 (x ++ t :: r) (by simp [g1]) hl

theorem Single.reach {pol : Policy} (h : Reach pol Single n c) : Reach .functions Single n c ∧ First c := by
  induction h with
  | start =>
    refine ⟨.start, ?_⟩
    intro l t r he hl
    cases l with
    | nil => exact absurd rfl hl
    | cons u l =>
      simp only [start, List.cons_append, List.cons.injEq] at he
      have : t ∈ List.replicate n (⟨.idle, 0, 0⟩ : Thread) := by rw [he.2]; simp
      rw [List.mem_replicate] at this
      rw [this.2]; rfl
  | step _ hs ih =>
    obtain ⟨hr, hf⟩ := ih
    have hi := hr.inv fun _ _ _ h => h.1
    cases hs with
    | @call m m' l r t t' op hp ho hb hm =>
      have ht : l ≠ [] → t'.pc.inside = false := by
        intro hl
        rcases ho.2 with h | h
        · exact absurd (List.eq_nil_of_length_eq_zero h) hl
        · rcases h with rfl | rfl | rfl | rfl | rfl <;>
            simp only [begin_, Option.ite_none_right_eq_some, Option.some.injEq, Prod.mk.injEq] at hb <;>
            obtain ⟨-, -, rfl⟩ := hb <;> first | rfl | (simp only [hp]; rfl)
      refine ⟨.step hr (.call hp ho hb ?_), hf.put ht⟩
      by_cases hl : l = []
      · subst hl
        exact .inr (by simpa using hf.others)
      · exact .inl ⟨by rw [hp]; rfl, ht hl⟩
    | @run m m' l r t t' hp hb hm =>
      have ht : l ≠ [] → t'.pc.inside = false := by
        intro hl
        have h1 := hf l t r rfl hl
        have ho := hi.own t (by simp)
        have hd := ho.deref hp h1
        unfold micro at hb
        rw [hd] at hb
        simp only at hb
        split at hb
        · simp only [Except.ok.injEq, Prod.mk.injEq] at hb
          rw [← hb.2]; rfl
        · cases hb
      refine ⟨.step hr (.run hp hb ?_), hf.put ht⟩
      by_cases hl : l = []
      · subst hl
        exact .inr (by simpa using hf.others)
      · exact .inl ⟨hf l t r rfl hl, ht hl⟩

/-- C88 without any synchronisation, if only one thread creates, copies and destroys smart pointers to the object (the others
dereference the ones they have been given and hand them back). -/
theorem threads_single_partial {pol : Policy} (h : Reach pol Single n c) :
    (∀ f, ¬ Faulty pol c f) ∧ (0 < owners c → c.mem.died = 0) ∧ (0 < owners c + watchers c → c.mem.freed = 0) ∧
      (Quiet c → c.mem.use = owners c ∧ c.mem.weak = watchers c ∧ c.mem.died = (if owners c = 0 then 1 else 0) ∧
        c.mem.freed = (if owners c + watchers c = 0 then 1 else 0)) := by
  have hi := (Single.reach h).1.inv fun _ _ _ h => h.1
  refine ⟨hi.not_faulty, hi.died, hi.freed, ?_⟩
  intro hq
  exact rest_iff.1 (hi.rest fun t ht => by rw [hq t ht]; rfl)

/-! ### What does not hold -/

instance (pol : Policy) (us : List Thread) (t t' : Thread) : Decidable (May pol us t t') := by
  unfold May; split <;> infer_instance

/-- A step of thread `i`: a call, or the next access. -/
def step? (pol : Policy) (c : Cfg) : Nat × Option Op → Option Cfg
  | (i, o) =>
    match c.ts.drop i with
    | [] => none
    | t :: r =>
      let l := c.ts.take i
      match o with
      | some op =>
        if t.pc = .idle then
          match begin_ op c.mem t with
          | some (m', t') => if May pol (l ++ r) t t' then some ⟨m', l ++ t' :: r⟩ else none
          | none => none
        else none
      | none =>
        if t.pc = .idle then none
        else match micro c.mem t with
          | .ok (m', t') => if May pol (l ++ r) t t' then some ⟨m', l ++ t' :: r⟩ else none
          | .error _ => none

def steps? (pol : Policy) (c : Cfg) : List (Nat × Option Op) → Option Cfg
  | [] => some c
  | s :: ss => (step? pol c s).bind fun c' => steps? pol c' ss

theorem step?_sound {pol : Policy} {ok : Nat → Op → Thread → Prop} {c c' : Cfg} {s : Nat × Option Op}
    (hok : ∀ op t, s.2 = some op → ok s.1 op t) (h : step? pol c s = some c') : Step pol ok c c' := by
  obtain ⟨i, o⟩ := s
  obtain ⟨m, ts⟩ := c
  unfold step? at h
  simp only at h
  split at h
  · cases h
  · rename_i t r hd
    have he : ts = ts.take i ++ t :: r := by rw [← hd, List.take_append_drop]
    have hl : (ts.take i).length = i := by
      have : (ts.drop i).length = r.length + 1 := by rw [hd]; rfl
      rw [List.length_drop] at this
      rw [List.length_take]; omega
    rw [he]
    cases o with
    | some op =>
      simp only at h
      split at h
      · rename_i hp
        split at h
        · rename_i m' t' hb
          split at h
          · rename_i hm
            cases h
            exact .call hp (by rw [hl]; exact hok _ _ rfl) hb hm
          · cases h
        · cases h
      · cases h
    | none =>
      simp only at h
      split at h
      · cases h
      · rename_i hp
        split at h
        · rename_i m' t' hb
          split at h
          · rename_i hm
            cases h
            exact .run hp hb hm
          · cases h
        · cases h

theorem steps?_sound {pol : Policy} {ok : Nat → Op → Thread → Prop} {c c' : Cfg} {ss : List (Nat × Option Op)}
    (hr : Reach pol ok n c) (hok : ∀ s ∈ ss, ∀ op t, s.2 = some op → ok s.1 op t) (h : steps? pol c ss = some c') :
    Reach pol ok n c' := by
  induction ss generalizing c with
  | nil => cases h; exact hr
  | cons s ss ih =>
    unfold steps? at h
    cases h1 : step? pol c s with
    | none => rw [h1] at h; cases h
    | some c1 =>
      rw [h1] at h
      exact ih (.step hr (step?_sound (hok s (by simp)) h1)) (fun s hs => hok s (by simp [hs])) h

/-- Thread `i` makes a call and then `k` accesses. -/
def go (i : Nat) (op : Op) (k : Nat) : List (Nat × Option Op) := (i, some op) :: List.replicate k (i, none)

/-- Thread `i` makes `k` accesses. -/
def on (i k : Nat) : List (Nat × Option Op) := List.replicate k (i, none)

/-- Programs that only copy, destroy, dereference and hand over `shared_ptr`s. -/
def SharedOnly (_ : Nat) (op : Op) (_ : Thread) : Prop := op = .copy ∨ op = .drop ∨ op = .deref ∨ op = .put ∨ op = .get

instance (i : Nat) (op : Op) (t : Thread) : Decidable (SharedOnly i op t) := by unfold SharedOnly; infer_instance

/-- Both threads own the object. -/
def both : List (Nat × Option Op) := go 0 .copy 3 ++ go 0 .put 0 ++ go 1 .get 0

/-- Both threads copy their `shared_ptr` at the same time: an increment is lost. Then three of the four are destroyed, and the
last owner dereferences its `shared_ptr`. -/
def race : List (Nat × Option Op) :=
  both ++ go 0 .copy 2 ++ go 1 .copy 2 ++ on 0 1 ++ on 1 1 ++ go 0 .drop 4 ++ go 0 .drop 4 ++ go 1 .drop 7 ++ go 1 .deref 0

theorem only {ops : List Op} {ss : List (Nat × Option Op)} (h : ∀ s ∈ ss, s.2 = none ∨ ∃ op ∈ ops, s.2 = some op)
    {s : Nat × Option Op} (hs : s ∈ ss) {op : Op} (he : s.2 = some op) : op ∈ ops := by
  rcases h s hs with h | ⟨op', h1, h2⟩
  · rw [h] at he; cases he
  · rw [h2] at he; cases he; exact h1

/-- C88 is violated: two threads that copy and destroy their own `shared_ptr`s can end with an object that is destroyed although
one of them still owns it, and the owner uses it. -/
theorem race_copy : ∃ c, Reach .none SharedOnly 1 c ∧ Faulty .none c .deadObject ∧ owners c = 1 ∧ c.mem.freed = 1 := by
  refine ⟨(steps? .none (start 1) race).getD (start 1), steps?_sound (ss := race) .start ?_ rfl, ?_, rfl, rfl⟩
  · intro s hs op t he
    simpa [SharedOnly] using only (ops := [.copy, .drop, .deref, .put, .get]) (by decide) hs he
  · exact ⟨[⟨.idle, 0, 0⟩], ⟨.deref, 1, 0⟩, [], rfl, by decide, rfl, trivial⟩

/-- Both threads destroy their `shared_ptr` at the same time: a decrement is lost. -/
def race2 : List (Nat × Option Op) := both ++ go 0 .drop 2 ++ go 1 .drop 2 ++ on 0 2 ++ on 1 2

/-- C88 is violated: all `shared_ptr`s are gone and all calls have ended, but the object has not been destroyed and the block has
not been deallocated. -/
theorem race_leak : ∃ c, Reach .none SharedOnly 1 c ∧ Quiet c ∧ owners c = 0 ∧ watchers c = 0 ∧ c.mem.died = 0 ∧ c.mem.freed = 0 := by
  refine ⟨(steps? .none (start 1) race2).getD (start 1), steps?_sound (ss := race2) .start ?_ rfl, ?_, rfl, rfl, rfl, rfl⟩
  · intro s hs op t he
    simpa [SharedOnly] using only (ops := [.copy, .drop, .deref, .put, .get]) (by decide) hs he
  · show ∀ t ∈ [(⟨.idle, 0, 0⟩ : Thread), ⟨.idle, 0, 0⟩], t.pc = .idle
    decide

/-- Both threads destroy their `shared_ptr`; both decrements happen before both tests. -/
def race3 : List (Nat × Option Op) := both ++ go 0 .drop 3 ++ go 1 .drop 3 ++ on 0 1 ++ on 1 1 ++ on 0 1

/-- C88 would be violated with atomic counters, too: the test after the decrement is a separate access, so both threads see
that no owner is left, and the object is destroyed twice. -/
theorem race_counters : ∃ c, Reach .counters SharedOnly 1 c ∧ Faulty .counters c .destroyedTwice ∧ c.mem.died = 1 := by
  refine ⟨(steps? .counters (start 1) race3).getD (start 1), steps?_sound (ss := race3) .start ?_ rfl, ?_, rfl⟩
  · intro s hs op t he
    simpa [SharedOnly] using only (ops := [.copy, .drop, .deref, .put, .get]) (by decide) hs he
  · exact ⟨[⟨.rel5, 0, 0⟩], ⟨.rel4, 0, 0⟩, [], rfl, by decide, rfl, by decide⟩

/-- The first thread has the only `shared_ptr`, the second one the only `weak_ptr`. -/
def watch : List (Nat × Option Op) := go 0 .toWeak 3 ++ go 0 .putWeak 0 ++ go 1 .getWeak 0

/-- The last `shared_ptr` and the last `weak_ptr` are destroyed at the same time. -/
def race4 : List (Nat × Option Op) := watch ++ go 0 .drop 5 ++ go 1 .dropWeak 6

/-- With atomic counters the last `shared_ptr` and the last `weak_ptr` still disturb each other: the thread that destroys the
`shared_ptr` accesses the block after the other one has deallocated it. -/
theorem race_counters_weak : ∃ c, Reach .counters Guarded 1 c ∧ Faulty .counters c .freedBlock ∧ c.mem.freed = 1 := by
  refine ⟨(steps? .counters (start 1) race4).getD (start 1), steps?_sound (ss := race4) .start ?_ rfl, ?_, rfl⟩
  · intro s hs op t he
    have := only (ops := [.toWeak, .putWeak, .getWeak, .drop, .dropWeak]) (by decide) hs he
    simp only [List.mem_cons, List.not_mem_nil, or_false] at this
    rcases this with rfl | rfl | rfl | rfl | rfl <;> trivial
  · exact ⟨[], ⟨.rel5, 0, 0⟩, [⟨.idle, 0, 0⟩], rfl, by decide, rfl, by decide⟩

/-- Programs that call `lock` only after `expired` has returned false. -/
def Checked (_ : Nat) (op : Op) (_ : Thread) : Prop := op ≠ .lock

/-- The second thread finds that its `weak_ptr` has not expired; then the first thread destroys the last `shared_ptr`; then the
second thread locks and dereferences. -/
def race5 : List (Nat × Option Op) := watch ++ go 1 .lockIf 1 ++ go 0 .drop 6 ++ on 1 4 ++ go 1 .deref 0

/-- Even with a lock around every function of the control block, `if (!p.expired()) q = p.lock();`, which is safe in one thread
(C52), can return a `shared_ptr` to a destroyed object. -/
theorem race_lock : ∃ c, Reach .functions Checked 1 c ∧ Faulty .functions c .deadObject ∧ owners c = 1 := by
  refine ⟨(steps? .functions (start 1) race5).getD (start 1), steps?_sound (ss := race5) .start ?_ rfl, ?_, rfl⟩
  · intro s hs op t he
    have := only (ops := [.toWeak, .putWeak, .getWeak, .drop, .lockIf, .deref]) (by decide) hs he
    simp only [List.mem_cons, List.not_mem_nil, or_false] at this
    rcases this with rfl | rfl | rfl | rfl | rfl | rfl <;> (unfold Checked; decide)
  · exact ⟨[⟨.idle, 0, 0⟩], ⟨.deref, 1, 1⟩, [], rfl, by decide, rfl, .inl (by decide)⟩

/-! ### Examples -/

/-- Two threads with the lock: both own the object, the second one makes a `weak_ptr` while the first one dereferences, all
`shared_ptr`s are destroyed, then the `weak_ptr`. -/
def demo : List (Nat × Option Op) :=
  both ++ go 1 .toWeak 1 ++ go 0 .deref 0 ++ on 1 1 ++ on 0 1 ++ on 1 1 ++ go 0 .drop 4 ++ go 1 .drop 6

theorem demo_reach : Reach .functions Guarded 1 ((steps? .functions (start 1) demo).getD (start 1)) := by
  refine steps?_sound (ss := demo) .start ?_ rfl
  intro s hs op t he
  have := only (ops := [.copy, .put, .get, .toWeak, .deref, .drop]) (by decide) hs he
  simp only [List.mem_cons, List.not_mem_nil, or_false] at this
  rcases this with rfl | rfl | rfl | rfl | rfl | rfl <;> trivial

example : ∃ c, Reach .functions Guarded 1 c ∧ Quiet c ∧ owners c = 0 ∧ watchers c = 1 ∧ c.mem.died = 1 ∧ c.mem.freed = 0 := by
  refine ⟨_, demo_reach, ?_, rfl, rfl, ?_⟩
  · show ∀ t ∈ [(⟨.idle, 0, 0⟩ : Thread), ⟨.idle, 0, 1⟩], t.pc = .idle
    decide
  · have h := (threads_locked_partial demo_reach).2.2.2 (by show ∀ t ∈ [(⟨.idle, 0, 0⟩ : Thread), ⟨.idle, 0, 1⟩], t.pc = .idle; decide)
    exact ⟨h.2.2.1, h.2.2.2⟩

/-- The code as it is: the second thread dereferences while the first one is in the middle of `release`. -/
def demo2 : List (Nat × Option Op) := both ++ go 0 .copy 3 ++ go 0 .drop 2 ++ go 1 .deref 0

example : ∃ c, Reach .none Single 1 c ∧ owners c = 2 ∧ ¬ Quiet c ∧ ∀ f, ¬ Faulty .none c f := by
  have hr : Reach .none Single 1 ((steps? .none (start 1) demo2).getD (start 1)) := by
    refine steps?_sound (ss := demo2) .start ?_ rfl
    intro s hs op t he
    have h : ∀ s ∈ demo2, s.2 = none ∨ (s.1 = 0 ∧ ∃ op ∈ [Op.copy, .put, .drop], s.2 = some op) ∨ ∃ op ∈ [Op.get, .deref], s.2 = some op := by decide
    rcases h s hs with h | ⟨h0, op', h1, h2⟩ | ⟨op', h1, h2⟩
    · rw [h] at he; cases he
    · rw [h2] at he; cases he
      refine ⟨?_, .inl h0⟩
      simp only [List.mem_cons, List.not_mem_nil, or_false] at h1
      rcases h1 with rfl | rfl | rfl <;> trivial
    · rw [h2] at he; cases he
      simp only [List.mem_cons, List.not_mem_nil, or_false] at h1
      rcases h1 with rfl | rfl
      · exact ⟨trivial, by simp⟩
      · exact ⟨trivial, by simp⟩
  refine ⟨_, hr, rfl, ?_, (threads_single_partial hr).1⟩
  intro h
  exact absurd (h ⟨.deref, 1, 0⟩ (by show _ ∈ [(⟨.rel2 3, 1, 0⟩ : Thread), ⟨.deref, 1, 0⟩]; simp)) (by decide)

end Nestl.Th
