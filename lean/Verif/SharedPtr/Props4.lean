import Verif.SharedPtr.AnyExec
import Verif.SharedPtr.Props
set_option autoImplicit false
/-
C49 and parts of C50 and C52 for *every* program whose calls return, including programs that run into the defects of
C52-C57 (which `Reach` excludes): `Hist` puts no condition on the calls, their arguments and the error object.
-/
namespace Nestl.SP

variable {V : Type} {w w' : W V} {l m : Loc} {b : Ptr}

/-- The states between the calls of any program: each call has returned, and was given any error object. -/
inductive Hist : W V → Prop
  | start (env) : Hist (start env)
  | step {w c e r w'} : Hist w → Runs (exec c) { w with err := e } r w' → Hist w'

theorem Hist.fine (h : Hist w) : Fine w := by
  induction h with
  | start env => exact Fine.start env
  | @step w c e r w' _ hr ih => exact (Fine.exec (S.env (w' := { w with err := e }) ih rfl rfl) _ _ _ hr).1

/-- Programs of valid calls are a special case. -/
theorem Reach.hist (h : Reach w) : Hist w := by
  induction h with
  | start env => exact .start env
  | step _ _ hr ih => exact .step (e := none) ih hr

theorem Fine.count (s : Fine w) (hb : b ≠ .null) : Card (fun m => Refers w .sh m b) (useOf (w.heap b)) := by
  obtain ⟨dom, u⟩ := s.us
  have e : useOf (w.heap b) = tot dom w.heap .sh b := by
    have := u.cnt b hb
    simp at this
    exact_mod_cast this
  rw [e]
  exact (card_tot u.nd u.cov _ _).congr fun l => ⟨fun h => ⟨hb, h⟩, fun h => h.2⟩

theorem Fine.block (s : Fine w) (h : Refers w .sh l b) : ∃ c, w.heap b = some (.blk c) ∧ 0 < c.use ∧ Card (fun m => Refers w .sh m b) c.use := by
  have hu := s.count h.1
  have hpos := hu.pos.2 ⟨l, h⟩
  rcases hc : w.heap b with _ | (⟨k', x⟩ | c | o | _)
  · rw [hc] at hpos; cases hpos
  · rw [hc] at hpos; cases hpos
  · rw [hc] at hpos hu; exact ⟨c, rfl, hpos, hu⟩
  · rw [hc] at hpos; cases hpos
  · rw [hc] at hpos; cases hpos

theorem Fine.refers (s : Fine w) {k : Kind} (h : Refers w k l b) : At w.heap k l ⟨b, b⟩ := by
  obtain ⟨hb, z, hz, rfl⟩ := h
  have := s.same k l z hz (fun h => h)
  rcases z with ⟨p, r⟩
  simp only at this; subst this; exact hz

/-- Every handle is empty or refers to something. -/
theorem handle_cases_all (hr : Hist w) {k : Kind} (h : Has (At w.heap) k l) : Empty w k l ∨ ∃ b, Refers w k l b := by
  obtain ⟨z, hz⟩ := h
  by_cases e : z.ref = .null
  · left
    have := hr.fine.same k l z hz (fun h => h)
    rcases z with ⟨p, r⟩
    simp only at this e; subst e; subst this; exact hz
  · exact .inr ⟨_, e, z, hz, rfl⟩

/-! ### C49 -/

/-- C49: after any history, the use count of a `shared_ptr` that owns an object is the number of `shared_ptr`s owning
that object (in variables or inside managed objects), `unique()` iff it is 1, `operator bool` is true, `get()` and
dereferencing yield the object. -/
theorem use_count_correct (hr : Hist w) (h : Refers w .sh l b) :
    ∃ n, Card (fun m => Refers w .sh m b) n ∧ 0 < n ∧ Runs (useCount l) w n w ∧ Runs (unique l) w (decide (n = 1)) w ∧
      Runs (toBool l) w true w ∧ Runs (get l) w b w ∧ Runs (deref l) w b w ∧ b ≠ .null := by
  have s := hr.fine
  have hx := s.refers h
  have hn := s.null
  obtain ⟨c, hc, hpos, hu⟩ := s.block h
  have huc : wp (useCount l) w fun r w' => r = c.use ∧ w' = w := by
    unfold useCount
    rw [wp_bind, wp_getH hx hn, if_neg h.1]
    unfold blkUseCount
    rw [wp_bind, wp_rdBlk hc h.1]; exact ⟨rfl, rfl⟩
  have hget : wp (getH .sh l) w fun r w' => r = ⟨b, b⟩ ∧ w' = w := (wp_getH hx hn).2 ⟨rfl, rfl⟩
  refine ⟨c.use, hu, hpos, runs_of_wp huc, runs_of_wp ?_, runs_of_wp ?_, runs_of_wp ?_, runs_of_wp ?_, h.1⟩
  · unfold unique; rw [wp_bind]
    refine wp_mono huc ?_
    rintro r w' ⟨rfl, rfl⟩; exact ⟨rfl, rfl⟩
  · unfold toBool; rw [wp_bind]
    refine wp_mono huc ?_
    rintro r w' ⟨rfl, rfl⟩; exact ⟨by simp [hpos], rfl⟩
  · unfold get; rw [wp_bind]
    refine wp_mono hget ?_
    rintro r w' ⟨rfl, rfl⟩; exact ⟨rfl, rfl⟩
  · unfold deref; rw [wp_bind]
    refine wp_mono hget ?_
    rintro r w' ⟨rfl, rfl⟩
    rw [wp_bind, wp_assertM]
    exact ⟨by simpa using h.1, rfl, rfl⟩

/-- C49: after any history, an empty `shared_ptr` has use count 0, is not unique, is false, yields null, and must not be
dereferenced. -/
theorem use_count_empty (hr : Hist w) (h : Empty w .sh l) :
    Runs (useCount l) w 0 w ∧ Runs (unique l) w false w ∧ Runs (toBool l) w false w ∧ Runs (get l) w .null w ∧
      Faults (deref l) w .assertFail := by
  have hn := hr.fine.null
  have hget : wp (getH .sh l) w fun r w' => r = .nil ∧ w' = w := (wp_getH h hn).2 ⟨rfl, rfl⟩
  have huc : wp (useCount l) w fun r w' => r = 0 ∧ w' = w := by
    unfold useCount
    rw [wp_bind]
    refine wp_mono hget ?_
    rintro r w' ⟨rfl, rfl⟩; exact ⟨rfl, rfl⟩
  refine ⟨runs_of_wp huc, runs_of_wp ?_, runs_of_wp ?_, runs_of_wp ?_, ?_⟩
  · unfold unique; rw [wp_bind]
    refine wp_mono huc ?_
    rintro r w' ⟨rfl, rfl⟩; exact ⟨rfl, rfl⟩
  · unfold toBool; rw [wp_bind]
    refine wp_mono huc ?_
    rintro r w' ⟨rfl, rfl⟩; exact ⟨rfl, rfl⟩
  · unfold get; rw [wp_bind]
    refine wp_mono hget ?_
    rintro r w' ⟨rfl, rfl⟩; exact ⟨rfl, rfl⟩
  · unfold deref
    refine wp.faults_bind (wp_mono hget ?_)
    rintro r w' ⟨rfl, rfl⟩
    exact (Faults.assertM rfl).bind

/-- A program that is not made of valid calls: the demonstration, followed by the move assignment `wa = move(b->back)` of
`weak_ptr`s, which loses a weak reference (C53). -/
def Demo.d6 : W Nat := Demo.go (.moveAssignWeak (.var Demo.wa) (.mem Demo.b 1)) Demo.d5

theorem Demo.h6 : Hist Demo.d6 :=
  .step (c := .moveAssignWeak (.var Demo.wa) (.mem Demo.b 1)) (e := none) (r := none) Demo.r5.hist rfl

example : ¬ Valid Demo.d5 (.moveAssignWeak (.var Demo.wa) (.mem Demo.b 1)) := by
  rintro ⟨-, -, h | ⟨c, o, h1, h2, h3⟩⟩
  · cases h
  · cases h1; cases h2; cases h3

example : Hist Demo.d6 ∧ Refers Demo.d6 .sh (.mem Demo.a 0) Demo.b ∧ Runs (useCount (.mem Demo.a 0)) Demo.d6 2 Demo.d6 ∧
    Empty Demo.d6 .sh (.mem Demo.b 0) :=
  ⟨Demo.h6, ⟨by simp, _, ⟨_, _, rfl, rfl, rfl⟩, rfl⟩, rfl, ⟨_, _, rfl, rfl, rfl⟩⟩

/-! ### C50 -/

/-- C50: after any history, an object that is alive has an owner. -/
theorem alive_owned_partial (hr : Hist w) (h : Alive w b) : ∃ l, Refers w .sh l b := by
  have s := hr.fine
  obtain ⟨v, c, o, h1, h2, -⟩ := h
  have hpos := s.life b c h1 (by rw [h2]; simp) (by simp)
  have hb : b ≠ .null := by rintro rfl; rw [s.null] at h1; cases h1
  have := s.count hb
  rw [h1] at this
  exact this.pos.1 hpos

/-- C50, missing: an object must not be destroyed again through a `shared_ptr` obtained by locking an expired `weak_ptr`
(`lock_expired_violated`).  In any call that returns, after any history and whatever the call is, an object that was
alive is alive afterwards (with the same value) iff a `shared_ptr` still owns it: it is never destroyed earlier, and
never later. -/
theorem destroyed_iff_unowned_partial (hr : Hist w) {c : Call V} {e : Option Err} {r : Option Ptr}
    (h : Runs (exec c) { w with err := e } r w') {v : V} (hv : Val w.heap b v) :
    Val w'.heap b v ↔ ∃ l, Refers w' .sh l b := by
  have hr' : Hist w' := .step hr h
  have hb : b ≠ .null := by
    rintro rfl; obtain ⟨c, o, h1, -⟩ := hv
    rw [hr.fine.null] at h1; cases h1
  constructor
  · intro h1; exact alive_owned_partial hr' ⟨v, h1⟩
  · intro h1
    rcases (Fine.exec (S.env (w' := { w with err := e }) hr.fine rfl rfl) _ _ _ h).2 b v hv with h2 | h2
    · exact h2
    · have := (hr'.fine.count hb).pos.2 h1
      omega

example : Hist Demo.d5 ∧ Val Demo.d5.heap Demo.b 20 ∧
    Runs (exec (.moveAssignWeak (.var Demo.wa) (.mem Demo.b 1))) { Demo.d5 with err := none } none Demo.d6 ∧ Alive Demo.d6 Demo.b :=
  ⟨Demo.r5.hist, Demo.facts.2.2.2.2.2.2.2.2, rfl, ⟨_, _, _, rfl, rfl, rfl⟩⟩

/-! ### C52 -/

/-- C52: after any history, if `weak_ptr::use_count` returns then it returns the number of owners, and if `expired()`
returns false then there is an owner. -/
theorem weak_use_count_partial (hr : Hist w) (h : Refers w .wk l b) :
    (∀ n w', Runs (weakUseCount l) w n w' → w' = w ∧ Card (fun m => Refers w .sh m b) n) ∧
    (∀ x w', Runs (expired l) w x w' → w' = w ∧ (x = false ↔ ∃ m, Refers w .sh m b)) := by
  have s := hr.fine
  have hx := s.refers h
  have key : pw (weakUseCount l) w fun n w' => w' = w ∧ Card (fun m => Refers w .sh m b) n := by
    refine pw_bind (pw_getH ?_)
    intro z hz
    obtain ⟨-, rfl⟩ := hx.det hz
    refine pw_ite (fun e => (h.1 e).elim) (fun _ => ?_)
    refine pw_bind (pw_rdBlk ?_)
    intro c hc _
    refine pw_pure ⟨rfl, ?_⟩
    have := s.count h.1
    rw [show w.heap b = some (.blk c) from hc] at this
    exact this
  refine ⟨key, ?_⟩
  have : pw (expired l) w fun x w' => w' = w ∧ (x = false ↔ ∃ m, Refers w .sh m b) := by
    refine pw_bind (pw_mono key ?_)
    rintro n w' ⟨rfl, hn⟩
    refine pw_pure ⟨rfl, ?_⟩
    rw [← hn.pos]; simp; omega
  exact this

example : Hist Demo.d6 ∧ Refers Demo.d6 .wk (.var Demo.wa) Demo.a ∧ Runs (weakUseCount (.var Demo.wa)) Demo.d6 1 Demo.d6 ∧
    Runs (expired (.var Demo.wa)) Demo.d6 false Demo.d6 := ⟨Demo.h6, ⟨by simp, _, rfl, rfl⟩, rfl, rfl⟩

end Nestl.SP
