import Verif.Exceptions.VectorModel
import Verif.Exceptions.Basic
import Verif.Vector.Props3
set_option autoImplicit false
/-
Property C59 for `nestl::has_exceptions::vector`.  The vocabulary is that of the vector theorems (`Verif/Vector/Client.lean`
and the top of `Verif/Vector/Demo.lean`); the throwing functions are in `Verif/Exceptions/VectorModel.lean`.
-/
namespace Nestl.HxVec
open Nestl.Vec Nestl.VC
variable {V : Type} [ElemSize V] {w w' : W V} {σ : Sg V} {s t d : Ptr} {L M : List V} {x : V} {a : CArg V} {v u : Vec V}

omit [ElemSize V] in
theorem evalArg_state {b : Arg V} (h : Runs (evalArg a) w b w') : w' = w := by
  cases a with
  | val v => cases h; rfl
  | elem t i =>
    simp only [evalArg, runs_bind] at h
    obtain ⟨o, w1, h1, _, w2, h2, h3⟩ := h
    have e1 : w1 = w := by
      unfold rdObj at h1
      simp only [runs_bind] at h1
      obtain ⟨c, w3, h4, h5⟩ := h1
      have e3 : w3 = w := by
        unfold Runs rd at h4
        split at h4
        · cases h4
        · split at h4 <;> cases h4; rfl
      cases c with
      | obj o => cases h5; exact e3
      | blk b => cases h5
    have e2 : w2 = w1 := by
      unfold assertM at h2
      split at h2 <;> cases h2; rfl
    cases h3
    exact e2.trans e1

/-- `push_back` does what `push_back_nothrow` does and throws the error that it reports. -/
theorem run_pushBack (h : Runs (exec (.pushBack s a)) (ready w) .unit w') :
    Runs (callPushBack s a) (ready w) (outcome w'.err) (ready w') := by
  simp only [exec, runs_bind] at h
  obtain ⟨b, w1, h1, _, w2, h2, h3⟩ := h
  cases h3
  obtain rfl := evalArg_state h1
  unfold callPushBack pushBack
  simp only [runs_bind]
  refine ⟨b, _, h1, (), ready w, rfl, (), w', h2, w'.err, ready w', rfl, ?_⟩
  cases h : w'.err with
  | none => rfl
  | some e => rfl

/-- The vectors determine the memory. -/
theorem heap_eq {h h' : Ptr → Option (VCell V)} (h1 : St h σ) (h2 : St h' σ) : h = h' := by
  have key : ∀ {h h' : Ptr → Option (VCell V)}, St h σ → St h' σ → ∀ p c, h p = some c → h' p = some c := by
    intro h h' h1 h2 p c hp
    rcases h1.cover p (by rw [hp]; simp) with h3 | ⟨s, v, hs, rfl, hn⟩
    · obtain ⟨v, hv⟩ := Option.ne_none_iff_exists'.1 h3
      rw [(h1.obj _ _ hv).2] at hp
      rw [(h2.obj _ _ hv).2, hp]
    · rcases (h1.ok _ _ hs).blk with ⟨h3, _⟩ | ⟨_, h3⟩
      · exact absurd h3 hn
      · rcases (h2.ok _ _ hs).blk with ⟨h4, _⟩ | ⟨_, h4⟩
        · exact absurd h4 hn
        · rw [h3] at hp; rw [h4, hp]
  funext p
  cases h3 : h p with
  | some c => exact (key h1 h2 p c h3).symm
  | none =>
    cases h4 : h' p with
    | none => rfl
    | some c => rw [key h2 h1 p c h4] at h3; cases h3

/-! ### Steps -/

theorem step_new (hr : Reach w) (h : Inv w σ) (al : Nat) : ∃ d w1, Runs (newVec al) (ready w) d w1 ∧ Reach w1 ∧ w1.err = none ∧
    σ d = none ∧ Inv w1 (upd σ d (some (bare al))) ∧ (Good w → Good w1) := by
  have hd := h.top w.sp (Nat.le_refl _)
  have : wp (newVec al) (ready w) fun r w' => r = .stk w.sp ∧ w'.err = none ∧ Inv w' (upd σ (.stk w.sp) (some (bare al))) ∧
      (Good w → Good w') := by
    refine wp_newVec h.ready.st hd al ?_
    intro h' hst hfr
    refine ⟨rfl, rfl, ⟨hst, ?_⟩, ?_⟩
    · intro i hi
      have hi : w.sp + 1 ≤ i := hi
      have : Ptr.stk i ≠ Ptr.stk w.sp := by simp; omega
      exact (upd_other _ _ this).trans (h.top i (by omega))
    · intro hg
      exact ⟨hg.some, hg.inj, hg.ctor, fun b hb => hg.past b (by rw [← show h' (.dyn b) = w.heap (.dyn b) from hfr _ (by simp)]; exact hb)⟩
  obtain ⟨d, w1, h1, rfl, h2, h3, h4⟩ := this.runs
  refine ⟨_, w1, h1, hr.next (c := .create al) trivial (r := .obj (.stk w.sp)) ?_, h2, hd, h3, h4⟩
  simp only [exec, runs_bind]
  exact ⟨_, _, h1, rfl⟩

theorem step_copy (hr : Reach w) (h : Inv w σ) (hd : σ d = some v) (ht : σ t = some u) : ∃ w1, Runs (copyNothrow d t) (ready w) () w1 ∧
    Reach w1 ∧ ∃ v', Inv w1 (upd σ d (some v')) ∧ v'.alloc = defaultAlloc ∧ (w1.err = none → v'.els = u.els) ∧
      (Good w → Modest V 1 → w1.err = none) := by
  obtain ⟨r, w1, h1, k, v', h2⟩ := (wp_copyNothrow h.ready.st rfl hd ht (h.ready.top _ (Nat.le_refl _))).runs
  refine ⟨w1, h1, hr.next (c := .copy d t) (r := .unit) ⟨(alive_iff h).2 ⟨_, hd⟩, (alive_iff h).2 ⟨_, ht⟩⟩ ?_, v', Assigned.inv h2 h.ready hd,
    h2.alloc, ?_, ?_⟩
  · simp only [exec, runs_bind]
    exact ⟨_, _, h1, rfl⟩
  · intro h0; rw [h2.els, h2.ok h0, List.take_length]
  · intro hg hm
    refine h2.good (ready_good hg) ?_
    have hok := h.st.ok _ _ ht
    have := hok.len
    rcases Nat.le_total u.els.length 1 with h1 | h1
    · rw [Nat.max_eq_left h1]; exact hm
    · rw [Nat.max_eq_right h1]; exact hok.fits.mono (by omega)

theorem step_destroy (hr : Reach w) (h : Inv w σ) (hd : σ d = some v) : ∃ w1, Runs (destroyVec d) (ready w) () w1 ∧ Reach w1 ∧
    w1.err = none ∧ Inv w1 (upd σ d none) := by
  have : wp (destroyVec d) (ready w) fun _ w' => w'.err = none ∧ Inv w' (upd σ d none) := by
    refine wp_destroyVec h.ready.st hd ?_
    intro h' hst _ _
    refine ⟨rfl, hst, fun i hi => ?_⟩
    rw [upd_apply]
    split
    · rfl
    · exact h.top i hi
  obtain ⟨_, w1, h1, h2, h3⟩ := this.runs
  refine ⟨w1, h1, hr.next (c := .destroy d) (r := .unit) ((alive_iff h).2 ⟨_, hd⟩) ?_, h2, h3⟩
  simp only [exec, runs_bind]
  exact ⟨_, _, h1, rfl⟩

theorem step_swap (hr : Reach w) (h : Inv w σ) (hs : σ s = some v) (ht : σ t = some u) (hne : s ≠ t) : ∃ w1,
    Runs (Vec.swap s t) (ready w) () w1 ∧ Reach w1 ∧ w1.err = none ∧ Inv w1 (upd (upd σ s (some u)) t (some v)) := by
  have : wp (Vec.swap s t) (ready w) fun _ w' => w'.err = none ∧ Inv w' (upd (upd σ s (some u)) t (some v)) := by
    refine wp_swap h.ready.st hs ht hne ?_
    intro h' hst _
    refine ⟨rfl, hst, fun i hi => ?_⟩
    have h1 := h.top i hi
    rw [upd_other _ _ (by rintro rfl; rw [ht] at h1; cases h1), upd_other _ _ (by rintro rfl; rw [hs] at h1; cases h1)]
    exact h1
  obtain ⟨_, w1, h1, h2, h3⟩ := this.runs
  refine ⟨w1, h1, hr.next (c := .swap s t) (r := .unit) ⟨(alive_iff h).2 ⟨_, hs⟩, (alive_iff h).2 ⟨_, ht⟩⟩ ?_, h2, h3⟩
  simp only [exec, runs_bind]
  exact ⟨_, _, h1, rfl⟩

omit [ElemSize V] in
theorem ready_of_err (h : w.err = none) : ready w = w := by
  cases w; cases h; rfl

theorem run_getAlloc (h : Inv w σ) (ht : σ t = some u) : Runs (getAlloc t) w u.alloc w := (hasAlloc_iff h ht).2 rfl

/-- The copy constructor, with the state of all vectors. -/
theorem run_copyCtor (hr : Reach w) (h : Inv w σ) (ht : σ t = some u) : ∃ r w', Runs (copyCtor t) (ready w) r w' ∧ Reach w' ∧ w'.err = none ∧
    (∀ e, r = .error e → Inv w' σ) ∧
    (∀ d, r = .ok d → σ d = none ∧ ∃ v, Inv w' (upd σ d (some v)) ∧ v.els = u.els ∧ v.alloc = defaultAlloc) ∧
    (Good w → Modest V 1 → ∃ d, r = .ok d) := by
  obtain ⟨d, w1, r1, hr1, e1, hd, i1, g1⟩ := step_new hr h u.alloc
  have hne : t ≠ d := by rintro rfl; rw [hd] at ht; cases ht
  obtain ⟨w2, r2, hr2, v', i2, al, h2, g2⟩ := step_copy hr1 i1 (upd_same _ _ _) (t := t) (u := u) (by rw [upd_other _ _ hne]; exact ht)
  rw [upd_upd] at i2
  cases he : w2.err with
  | none =>
    refine ⟨.ok d, ready w2, ?_, ?_, rfl, (by rintro e h; cases h), ?_, fun _ _ => ⟨d, rfl⟩⟩
    · unfold copyCtor
      simp only [runs_bind]
      refine ⟨_, _, run_getAlloc h.ready ht, d, w1, r1, (), ready w1, rfl, (), w2, r2, none, ready w2, by unfold Runs takeErr; rw [he]; rfl, rfl⟩
    · rw [ready_of_err he]; exact hr2
    · rintro _ ⟨⟩
      exact ⟨hd, v', i2.ready, h2 he, al⟩
  | some e =>
    obtain ⟨w3, r3, hr3, e3, i3⟩ := step_destroy hr2 i2 (upd_same _ _ _)
    rw [upd_upd, upd_self _ _ _ hd] at i3
    refine ⟨.error e, w3, ?_, hr3, e3, fun _ _ => i3, (by rintro _ ⟨⟩), ?_⟩
    · unfold copyCtor
      simp only [runs_bind]
      refine ⟨_, _, run_getAlloc h.ready ht, d, w1, r1, (), ready w1, rfl, (), w2, r2, some e, ready w2, by unfold Runs takeErr; rw [he]; rfl, ?_⟩
      simp only [runs_bind]
      exact ⟨(), w3, r3, rfl⟩
    · intro hg hm
      rw [g2 (g1 hg) hm] at he; cases he

/-- The copy assignment, with the state of all vectors. -/
theorem run_copyAssign (hr : Reach w) (h : Inv w σ) (hs : σ s = some v) (ht : σ t = some u) : ∃ r w', Runs (copyAssign s t) (ready w) r w' ∧
    Reach w' ∧ w'.err = none ∧ (∀ e, r = .error e → Inv w' σ) ∧
    (r = .ok () → ∃ v', Inv w' (upd σ s (some v')) ∧ v'.els = u.els ∧ v'.alloc = defaultAlloc) ∧
    (Good w → Modest V 1 → r = .ok ()) := by
  obtain ⟨r, w1, r1, hr1, e1, h1, h2, h3⟩ := run_copyCtor hr h ht
  cases r with
  | error e =>
    refine ⟨.error e, w1, ?_, hr1, e1, fun _ _ => h1 e rfl, (by rintro ⟨⟩), fun hg hm => ?_⟩
    · unfold copyAssign
      simp only [runs_bind]
      exact ⟨_, _, r1, rfl⟩
    · obtain ⟨_, h4⟩ := h3 hg hm; cases h4
  | ok d =>
    obtain ⟨hd, v', i1, h4, h5⟩ := h2 d rfl
    have hne : s ≠ d := by rintro rfl; rw [hd] at hs; cases hs
    obtain ⟨w2, r2, hr2, e2, i2⟩ := step_swap hr1 i1 (s := s) (t := d) (by rw [upd_other _ _ hne]; exact hs) (upd_same _ _ _) hne
    obtain ⟨w3, r3, hr3, e3, i3⟩ := step_destroy hr2 i2 (upd_same _ _ _)
    rw [ready_of_err e1] at r2
    rw [ready_of_err e2] at r3
    have e : upd (upd (upd (upd σ d (some v')) s (some v')) d (some v)) d none = upd σ s (some v') := by
      rw [upd_upd, upd_comm _ _ _ hne, upd_upd, upd_self _ _ _ hd]
    rw [e] at i3
    refine ⟨.ok (), w3, ?_, hr3, e3, (by rintro _ ⟨⟩), fun _ => ⟨v', i3, h4, h5⟩, fun _ _ => rfl⟩
    unfold copyAssign
    simp only [runs_bind]
    refine ⟨_, _, r1, ?_⟩
    simp only [runs_bind]
    exact ⟨(), w2, r2, (), w3, r3, rfl⟩

/-! ### Property theorems -/

theorem contents_ready (h : Inv w σ) (ha : Alive w s) (hc : Contents w s L) : Contents (ready w) s L := by
  obtain ⟨v, hv⟩ := (alive_iff h).1 ha
  exact (contents_iff h.ready hv).2 ((contents_iff h hv).1 hc)

theorem unchanged_ready {S : List Ptr} (h : Inv w' σ) (hu : Unchanged w w' S) : Unchanged w (ready w') S := by
  intro u h1 h2
  obtain ⟨h3, h4, h5, h6, h7⟩ := hu u h1 h2
  obtain ⟨v, hv⟩ := (alive_iff h).1 h3
  exact ⟨h3, fun L hL => (contents_iff h.ready hv).2 ((contents_iff h hv).1 (h4 L hL)),
    fun L hL => (hasCap_iff h.ready hv).2 ((hasCap_iff h hv).1 (h5 L hL)), fun L hL => (hasData_iff h.ready hv).2 ((hasData_iff h hv).1 (h6 L hL)),
    fun L hL => (hasAlloc_iff h.ready hv).2 ((hasAlloc_iff h hv).1 (h7 L hL))⟩

/-- C59, `push_back` of `has_exceptions::vector`: it throws `e` iff `push_back_nothrow` reports `e`.  If it throws the elements
are exactly as before, otherwise the value is appended.  All other vectors are untouched, nothing leaks, and all theorems
about reachable states apply to the state afterwards. -/
theorem vector_push_back_throws (hr : Reach w) (ha : Alive w s) (hL : Contents w s L) (hx : ArgVal w x a) (hf : Foreign s a ∨ Spare w s) :
    ∃ r w1 w', Runs (exec (.pushBack s a)) (ready w) .unit w1 ∧ Runs (callPushBack s a) (ready w) r w' ∧
      (∀ e, r = .error e ↔ w1.err = some e) ∧ (r = .ok () → Contents w' s (L ++ [x])) ∧ (∀ e, r = .error e → Contents w' s L) ∧
      Unchanged w w' [s] ∧ NoLeak w' ∧ w' = ready w1 ∧ Reach w1 := by
  have key : ∃ w1, Runs (exec (.pushBack s a)) (ready w) .unit w1 ∧ (w1.err = none → Contents w1 s (L ++ [x])) ∧
      (w1.err ≠ none → Contents w1 s L) ∧ Unchanged w w1 [s] ∧ Alive w1 s ∧ Reach w1 := by
    obtain ⟨σ, h⟩ := hr.inv
    have hv : Valid w (.pushBack s a) := ⟨ha, hx.ok h, hf⟩
    rcases hf with hf | hf
    · obtain ⟨w1, h1, h2, h3, _, h4, _, h6, _⟩ := vector_push_back hr ha hL hx hf
      exact ⟨w1, h1, h2, h3, h6, h4, hr.next hv h1⟩
    · by_cases hfo : Foreign s a
      · obtain ⟨w1, h1, h2, h3, _, h4, _, h6, _⟩ := vector_push_back hr ha hL hx hfo
        exact ⟨w1, h1, h2, h3, h6, h4, hr.next hv h1⟩
      · cases a with
        | val v => exact (hfo trivial).elim
        | elem t j =>
          obtain rfl : t = s := Classical.not_not.1 hfo
          obtain ⟨_, L', hL', hj⟩ := hx
          obtain ⟨rfl, _⟩ := Runs.det hL hL'
          obtain ⟨w1, h1, h2, h3, h4, h5, _⟩ := vector_push_back_self_partial hr ha hL hj hf
          have hr1 := hr.next hv h1
          obtain ⟨σ1, i1⟩ := hr1.inv
          refine ⟨w1, h1, h2, h3, h5, ?_, hr1⟩
          obtain ⟨v, hs⟩ := (alive_iff h).1 ha
          have h6 := h4 _ ((hasData_iff h hs).2 rfl)
          obtain ⟨i, hi, _⟩ := ha
          refine ⟨i, hi, fun h0 => ?_⟩
          subst hi
          simp only [HasData, begin_, rdObj, runs_bind] at h6
          obtain ⟨_, _, ⟨c, w3, h7, _⟩, _⟩ := h6
          unfold Runs rd at h7
          rw [h0] at h7
          cases h7
  obtain ⟨w1, h1, h2, h3, h4, h5, hr1⟩ := key
  obtain ⟨σ1, i1⟩ := hr1.inv
  refine ⟨outcome w1.err, w1, ready w1, h1, run_pushBack h1, ?_, ?_, ?_, unchanged_ready i1 h4, i1.ready.noLeak, rfl, hr1⟩
  · intro e
    cases h : w1.err <;> simp [outcome]
  · intro h
    refine contents_ready i1 h5 (h2 ?_)
    cases h0 : w1.err with
    | none => rfl
    | some e => rw [h0] at h; cases h
  · intro e h
    refine contents_ready i1 h5 (h3 ?_)
    intro h0
    rw [h0] at h; cases h

/-- Appending an element of another vector to a full vector, and an own element. -/
example : ∃ (w : W Nat) (s t : Ptr), Reach w ∧ Alive w s ∧ Contents w s [3, 1, 2] ∧ ArgVal w 5 (.elem t 1) ∧
    Foreign s (.elem t 1 : CArg Nat) ∧ Alive w t ∧ Contents w t [2, 5] ∧ ArgVal w 5 (.elem t 1) ∧ Spare w t := by
  obtain ⟨w, s, t, u, hr, hg, h1, h2, h3, ha, hb, hu, c1, c2, c3, k1, k2, k3, al⟩ := demo
  exact ⟨w, s, t, hr, ha, c1, ⟨hb, _, c2, rfl⟩, h1.symm, hb, c2, ⟨hb, _, c2, rfl⟩, _, _, c2, k2, by decide⟩
/-- The next constructor call fails. -/
example : ∃ (w : W Nat) (t : Ptr), Reach w ∧ Alive w t ∧ Contents w t [2, 5] ∧ ArgVal w 8 (.val 8 : CArg Nat) ∧
    w.env.ctor w.nCtor = false := by
  obtain ⟨w, t, hr, ha, hc, hk, al, h1, h2⟩ := demo_ctor (c := fun k => decide (k < 3)) rfl rfl rfl
  exact ⟨w, t, hr, ha, hc, rfl, by rw [h1, h2]; rfl⟩

/-- C59, copy construction `vector d(t)` of `has_exceptions::vector`: either it throws, and then the memory is exactly as
before, or there is a new vector with the elements of `t`, and all other vectors are untouched.  It succeeds if nothing
is refused.  All theorems about reachable states apply to the state afterwards. -/
theorem vector_copy_construct_throws (hr : Reach w) (ha : Alive w t) (hM : Contents w t M) :
    ∃ r w', Runs (copyCtor t) (ready w) r w' ∧ Reach w' ∧ NoLeak w' ∧
      (∀ e, r = .error e → w'.heap = w.heap) ∧
      (∀ d, r = .ok d → ¬ Alive w d ∧ Alive w' d ∧ Contents w' d M ∧ Unchanged w w' []) ∧
      (Good w → Modest V 1 → ∃ d, r = .ok d) := by
  obtain ⟨σ, h⟩ := hr.inv
  obtain ⟨u, ht⟩ := (alive_iff h).1 ha
  obtain rfl := (contents_iff h ht).1 hM
  obtain ⟨r, w', h1, hr', _, h2, h3, h4⟩ := run_copyCtor hr h ht
  obtain ⟨σ', i'⟩ := hr'.inv
  refine ⟨r, w', h1, hr', i'.noLeak, fun e he => heap_eq (h2 e he).st h.st, ?_, h4⟩
  intro d hd
  obtain ⟨h5, v, h6, h7, _⟩ := h3 d hd
  refine ⟨fun h0 => ?_, (alive_iff h6).2 ⟨v, upd_same _ _ _⟩, (contents_iff h6 (upd_same _ _ _)).2 h7.symm, ?_⟩
  · obtain ⟨_, h8⟩ := (alive_iff h).1 h0
    rw [h5] at h8; cases h8
  · intro x _ hx
    refine unchanged1 h h6 x ?_ hx
    simp only [List.mem_singleton]
    rintro rfl
    obtain ⟨_, h8⟩ := (alive_iff h).1 hx
    rw [h5] at h8; cases h8

example : ∃ (w : W Nat) (t : Ptr), Reach w ∧ Good w ∧ Modest Nat 1 ∧ Alive w t ∧ Contents w t [2, 5] := by
  obtain ⟨w, s, t, u, hr, hg, h1, h2, h3, ha, hb, hu, c1, c2, c3, k1, k2, k3, al⟩ := demo
  exact ⟨w, t, hr, hg, fits_small (by decide), hb, c2⟩

/-- C59, copy assignment `s = t` of `has_exceptions::vector`, also for `s = s`: either it throws, and then the memory is
exactly as before, or `s` has the elements of `t`, and all other vectors are untouched.  It succeeds if nothing is
refused.  All theorems about reachable states apply to the state afterwards. -/
theorem vector_copy_assign_throws (hr : Reach w) (hs : Alive w s) (ha : Alive w t) (hM : Contents w t M) :
    ∃ r w', Runs (copyAssign s t) (ready w) r w' ∧ Reach w' ∧ NoLeak w' ∧
      (∀ e, r = .error e → w'.heap = w.heap) ∧
      (r = .ok () → Alive w' s ∧ Contents w' s M ∧ Unchanged w w' [s] ∧ ∀ d, Alive w' d → Alive w d) ∧
      (Good w → Modest V 1 → r = .ok ()) := by
  obtain ⟨σ, h⟩ := hr.inv
  obtain ⟨v, hs⟩ := (alive_iff h).1 hs
  obtain ⟨u, ht⟩ := (alive_iff h).1 ha
  obtain rfl := (contents_iff h ht).1 hM
  obtain ⟨r, w', h1, hr', _, h2, h3, h4⟩ := run_copyAssign hr h hs ht
  obtain ⟨σ', i'⟩ := hr'.inv
  refine ⟨r, w', h1, hr', i'.noLeak, fun e he => heap_eq (h2 e he).st h.st, ?_, h4⟩
  intro hd
  obtain ⟨v', h6, h7, _⟩ := h3 hd
  refine ⟨(alive_iff h6).2 ⟨v', upd_same _ _ _⟩, (contents_iff h6 (upd_same _ _ _)).2 h7.symm, unchanged1 h h6, ?_⟩
  intro d hd
  obtain ⟨x, hx⟩ := (alive_iff h6).1 hd
  refine (alive_iff h).2 ?_
  rw [upd_apply] at hx
  split at hx
  · subst_vars; exact ⟨_, hs⟩
  · exact ⟨_, hx⟩

example : ∃ (w : W Nat) (s t : Ptr), Reach w ∧ Good w ∧ Modest Nat 1 ∧ s ≠ t ∧ Alive w s ∧ Contents w s [3, 1, 2] ∧ Alive w t ∧ Contents w t [2, 5] := by
  obtain ⟨w, s, t, u, hr, hg, h1, h2, h3, ha, hb, hu, c1, c2, c3, k1, k2, k3, al⟩ := demo
  exact ⟨w, s, t, hr, hg, fits_small (by decide), h1, ha, c1, hb, c2⟩

end Nestl.HxVec
