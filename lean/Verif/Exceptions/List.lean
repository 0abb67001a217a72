import Verif.Exceptions.ListModel
import Verif.Exceptions.Basic
import Verif.LinkedList.Props2
set_option autoImplicit false
/-
Property C59 for `nestl::has_exceptions::list`.  The vocabulary is that of the list theorems (`Verif/LinkedList/Client.lean`
and the top of `Verif/LinkedList/PropLemmas.lean`); the throwing functions are in `Verif/Exceptions/ListModel.lean`.
-/
namespace Nestl.HxList
open Nestl.LL Nestl.LC
variable {V : Type} {w w' : W V} {σ : Sg V} {s t d : Ptr} {L M : List (Ptr × V)} {v : V} {ls lt : Lst V}

/-! ### The lists determine the memory -/

theorem ring_right {H H' : Heap V} {l : List Ptr} {p : Ptr} (h : Ring H s l) (h' : Ring H' s l) (hp : p = s ∨ p ∈ l) :
    ∃ b, Lk H p b ∧ Lk H' p b := by
  rcases hp with rfl | hp
  · have h1 := (Ring.split (A := []) (B := l)).1 (by simpa using h)
    have h2 := (Ring.split (A := []) (B := l)).1 (by simpa using h')
    exact ⟨_, h1.2.1, h2.2.1⟩
  · obtain ⟨A, B, rfl⟩ := List.append_of_mem hp
    have h1 := (Ring.split (A := A ++ [p]) (B := B)).1 (by simpa using h)
    have h2 := (Ring.split (A := A ++ [p]) (B := B)).1 (by simpa using h')
    exact ⟨_, by simpa [lastP] using h1.2.1, by simpa [lastP] using h2.2.1⟩

theorem ring_left {H H' : Heap V} {l : List Ptr} {p : Ptr} (h : Ring H s l) (h' : Ring H' s l) (hp : p = s ∨ p ∈ l) :
    ∃ a, Lk H a p ∧ Lk H' a p := by
  rcases hp with rfl | hp
  · have h1 := (Ring.split (A := l) (B := [])).1 (by simpa using h)
    have h2 := (Ring.split (A := l) (B := [])).1 (by simpa using h')
    exact ⟨_, h1.2.1, h2.2.1⟩
  · obtain ⟨A, B, rfl⟩ := List.append_of_mem hp
    have h1 := (Ring.split (A := A) (B := p :: B)).1 h
    have h2 := (Ring.split (A := A) (B := p :: B)).1 h'
    exact ⟨_, h1.2.1, h2.2.1⟩

theorem heap_eq {H H' : Heap V} (h1 : St H σ) (h2 : St H' σ) : H = H' := by
  have key : ∀ {H H' : Heap V}, St H σ → St H' σ → ∀ p c, H p = some c → H' p = some c := by
    intro H H' h1 h2 p c hp
    have : ∃ s ls, σ s = some ls ∧ (p = s ∨ p ∈ ptrs ls.els) ∧ dat H p = dat H' p := by
      rcases h1.cover p (by rw [Ne, dat_none, hp]; simp) with h3 | ⟨s, ls, hs, hm⟩
      · obtain ⟨ls, hs⟩ := Option.ne_none_iff_exists'.1 h3
        exact ⟨p, ls, hs, .inl rfl, by rw [(h1.hdr _ _ hs).2, (h2.hdr _ _ hs).2]⟩
      · refine ⟨s, ls, hs, .inr hm, ?_⟩
        obtain ⟨e, he, rfl⟩ := mem_ptrs.1 hm
        rw [(h1.el _ _ hs e he).2, (h2.el _ _ hs e he).2]
    obtain ⟨s, ls, hs, hm, hd⟩ := this
    obtain ⟨b, k1, k2⟩ := ring_right (h1.ring _ _ hs) (h2.ring _ _ hs) hm
    obtain ⟨a, k3, k4⟩ := ring_left (h1.ring _ _ hs) (h2.ring _ _ hs) hm
    obtain ⟨hn, c1, e1, e2⟩ := nxt_cell k1.1
    obtain ⟨_, c2, e3, e4⟩ := nxt_cell k2.1
    obtain ⟨_, c3, e5, e6⟩ := prv_cell k3.2
    obtain ⟨_, c4, e7, e8⟩ := prv_cell k4.2
    rw [hp] at e1 e5; cases e1; cases e5
    rw [e3] at e7; cases e7
    simp only [dat, hp, e3, Option.map_some, Option.some.injEq, Prod.mk.injEq] at hd
    rw [e3]
    obtain ⟨n1, p1, v1, o1⟩ := c
    obtain ⟨n2, p2, v2, o2⟩ := c2
    simp_all
  funext p
  cases h3 : H p with
  | some c => exact (key h1 h2 p c h3).symm
  | none =>
    cases h4 : H' p with
    | none => rfl
    | some c => rw [key h2 h1 p c h4] at h3; cases h3

/-! ### Steps -/

theorem ready_of_err (h : w.err = none) : ready w = w := by
  cases w; cases h; rfl

theorem ready_good (h : Good w) : Good (ready w) := ⟨h.some, h.inj, h.ctor, h.past⟩

/-- `push_back` does what `push_back_nothrow` does and throws the error that it reports. -/
theorem run_pushBack (h : Runs (exec (.pushBack s v)) (ready w) .unit w') :
    Runs (pushBack s v) (ready w) (outcome w'.err) (ready w') := by
  simp only [exec, runs_bind] at h
  obtain ⟨_, w2, h2, h3⟩ := h
  cases h3
  unfold pushBack
  simp only [runs_bind]
  refine ⟨(), ready w, rfl, (), w', h2, w'.err, ready w', rfl, ?_⟩
  cases h : w'.err with
  | none => rfl
  | some e => rfl

theorem step_new (hr : Reach w) (h : Inv w σ) (a : Nat) : ∃ d w1, Runs (newList a) (ready w) d w1 ∧ Reach w1 ∧ w1.err = none ∧
    σ d = none ∧ Inv w1 (upd σ d (some ⟨a, []⟩)) ∧ (Good w → Good w1) := by
  have : wp (newList a) (ready w) fun r w' => w'.err = none ∧ σ r = none ∧ Inv w' (upd σ r (some ⟨a, []⟩)) ∧ (Good w → Good w') := by
    refine wp_newList h.ready a ?_
    intro w' hadv he _ hn hi
    exact ⟨he, hn, hi, fun hg => hadv.good (ready_good hg)⟩
  obtain ⟨d, w1, h1, h2, h3, h4, h5⟩ := this.runs
  refine ⟨d, w1, h1, hr.next (c := .create a) trivial (r := .obj d) ?_, h2, h3, h4, h5⟩
  simp only [exec, runs_bind]
  exact ⟨_, _, h1, rfl⟩

theorem step_copy (hr : Reach w) (h : Inv w σ) (hd : σ d = some ⟨defaultAlloc, []⟩) (ht : σ t = some lt) (hne : d ≠ t) :
    ∃ w1, Runs (copyNothrow d t) (ready w) () w1 ∧ Reach w1 ∧ ∃ N, Inv w1 (upd σ d (some ⟨defaultAlloc, N⟩)) ∧
      (∀ e ∈ N, e.own = defaultAlloc) ∧ (∀ e ∈ N, w.heap e.p = none) ∧ (w1.err = none → N.map El.v = lt.els.map El.v) ∧
      (Good w → w1.err = none) := by
  have : wp (copyNothrow d t) (ready w) fun _ w1 => ∃ N, Inv w1 (upd σ d (some ⟨defaultAlloc, N⟩)) ∧
      (∀ e ∈ N, e.own = defaultAlloc) ∧ (∀ e ∈ N, w.heap e.p = none) ∧ (w1.err = none → N.map El.v = lt.els.map El.v) ∧
      (Good w → w1.err = none) := by
    refine wp_copyNothrow h.ready hd (by simp) ht hne rfl ?_
    intro w' k N _ hA hN hi
    refine ⟨N, hi, hA.own, hA.fresh, fun h0 => ?_, fun hg => hA.good (ready_good hg)⟩
    rw [hN, hA.ok h0, List.take_length]
  obtain ⟨_, w1, h1, h2⟩ := this.runs
  refine ⟨w1, h1, hr.next (c := .copy d t) (r := .unit) ⟨(alive_iff h).2 ⟨_, hd⟩, (alive_iff h).2 ⟨_, ht⟩, .inr ?_, hne⟩ ?_, h2⟩
  · exact (contents_iff h hd).2 rfl
  · simp only [exec, runs_bind]
    exact ⟨_, _, h1, rfl⟩

theorem step_destroy (hr : Reach w) (h : Inv w σ) (hd : σ d = some ls) (ho : ∀ e ∈ ls.els, e.own = ls.alloc) :
    ∃ w1, Runs (destroyList d) (ready w) () w1 ∧ Reach w1 ∧ w1.err = none ∧ Inv w1 (upd σ d none) := by
  have : wp (destroyList d) (ready w) fun _ w' => w'.err = none ∧ Inv w' (upd σ d none) := by
    refine wp_destroyList h.ready hd ho ?_
    intro w' _ he _ hi _
    exact ⟨he, hi⟩
  obtain ⟨_, w1, h1, h2, h3⟩ := this.runs
  refine ⟨w1, h1, hr.next (c := .destroy d) (r := .unit) ((alive_iff h).2 ⟨_, hd⟩) ?_, h2, h3⟩
  simp only [exec, runs_bind]
  exact ⟨_, _, h1, rfl⟩

theorem run_swap (h : Inv w σ) (hs : σ s = some ls) (ht : σ t = some lt) : ∃ w1, Runs (LL.swap s t) (ready w) () w1 ∧
    w1.err = none ∧ Inv w1 (upd (upd σ s (some ⟨ls.alloc, lt.els⟩)) t (some ⟨lt.alloc, ls.els⟩)) := by
  have : wp (LL.swap s t) (ready w) fun _ w' => w'.err = none ∧
      Inv w' (upd (upd σ s (some ⟨ls.alloc, lt.els⟩)) t (some ⟨lt.alloc, ls.els⟩)) := by
    refine wp_swap h.ready hs ht ?_
    intro w' _ he _ hi
    exact ⟨he, hi⟩
  obtain ⟨_, w1, h1, h2⟩ := this.runs
  exact ⟨w1, h1, h2⟩

/-- The copy constructor, with the state of all lists. -/
theorem run_copyCtor (hr : Reach w) (h : Inv w σ) (ht : σ t = some lt) : ∃ r w', Runs (copyCtor t) (ready w) r w' ∧ Reach w' ∧
    w'.err = none ∧ (∀ e, r = .error e → Inv w' σ) ∧
    (∀ d, r = .ok d → σ d = none ∧ ∃ N, Inv w' (upd σ d (some ⟨defaultAlloc, N⟩)) ∧ (∀ e ∈ N, e.own = defaultAlloc) ∧
      (∀ e ∈ N, w.heap e.p = none) ∧ N.map El.v = lt.els.map El.v) ∧ (Good w → ∃ d, r = .ok d) := by
  obtain ⟨d, w1, r1, hr1, e1, hd, i1, g1⟩ := step_new hr h defaultAlloc
  have hne : d ≠ t := by intro h0; rw [h0, ht] at hd; cases hd
  obtain ⟨w2, r2, hr2, N, i2, ho, hf, h2, g2⟩ := step_copy hr1 i1 (upd_same _ _ _) (t := t) (lt := lt)
    (by rw [upd_other _ _ hne.symm]; exact ht) hne
  rw [upd_upd] at i2
  cases he : w2.err with
  | none =>
    refine ⟨.ok d, ready w2, ?_, ?_, rfl, (by rintro e h; cases h), ?_, fun _ => ⟨d, rfl⟩⟩
    · unfold copyCtor
      simp only [runs_bind]
      refine ⟨d, w1, r1, (), ready w1, rfl, (), w2, r2, none, ready w2, by unfold Runs takeErr; rw [he]; rfl, rfl⟩
    · rw [ready_of_err he]; exact hr2
    · rintro _ ⟨⟩
      refine ⟨hd, N, i2.ready, ho, fun e he => ?_, h2 he⟩
      -- cells of the old state are still there after the creation of `d`
      apply Classical.byContradiction
      intro hc
      have := hf e he
      rcases h.st.cover e.p (by rw [Ne, dat_none]; exact hc) with h3 | ⟨x, lx, hx, hm⟩
      · obtain ⟨lx, hx⟩ := Option.ne_none_iff_exists'.1 h3
        have hxd : e.p ≠ d := by intro h0; rw [h0, hd] at hx; cases hx
        have := (i1.st.hdr e.p lx (by rw [upd_other _ _ hxd]; exact hx)).2
        obtain ⟨c, hc', -⟩ := dat_cell this
        rw [hf e he] at hc'; cases hc'
      · have hxd : x ≠ d := by intro h0; rw [h0, hd] at hx; cases hx
        obtain ⟨e', he', hp⟩ := mem_ptrs.1 hm
        have := i1.heap_el (s := x) (ls := lx) (by rw [upd_other _ _ hxd]; exact hx) he'
        rw [hp] at this
        exact this (hf e he)
  | some e =>
    obtain ⟨w3, r3, hr3, e3, i3⟩ := step_destroy hr2 i2 (upd_same _ _ _) ho
    rw [upd_upd, upd_self _ _ _ hd] at i3
    refine ⟨.error e, w3, ?_, hr3, e3, fun _ _ => i3, (by rintro _ ⟨⟩), ?_⟩
    · unfold copyCtor
      simp only [runs_bind]
      refine ⟨d, w1, r1, (), ready w1, rfl, (), w2, r2, some e, ready w2, by unfold Runs takeErr; rw [he]; rfl, ?_⟩
      simp only [runs_bind]
      exact ⟨(), w3, r3, rfl⟩
    · intro hg
      rw [g2 (g1 hg)] at he; cases he

/-- The copy assignment to a list with the default allocator, with the state of all lists. -/
theorem run_copyAssign (hr : Reach w) (h : Inv w σ) (ho : Own σ) (hs : σ s = some ls) (hal : ls.alloc = defaultAlloc) (ht : σ t = some lt) :
    ∃ r w', Runs (copyAssign s t) (ready w) r w' ∧ Reach w' ∧ w'.err = none ∧ (∀ e, r = .error e → Inv w' σ) ∧
    (r = .ok () → ∃ N, Inv w' (upd σ s (some ⟨defaultAlloc, N⟩)) ∧ (∀ e ∈ N, w.heap e.p = none) ∧ N.map El.v = lt.els.map El.v) ∧
    (Good w → r = .ok ()) := by
  obtain ⟨r, w1, r1, hr1, e1, h1, h2, h3⟩ := run_copyCtor hr h ht
  cases r with
  | error e =>
    refine ⟨.error e, w1, ?_, hr1, e1, fun _ _ => h1 e rfl, (by rintro ⟨⟩), fun hg => ?_⟩
    · unfold copyAssign
      simp only [runs_bind]
      exact ⟨_, _, r1, rfl⟩
    · obtain ⟨_, h4⟩ := h3 hg; cases h4
  | ok d =>
    obtain ⟨hd, N, i1, hN, hf, hv⟩ := h2 d rfl
    have hne : s ≠ d := by rintro rfl; rw [hd] at hs; cases hs
    have hs1 : upd σ d (some ⟨defaultAlloc, N⟩) s = some ls := by rw [upd_other _ _ hne]; exact hs
    obtain ⟨w2, r2, e2, i2⟩ := run_swap i1 hs1 (upd_same _ _ _)
    have hr2 : Reach w2 := by
      refine hr1.next (c := .swap s d) (r := .unit) ⟨(alive_iff i1).2 ⟨_, hs1⟩, (alive_iff i1).2 ⟨_, upd_same _ _ _⟩,
        defaultAlloc, (hasAlloc_iff i1 hs1).2 hal.symm, (hasAlloc_iff i1 (upd_same _ _ _)).2 rfl⟩ ?_
      simp only [exec, runs_bind]
      exact ⟨_, _, r2, rfl⟩
    obtain ⟨w3, r3, hr3, e3, i3⟩ := step_destroy hr2 i2 (upd_same _ _ _) (by
      intro e he; exact (ho s ls hs e he).trans hal)
    rw [ready_of_err e1] at r2
    rw [ready_of_err e2] at r3
    have e : upd (upd (upd (upd σ d (some ⟨defaultAlloc, N⟩)) s (some ⟨ls.alloc, N⟩)) d (some ⟨defaultAlloc, ls.els⟩)) d none =
        upd σ s (some ⟨defaultAlloc, N⟩) := by
      rw [upd_upd, upd_comm _ _ _ hne, upd_upd, upd_self _ _ _ hd, hal]
    rw [e] at i3
    refine ⟨.ok (), w3, ?_, hr3, e3, (by rintro _ ⟨⟩), fun _ => ⟨N, i3, hf, hv⟩, fun _ => rfl⟩
    unfold copyAssign
    simp only [runs_bind]
    refine ⟨_, _, r1, ?_⟩
    simp only [runs_bind]
    exact ⟨(), w2, r2, (), w3, r3, rfl⟩

/-! ### Property theorems -/

theorem contents_ready (h : Inv w σ) (ha : Alive w s) (hc : Contents w s L) : Contents (ready w) s L := by
  obtain ⟨v, hv⟩ := (alive_iff h).1 ha
  exact (contents_iff h.ready hv).2 ((contents_iff h hv).1 hc)

theorem unchanged_ready {S : List Ptr} (h : Inv w' σ) (hu : Unchanged w w' S) : Unchanged w (ready w') S := by
  intro u h1 h2
  obtain ⟨h3, h4⟩ := hu u h1 h2
  exact ⟨h3, fun L hL => contents_ready h h3 (h4 L hL)⟩

theorem view_vals (N : List (El V)) : (view N).map Prod.snd = N.map El.v := by
  simp [view, Function.comp_def]

/-- C59, `push_back` of `has_exceptions::list`: it throws `e` iff `push_back_nothrow` reports `e`, and it throws iff memory or
the constructor of the element is refused.  If it throws the memory is exactly as before, otherwise a new element with the
given value is appended.  All other lists are untouched, and all theorems about reachable states apply to the state
afterwards. -/
theorem list_push_back_throws (hr : Reach w) (ha : Alive w s) (hL : Contents w s L) :
    ∃ r w1 w', Runs (exec (.pushBack s v)) (ready w) .unit w1 ∧ Runs (pushBack s v) (ready w) r w' ∧
      (∀ e, r = .error e ↔ w1.err = some e) ∧ ((∃ e, r = .error e) ↔ Refused w) ∧
      (r = .ok () → ∃ p, w.heap p = none ∧ Contents w' s (L ++ [(p, v)])) ∧
      (∀ e, r = .error e → w'.heap = w.heap ∧ Contents w' s L) ∧ Unchanged w w' [s] ∧ w' = ready w1 ∧ Reach w1 := by
  obtain ⟨w1, h1, h2, h3, h4, h5⟩ := list_push_back_atomic hr ha hL (v := v)
  have hr1 := hr.next (c := .pushBack s v) ha h1
  obtain ⟨σ1, i1, _⟩ := hr1.inv
  have hal : Alive w1 s := by
    obtain ⟨σ, h, _⟩ := hr.inv
    cases h0 : w1.err with
    | none =>
      obtain ⟨p, _, h6⟩ := h4 h0
      obtain ⟨i, rfl, hi⟩ := ha
      refine ⟨i, rfl, fun hn => ?_⟩
      simp only [Contents, walk, runs_bind] at h6
      obtain ⟨b, w2, h7, _⟩ := h6
      simp only [begin_, getNext, runs_bind] at h7
      obtain ⟨c, w3, ⟨c', w4, h7, _⟩, _⟩ := h7
      unfold Runs rd at h7
      rw [hn] at h7
      cases h7
    | some e =>
      obtain ⟨h6, _⟩ := h3 (by rw [h0]; simp)
      obtain ⟨i, rfl, hi⟩ := ha
      exact ⟨i, rfl, by rw [h6]; exact hi⟩
  refine ⟨outcome w1.err, w1, ready w1, h1, run_pushBack h1, ?_, ?_, ?_, ?_, unchanged_ready i1 h5, rfl, hr1⟩
  · intro e
    cases h : w1.err <;> simp [outcome]
  · rw [← h2]
    cases h : w1.err <;> simp [outcome]
  · intro h
    have h0 : w1.err = none := by
      cases h0 : w1.err with
      | none => rfl
      | some e => rw [h0] at h; cases h
    obtain ⟨p, hp, h6⟩ := h4 h0
    exact ⟨p, hp, contents_ready i1 hal h6⟩
  · intro e h
    obtain ⟨h6, h7⟩ := h3 (by intro h0; rw [h0] at h; cases h)
    exact ⟨h6, contents_ready i1 hal h7⟩

/-- Without and with a failure. -/
example : ∃ (w : W Nat) (s p q r : Ptr), Reach w ∧ Alive w s ∧ Contents w s [(p, 3), (q, 1), (r, 2)] ∧ ¬ Refused w := by
  obtain ⟨w, s, t, u, p, q, r, x, y, z, hr, hg, _, _, _, ha, _, _, hc, _⟩ := demo
  exact ⟨w, s, p, q, r, hr, ha, hc, hg.not_refused⟩
example : ∃ (w : W Nat) (s p : Ptr), Reach w ∧ Alive w s ∧ Contents w s [(p, 4)] ∧ Refused w := demo_refused

/-- C59, copy construction `list d(t)` of `has_exceptions::list`: either it throws, and then the memory is exactly as before,
or there is a new list with new elements with the values of `t` (and the default allocator), and all other lists are
untouched.  It succeeds if nothing is refused.  All theorems about reachable states apply to the state afterwards. -/
theorem list_copy_construct_throws (hr : Reach w) (ha : Alive w t) (hM : Contents w t M) :
    ∃ r w', Runs (copyCtor t) (ready w) r w' ∧ Reach w' ∧
      (∀ e, r = .error e → w'.heap = w.heap) ∧
      (∀ d, r = .ok d → ¬ Alive w d ∧ Alive w' d ∧ HasAlloc w' d defaultAlloc ∧
        (∃ N, Contents w' d N ∧ N.map Prod.snd = M.map Prod.snd ∧ ∀ x ∈ N, w.heap x.1 = none) ∧ Unchanged w w' []) ∧
      (Good w → ∃ d, r = .ok d) := by
  obtain ⟨σ, h, ho⟩ := hr.inv
  obtain ⟨lt, ht⟩ := (alive_iff h).1 ha
  obtain rfl := (contents_iff h ht).1 hM
  obtain ⟨r, w', h1, hr', _, h2, h3, h4⟩ := run_copyCtor hr h ht
  refine ⟨r, w', h1, hr', fun e he => heap_eq (h2 e he).st h.st, ?_, h4⟩
  intro d hd
  obtain ⟨h5, N, h6, _, hf, h7⟩ := h3 d hd
  refine ⟨fun h0 => ?_, (alive_iff h6).2 ⟨_, upd_same _ _ _⟩, (hasAlloc_iff h6 (upd_same _ _ _)).2 rfl,
    ⟨_, (contents_iff h6 (upd_same _ _ _)).2 rfl, by rw [view_vals, view_vals]; exact h7, ?_⟩, ?_⟩
  · obtain ⟨_, h8⟩ := (alive_iff h).1 h0
    rw [h5] at h8; cases h8
  · intro x hx
    obtain ⟨e, he, rfl⟩ := List.mem_map.1 hx
    exact hf e he
  · intro x _ hx
    refine unchanged1 h h6 x ?_ hx
    simp only [List.mem_singleton]
    rintro rfl
    obtain ⟨_, h8⟩ := (alive_iff h).1 hx
    rw [h5] at h8; cases h8

example : ∃ (w : W Nat) (s p q r : Ptr), Reach w ∧ Alive w s ∧ Contents w s [(p, 3), (q, 1), (r, 2)] ∧ Good w := by
  obtain ⟨w, s, t, u, p, q, r, x, y, z, hr, hg, _, _, _, ha, _, _, hc, _⟩ := demo
  exact ⟨w, s, p, q, r, hr, ha, hc, hg⟩
/-- Here the construction throws (`Refused`: the first node cannot be made). -/
example : ∃ (w : W Nat) (s p : Ptr), Reach w ∧ Alive w s ∧ Contents w s [(p, 4)] ∧ Refused w := demo_refused

/-- C59, copy assignment `s = t` of `has_exceptions::list` where `s` has the default allocator: either it throws, and then the
memory is exactly as before, or `s` has new elements with the values of `t` and all other lists (also `t`, unless it is
`s`) are untouched.  It succeeds if nothing is refused.  Missing: lists `s` with other allocators, for which it is false
(`list_copy_assign_wrong_allocator`, `list_copy_assign_mixed`). -/
theorem list_copy_assign_throws_partial (hr : Reach w) (ha : Alive w s) (hal : HasAlloc w s defaultAlloc) (hb : Alive w t) (hM : Contents w t M) :
    ∃ r w', Runs (copyAssign s t) (ready w) r w' ∧ Reach w' ∧
      (∀ e, r = .error e → w'.heap = w.heap) ∧
      (r = .ok () → Alive w' s ∧ HasAlloc w' s defaultAlloc ∧
        (∃ N, Contents w' s N ∧ N.map Prod.snd = M.map Prod.snd ∧ ∀ x ∈ N, w.heap x.1 = none) ∧ Unchanged w w' [s]) ∧
      (Good w → r = .ok ()) := by
  obtain ⟨σ, h, ho⟩ := hr.inv
  obtain ⟨ls, hs⟩ := (alive_iff h).1 ha
  obtain ⟨lt, ht⟩ := (alive_iff h).1 hb
  obtain rfl := (contents_iff h ht).1 hM
  obtain ⟨r, w', h1, hr', _, h2, h3, h4⟩ := run_copyAssign hr h ho hs ((hasAlloc_iff h hs).1 hal).symm ht
  refine ⟨r, w', h1, hr', fun e he => heap_eq (h2 e he).st h.st, ?_, h4⟩
  intro hd
  obtain ⟨N, h6, hf, h7⟩ := h3 hd
  refine ⟨(alive_iff h6).2 ⟨_, upd_same _ _ _⟩, (hasAlloc_iff h6 (upd_same _ _ _)).2 rfl,
    ⟨_, (contents_iff h6 (upd_same _ _ _)).2 rfl, by rw [view_vals, view_vals]; exact h7, ?_⟩, unchanged1 h h6⟩
  intro x hx
  obtain ⟨e, he, rfl⟩ := List.mem_map.1 hx
  exact hf e he

example : ∃ (w : W Nat) (s t p q r x y : Ptr), Reach w ∧ Alive w s ∧ HasAlloc w s defaultAlloc ∧ Alive w t ∧
    Contents w s [(p, 3), (q, 1), (r, 2)] ∧ Contents w t [(x, 2), (y, 5)] ∧ s ≠ t ∧ Good w := by
  obtain ⟨w, s, t, u, p, q, r, x, y, z, hr, hg, hst, _, _, ha, hb, _, hc, hd, _, h1, _⟩ := demo
  exact ⟨w, s, t, p, q, r, x, y, hr, ha, h1, hb, hc, hd, hst, hg⟩

/-- C59 is violated by copy assignment to a non-empty list whose allocator is not (equal to) a default constructed one: the
temporary object gets the old nodes without their allocator and returns them to its own. -/
theorem list_copy_assign_wrong_allocator (hr : Reach w) (hg : Good w) (ha : Alive w s) (hL : Contents w s L) (hne : L ≠ []) {a : Nat}
    (hal : HasAlloc w s a) (had : a ≠ defaultAlloc) (hb : Alive w t) : Faults (copyAssign s t) (ready w) .wrongAllocator := by
  obtain ⟨σ, h, ho⟩ := hr.inv
  obtain ⟨ls, hs⟩ := (alive_iff h).1 ha
  obtain ⟨lt, ht⟩ := (alive_iff h).1 hb
  obtain rfl := (contents_iff h hs).1 hL
  obtain rfl := (hasAlloc_iff h hs).1 hal
  obtain ⟨r, w1, r1, hr1, e1, _, h2, h3⟩ := run_copyCtor hr h ht
  obtain ⟨d, rfl⟩ := h3 hg
  obtain ⟨hd, N, i1, hN, hf, hv⟩ := h2 d rfl
  have hnd : s ≠ d := by rintro rfl; rw [hd] at hs; cases hs
  obtain ⟨w2, r2, e2, i2⟩ := run_swap i1 (s := s) (ls := ls) (by rw [upd_other _ _ hnd]; exact hs) (upd_same _ _ _)
  rw [ready_of_err e1] at r2
  obtain ⟨e, B, hB⟩ := List.exists_cons_of_ne_nil (l := ls.els) (by intro h0; rw [h0] at hne; exact hne rfl)
  have hF : Faults (destroyList d) w2 .wrongAllocator := by
    refine faults_destroyList i2 (upd_same _ _ _) hB ?_
    rw [ho s ls hs e (by rw [hB]; simp)]
    exact had
  unfold copyAssign
  refine runs_faults_bind r1 ?_
  refine runs_faults_bind r2 ?_
  exact Faults.bind hF

/-- Assigning to an empty list with such an allocator leaves it with nodes that its destructor returns to the wrong
allocator. -/
theorem list_copy_assign_mixed (hr : Reach w) (hg : Good w) (ha : Alive w s) (hL : Contents w s []) {a : Nat}
    (hal : HasAlloc w s a) (had : a ≠ defaultAlloc) (hb : Alive w t) (hM : Contents w t M) (hne : M ≠ []) :
    ∃ w', Runs (copyAssign s t) (ready w) (.ok ()) w' ∧ Faults (destroyList s) w' .wrongAllocator := by
  obtain ⟨σ, h, ho⟩ := hr.inv
  obtain ⟨ls, hs⟩ := (alive_iff h).1 ha
  obtain ⟨lt, ht⟩ := (alive_iff h).1 hb
  have hl0 := (contents_iff h hs).1 hL
  rw [eq_comm, view_eq_nil] at hl0
  obtain rfl := (contents_iff h ht).1 hM
  obtain rfl := (hasAlloc_iff h hs).1 hal
  obtain ⟨r, w1, r1, hr1, e1, _, h2, h3⟩ := run_copyCtor hr h ht
  obtain ⟨d, rfl⟩ := h3 hg
  obtain ⟨hd, N, i1, hN, hf, hv⟩ := h2 d rfl
  have hnd : s ≠ d := by rintro rfl; rw [hd] at hs; cases hs
  obtain ⟨w2, r2, e2, i2⟩ := run_swap i1 (s := s) (ls := ls) (by rw [upd_other _ _ hnd]; exact hs) (upd_same _ _ _)
  rw [ready_of_err e1] at r2
  have : wp (destroyList d) w2 fun _ w' => Inv w' (upd (upd (upd (upd σ d (some ⟨defaultAlloc, N⟩)) s (some ⟨ls.alloc, N⟩)) d
      (some ⟨defaultAlloc, ls.els⟩)) d none) := by
    refine wp_destroyList i2 (upd_same _ _ _) (by simp [hl0]) ?_
    intro w' _ _ _ hi _
    exact hi
  obtain ⟨_, w3, r3, i3⟩ := this.runs
  refine ⟨w3, ?_, ?_⟩
  · unfold copyAssign
    simp only [runs_bind]
    refine ⟨_, _, r1, ?_⟩
    simp only [runs_bind]
    exact ⟨(), w2, r2, (), w3, r3, rfl⟩
  · have hN0 : N ≠ [] := by
      rintro rfl
      simp only [List.map_nil] at hv
      have : lt.els = [] := List.map_eq_nil_iff.1 hv.symm
      rw [this] at hne; exact hne rfl
    obtain ⟨e, B, hB⟩ := List.exists_cons_of_ne_nil hN0
    refine faults_destroyList i3 (ls := ⟨ls.alloc, N⟩) ?_ hB ?_
    · rw [upd_other _ _ hnd, upd_other _ _ hnd, upd_same]
    · rw [hN e (by rw [hB]; simp)]
      exact Ne.symm had

example : ∃ (w : W Nat) (s u p q r z : Ptr), Reach w ∧ Good w ∧ Alive w s ∧ Alive w u ∧ Contents w s [(p, 3), (q, 1), (r, 2)] ∧
    Contents w u [(z, 9)] ∧ HasAlloc w u 7 ∧ 7 ≠ defaultAlloc := by
  obtain ⟨w, s, t, u, p, q, r, x, y, z, hr, hg, hst, _, _, ha, hb, hu, hc, hd, he, h1, h2, h3⟩ := demo
  exact ⟨w, s, u, p, q, r, z, hr, hg, ha, hu, hc, he, h3, by decide⟩
/-- The same after `u.clear()`. -/
example : ∃ (w : W Nat) (s u p q r : Ptr), Reach w ∧ Alive w s ∧ Alive w u ∧ Contents w s [(p, 3), (q, 1), (r, 2)] ∧
    Contents w u [] ∧ HasAlloc w u 7 ∧ 7 ≠ defaultAlloc ∧ Good w := by
  obtain ⟨w, s, t, u, p, q, r, x, y, z, hr, hg, hst, hsu, _, ha, hb, hu, hc, hd, he, h1, h2, h3⟩ := demo
  obtain ⟨σ, h, ho⟩ := hr.inv
  obtain ⟨lu, hlu⟩ := (alive_iff h).1 hu
  obtain ⟨ls, hls⟩ := (alive_iff h).1 ha
  have hlc := (contents_iff h hls).1 hc
  have hla := (hasAlloc_iff h hlu).1 h3
  obtain ⟨_, w', hrun, hi, hg'⟩ : ∃ a w', Runs (LL.clear u) (ready w) a w' ∧ Inv w' (upd σ u (some ⟨lu.alloc, []⟩)) ∧ Good w' := by
    refine wp.runs ?_
    refine wp_clear h.ready hlu (ho u lu hlu) ?_
    intro w' hadv _ _ hi _
    exact ⟨hi, hadv.good (ready_good hg)⟩
  refine ⟨w', s, u, p, q, r, hr.next (c := .clear u) (r := .unit) hu ?_, (alive_iff hi).2 ⟨ls, by rw [upd_other _ _ hsu]; exact hls⟩,
    (alive_iff hi).2 ⟨_, upd_same _ _ _⟩, (contents_iff hi (by rw [upd_other _ _ hsu]; exact hls)).2 hlc,
    (contents_iff hi (upd_same _ _ _)).2 rfl, (hasAlloc_iff hi (upd_same _ _ _)).2 hla, by decide, hg'⟩
  simp only [exec, runs_bind]
  exact ⟨_, _, hrun, rfl⟩

end Nestl.HxList
