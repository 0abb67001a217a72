import Verif.Set.PropLemmas
set_option autoImplicit false
/-
Property theorems of nestl::set (C01-C15, C60).  The vocabulary (`Contents`, `Alive`, `Call`, `exec`, `Valid`, `Hist`,
`Reach`, `absRun`) is defined in `Verif/Set/Client.lean`; the programs run by the calls are in `Verif/RBTree/Model.lean`
and `Verif/RBTree/ModelExtra.lean`.  After each theorem an `example` shows a concrete state that meets its hypotheses.
-/
namespace Nestl.Set
open Nestl.RB
variable {K : Type} {lt : K → K → Bool} {w w' : W K} {s : Ptr} {k : K} {L : List (Ptr × K)}

/-! ### Concrete states used by the examples -/

/-- A program state in which set 0 is {1, 2, 3} and set 1 is empty. -/
theorem demo : ∃ w L, Reach natLt w ∧ Good w ∧ Alive w (.stk 0) ∧ Alive w (.stk 1) ∧ Contents w (.stk 0) L ∧
    L.map Prod.snd = [1, 2, 3] ∧ Contents w (.stk 1) [] := by
  obtain ⟨h, w, L, hd, h1, h2, h3, h4, h5⟩ := demo_exists
  exact ⟨w, L, ⟨_, _, hd.1⟩, hd.2, h1, h2, h3, h4, h5⟩

/-- As `demo`, with the three positions spelled out. -/
theorem demo3 : ∃ w p q r, Reach natLt w ∧ Good w ∧ Alive w (.stk 0) ∧ Alive w (.stk 1) ∧
    Contents w (.stk 0) [(p, 1), (q, 2), (r, 3)] ∧ Contents w (.stk 1) [] := by
  obtain ⟨w, L, h0, hg, h1, h2, h3, h4, h5⟩ := demo
  match L, h4 with
  | [(p, _), (q, _), (r, _)], h4 =>
    simp at h4
    obtain ⟨rfl, rfl, rfl⟩ := h4
    exact ⟨w, p, q, r, h0, hg, h1, h2, h3, h5⟩

/-- An allocator with a single block. -/
def oneBlockEnv : Env (TNode Nat) :=
  { addr := fun k => if k = 0 then some 0 else none, ctor := fun _ => true,
    junk := fun _ => ⟨.red, .null, .null, .null, none, 0, 0⟩ }

/-- A state in which set 0 is {2} and memory is exhausted. -/
theorem demo_refused : ∃ w p, Reach natLt w ∧ Alive w (.stk 0) ∧ Contents w (.stk 0) [(p, 2)] ∧ Refused w ∧ w.sp = 1 := by
  have r0 : Reach natLt (start oneBlockEnv) := ⟨_, _, Hist.start⟩
  obtain ⟨_, w1, _, r1, e1⟩ := r0.step (c := .create 7) trivial
  cases e1 with
  | create c1 _ =>
  have t1 : Tree w1.heap (.stk 0) 7 .nil := c1.tree
  have he1 : w1.env = oneBlockEnv := c1.env
  have hn1 : w1.nAlloc = 0 := c1.nAlloc
  obtain ⟨_, w2, _, r2, e2⟩ := r1.step (c := .insert (.stk 0) 2) ⟨0, rfl, t1.ne_none⟩
  cases e2 with
  | insertOld ht hn =>
    obtain ⟨-, rfl⟩ := Tree.unique (by exact ht) t1
    simp [T.nodes] at hn
  | insertFail ht hn _ _ _ _ hr =>
    exfalso
    rcases hr with hr | hr
    · have := hr 0 (by show w1.env.addr w1.nAlloc = _; rw [he1, hn1]; rfl)
      have h0 : w1.heap (.dyn 0) = none := by rw [c1.frame _ (by simp)]; rfl
      exact this h0
    · have hr : w1.env.ctor w1.nCtor = false := hr
      rw [he1] at hr; cases hr
  | @insertNew _ _ _ o t t' A B a ht ht' hn hn' _ hc hf =>
    obtain ⟨-, rfl⟩ := Tree.unique (by exact ht) t1
    have : A = [] ∧ B = [] := by simpa [T.nodes] using hn.symm
    obtain ⟨rfl, rfl⟩ := this
    refine ⟨w2, .dyn a, r2, ⟨0, rfl, ht'.ne_none⟩, (contents_iff ht').2 hn'.symm, Or.inl ?_, hc.ext.sp.trans c1.sp⟩
    obtain ⟨k, b, _, _, hk, _⟩ := hf.req
    intro b hb
    have he2 : w2.env = oneBlockEnv := hc.ext.env.trans he1
    rw [he2] at hb
    have : w2.nAlloc ≠ 0 := by omega
    simp [oneBlockEnv, this] at hb

/-! ### C01 -/

/-- C01: after any history of calls (in any environment), iterating over a live set yields, in strictly increasing order,
exactly the keys of the mathematical set that the history describes. -/
theorem set_history_refinement {env : Env (TNode K)} {h : List (Entry K)} (hh : Hist lt env h w) (hs : SWO lt)
    (ha : Alive w s) :
    ∃ L, Contents w s L ∧ (L.map Prod.snd).Pairwise (fun a b => lt a b = true) ∧
      ∀ x, x ∈ L.map Prod.snd ↔ absRun lt h s x := by
  obtain ⟨i, o, t, rfl, _, ht, hsort⟩ := hh.inv.tree ha
  refine ⟨t.nodes, (contents_iff ht).2 rfl, ?_, hh.abs hs _ _ _ ht⟩
  rw [List.pairwise_map]
  exact hsort hs

example : ∃ h w, Hist natLt goodEnv h w ∧ Alive w (.stk 0) ∧ (∀ x, absRun natLt h (.stk 0) x ↔ x = 1 ∨ x = 2 ∨ x = 3) := by
  obtain ⟨h, w, L, hd, h1, h2, h3, h4, h5⟩ := demo_exists
  refine ⟨h, w, hd.1, h1, fun x => ?_⟩
  obtain ⟨L', c1, _, c3⟩ := set_history_refinement hd.1 natLt_swo h1
  obtain ⟨rfl, -⟩ := Nestl.Runs.det h3 c1
  rw [← c3, h4]; simp

/-! ### C02, C10 -/

/-- C02 (present key): the returned iterator denotes the equivalent element, the flag is false, nothing is changed,
allocated or constructed, and no error is reported. -/
theorem set_insert_present (hr : Reach lt w) (hs : SWO lt) (ha : Alive w s) (hc : Contents w s L)
    (hk : ∃ x ∈ L, Equiv lt x.2 k) :
    ∃ p k' w', Runs (exec lt (.insert s k)) (ready w) (.ins p false) w' ∧ (p, k') ∈ L ∧ Equiv lt k' k ∧
      w'.err = none ∧ w'.heap = w.heap ∧ w'.nAlloc = w.nAlloc ∧ w'.nCtor = w.nCtor := by
  obtain ⟨o0, t0, ht0, rfl⟩ := hr.tree ha hc
  obtain ⟨r, w', h1, _, h3⟩ := hr.step (c := .insert s k) ha
  obtain ⟨x, hx, hxk⟩ := hk
  have no : ∀ {A B : List (Ptr × K)}, t0.nodes = A ++ B → (∀ a ∈ A, lt a.2 k = true) ∧ (∀ b ∈ B, lt k b.2 = true) → False := by
    intro A B hn hcut
    exact equiv_of_cut hcut.1 hcut.2 x.2 (by rw [← hn]; exact List.mem_map_of_mem hx) hxk
  cases h3 with
  | insertOld ht hn e1 e2 hh he herr hA hC _ =>
    obtain ⟨-, rfl⟩ := Tree.unique (by exact ht) ht0
    exact ⟨_, _, w', h1, by rw [hn]; simp, ⟨e1, e2 hs⟩, herr, hh, hA, hC⟩
  | insertFail ht hn hcut =>
    obtain ⟨-, rfl⟩ := Tree.unique (by exact ht) ht0
    exact (no hn (hcut hs)).elim
  | insertNew ht _ hn _ hcut =>
    obtain ⟨-, rfl⟩ := Tree.unique (by exact ht) ht0
    exact (no hn (hcut hs)).elim

example : ∃ w L, Reach natLt w ∧ Alive w (.stk 0) ∧ Contents w (.stk 0) L ∧ ∃ x ∈ L, Equiv natLt x.2 2 := by
  obtain ⟨w, p, q, r, h0, hg, h1, h2, h3, h5⟩ := demo3
  exact ⟨w, _, h0, h1, h3, (q, 2), by simp, by simp [Equiv, natLt]⟩

/-- C02 (absent key): the flag is true.  Unless memory or the copy constructor is refused, the key is inserted at its
place in the order, in a new node, and the returned iterator denotes it.  If it is refused, an error is reported and
nothing is changed (the returned pair is then `{end(), true}`). -/
theorem set_insert_absent (hr : Reach lt w) (hs : SWO lt) (ha : Alive w s) (hc : Contents w s L)
    (hk : ∀ x ∈ L, ¬ Equiv lt x.2 k) :
    ∃ p w', Runs (exec lt (.insert s k)) (ready w) (.ins p true) w' ∧
      ((¬ Refused w ∧ w'.err = none ∧ w.heap p = none ∧ ∃ A B, L = A ++ B ∧ Contents w' s (A ++ (p, k) :: B) ∧
        (∀ x ∈ A, lt x.2 k = true) ∧ (∀ x ∈ B, lt k x.2 = true)) ∨
       (Refused w ∧ w'.err ≠ none ∧ w'.heap = w.heap ∧ Contents w' s L ∧ p = s)) := by
  obtain ⟨o0, t0, ht0, rfl⟩ := hr.tree ha hc
  obtain ⟨r, w', h1, _, h3⟩ := hr.step (c := .insert s k) ha
  cases h3 with
  | insertOld ht hn e1 e2 hh he herr hA hC _ =>
    obtain ⟨-, rfl⟩ := Tree.unique (by exact ht) ht0
    rename_i p k' _ _
    exact (hk (p, k') (by rw [hn]; simp) ⟨e1, e2 hs⟩).elim
  | insertFail ht hn hcut hh he herr href _ =>
    obtain ⟨-, rfl⟩ := Tree.unique (by exact ht) ht0
    refine ⟨_, w', h1, Or.inr ⟨href, by rw [herr]; simp, hh, ?_, rfl⟩⟩
    exact (contents_iff (o := o0) (by rw [hh]; exact ht0)).2 rfl
  | insertNew ht ht' hn hn' hcut hch hf herr _ hnr =>
    obtain ⟨-, rfl⟩ := Tree.unique (by exact ht) ht0
    exact ⟨_, w', h1, Or.inl ⟨hnr, herr, hf.none, _, _, hn, (contents_iff ht').2 hn'.symm, hcut hs⟩⟩

example : ∃ w L, Reach natLt w ∧ Alive w (.stk 0) ∧ Contents w (.stk 0) L ∧ L ≠ [] ∧ (∀ x ∈ L, ¬ Equiv natLt x.2 5) ∧
    ¬ Refused w := by
  obtain ⟨w, p, q, r, h0, hg, h1, h2, h3, h5⟩ := demo3
  exact ⟨w, _, h0, h1, h3, by simp, by simp [Equiv, natLt], hg.not_refused⟩

example : ∃ w L, Reach natLt w ∧ Alive w (.stk 0) ∧ Contents w (.stk 0) L ∧ L ≠ [] ∧ (∀ x ∈ L, ¬ Equiv natLt x.2 5) ∧
    Refused w := by
  obtain ⟨w, p, h0, h1, h2, h3, _⟩ := demo_refused
  exact ⟨w, _, h0, h1, h2, by simp, by simp [Equiv, natLt], h3⟩

/-- C10: whatever the comparator, an insertion that reports an error leaves all of memory as it was (so every set has
the same elements in the same nodes, and nothing is leaked). -/
theorem set_insert_failure_atomic {r : Res K} (hr : Reach lt w) (ha : Alive w s)
    (hrun : Runs (exec lt (.insert s k)) (ready w) r w') (herr : w'.err ≠ none) :
    w'.heap = w.heap ∧ (∀ x, Alive w' x ↔ Alive w x) ∧ ∀ x L, Alive w x → (Contents w' x L ↔ Contents w x L) := by
  have hheap : w'.heap = w.heap := by
    obtain ⟨h1, h2⟩ := hr.effect (c := .insert s k) ha hrun
    cases h2 with
    | insertOld _ _ _ _ _ _ he => exact absurd he herr
    | insertFail _ _ _ hh => exact hh
    | insertNew _ _ _ _ _ _ _ he => exact absurd he herr
  refine ⟨hheap, fun x => by simp only [Alive, hheap], fun x L hx => ?_⟩
  obtain ⟨i, o, t, rfl, _, ht, _⟩ := hr.inv.tree hx
  rw [contents_iff ht, contents_iff (w := w') (by rw [hheap]; exact ht)]

example : ∃ w L r w', Reach natLt w ∧ Alive w (.stk 0) ∧ Contents w (.stk 0) L ∧ L ≠ [] ∧
    Runs (exec natLt (.insert (.stk 0) 5)) (ready w) r w' ∧ w'.err ≠ none := by
  obtain ⟨w, p, h0, h1, h2, h3, _⟩ := demo_refused
  obtain ⟨q, w', hr, h | h⟩ := set_insert_absent h0 natLt_swo h1 h2 (k := 5) (by simp [Equiv, natLt])
  · exact absurd h3 h.1
  · exact ⟨w, _, _, w', h0, h1, h2, by simp, hr, h.2.1⟩

/-! ### C03 -/

/-- C03: `find` returns an iterator to the equivalent element, or `end()` if there is none; it modifies nothing. -/
theorem set_find (hr : Reach lt w) (hs : SWO lt) (ha : Alive w s) (hc : Contents w s L) :
    ∃ p w', Runs (exec lt (.find s k)) (ready w) (.pos p) w' ∧ w'.heap = w.heap ∧ w'.err = none ∧
      w'.nAlloc = w.nAlloc ∧
      ((∃ k', (p, k') ∈ L ∧ Equiv lt k' k) ∨ (p = s ∧ ∀ x ∈ L, ¬ Equiv lt x.2 k)) := by
  obtain ⟨o0, t0, ht0, rfl⟩ := hr.tree ha hc
  obtain ⟨r, w', h1, _, h3⟩ := hr.step (c := .find s k) ha
  have hna : w'.nAlloc = w.nAlloc := by
    have hI := hr.inv
    refine (Runs.wp (Q := fun _ w' => w'.nAlloc = w.nAlloc) ?_ h1)
    simp only [exec, wp_bind, wp_pure]
    refine wp_find (w := ready w) ht0 ?_ ?_
    · intros; rfl
    · intros; rfl
  cases h3 with
  | findNone ht hn hB hcut hh he herr _ =>
    obtain ⟨-, rfl⟩ := Tree.unique (by exact ht) ht0
    rename_i A B _
    refine ⟨_, w', h1, hh, herr, hna, Or.inr ⟨rfl, ?_⟩⟩
    have hl := hcut hs
    have hsort := hr.inv.sorted ht0 hs
    have hBs : ∀ b ∈ B, lt k b.2 = true := by
      cases B with
      | nil => simp
      | cons b B =>
        have hb := hB b B rfl
        intro x hx
        rw [List.mem_cons] at hx
        rcases hx with rfl | hx
        · exact hb
        · rw [hn] at hsort
          simp only [Sorted, List.pairwise_append, List.pairwise_cons] at hsort
          exact hs.trans _ _ _ hb (hsort.2.1.1 x hx)
    intro x hx
    rw [hn] at hx
    exact equiv_of_cut hl.1 hBs x.2 (List.mem_map_of_mem hx)
  | findSome ht hn e1 e2 hh he herr _ =>
    obtain ⟨-, rfl⟩ := Tree.unique (by exact ht) ht0
    exact ⟨_, w', h1, hh, herr, hna, Or.inl ⟨_, by rw [hn]; simp, e1, e2⟩⟩

example : ∃ w L, Reach natLt w ∧ Alive w (.stk 0) ∧ Contents w (.stk 0) L ∧ L.map Prod.snd = [1, 2, 3] := by
  obtain ⟨w, L, h0, _, h1, _, h3, h4, _⟩ := demo
  exact ⟨w, L, h0, h1, h3, h4⟩

/-! ### C04, C05 -/

/-- C04: `erase(k)` returns 1 and removes exactly the equivalent element (whose node is released); if there is none it
returns 0 and the contents stay the same. -/
theorem set_erase_key (hr : Reach lt w) (hs : SWO lt) (ha : Alive w s) (hc : Contents w s L) :
    ∃ w', (∃ A p k' B, L = A ++ (p, k') :: B ∧ Equiv lt k' k ∧ Runs (exec lt (.eraseKey s k)) (ready w) (.num 1) w' ∧
        Contents w' s (A ++ B) ∧ w'.heap p = none ∧ w'.err = none) ∨
      ((∀ x ∈ L, ¬ Equiv lt x.2 k) ∧ Runs (exec lt (.eraseKey s k)) (ready w) (.num 0) w' ∧ Contents w' s L ∧
        w'.heap = w.heap ∧ w'.err = none) := by
  obtain ⟨o0, t0, ht0, rfl⟩ := hr.tree ha hc
  obtain ⟨r, w', h1, _, h3⟩ := hr.step (c := .eraseKey s k) ha
  have hz : r = .num 0 → w'.heap = w.heap := by
    have hw : wp (exec lt (.eraseKey s k)) (ready w) fun r w' => r = .num 0 → w'.heap = w.heap := by
      simp only [exec, wp_bind]
      refine wp_mono (wp_eraseKey_zero (w := ready w) (lt := lt) (k := k) ht0) ?_
      intro n w' h e
      exact h (by cases e; rfl)
    exact Runs.wp hw h1
  refine ⟨w', ?_⟩
  cases h3 with
  | eraseKey ht ht' hn hn' hcut hch herr hgone _ =>
    obtain ⟨-, rfl⟩ := Tree.unique (by exact ht) ht0
    rename_i A M B _
    have hsort := hr.inv.sorted ht0 hs
    obtain ⟨hA, hM, hB⟩ := hcut hs
    have hle := ecut_le_one hs (by rw [← hn]; exact hsort) hM
    match M, hle with
    | [], _ =>
      refine Or.inr ⟨?_, h1, (contents_iff ht').2 ?_, hz rfl, herr⟩
      · intro x hx
        rw [hn] at hx
        exact equiv_of_cut hA hB x.2 (List.mem_map_of_mem (by simpa using hx))
      · rw [hn', hn]; simp
    | [(p, k')], _ =>
      refine Or.inl ⟨A, p, k', B, by rw [hn]; simp, hM (p, k') (by simp), h1, (contents_iff ht').2 hn'.symm, ?_, herr⟩
      exact hgone (p, k') (by simp)

example : ∃ w L, Reach natLt w ∧ Alive w (.stk 0) ∧ Contents w (.stk 0) L ∧ L.map Prod.snd = [1, 2, 3] := by
  obtain ⟨w, L, h0, _, h1, _, h3, h4, _⟩ := demo
  exact ⟨w, L, h0, h1, h3, h4⟩

/-- C05: `erase(it)` removes exactly the element denoted by `it` (and releases its node), and returns the position of
the next element, or `end()`; no comparator is called.  This holds for every comparator. -/
theorem set_erase_iterator {p : Ptr} {A B : List (Ptr × K)} (hr : Reach lt w) (ha : Alive w s)
    (hc : Contents w s (A ++ (p, k) :: B)) :
    ∃ w', Runs (exec lt (.eraseAt s p)) (ready w) (.erased (posOf s B) k) w' ∧ Contents w' s (A ++ B) ∧
      w'.heap p = none ∧ w'.err = none ∧ w'.nCmp = w.nCmp := by
  obtain ⟨o0, t0, ht0, hL⟩ := hr.tree ha hc
  obtain ⟨r, w', h1, _, h3⟩ := hr.step (c := .eraseAt s p) ⟨ha, _, k, hc, by simp⟩
  cases h3 with
  | @eraseAt _ _ k2 _ o t t' A2 B2 ht ht' hn hn' hch herr hgone hcmp =>
    obtain ⟨-, rfl⟩ := Tree.unique (by exact ht) ht0
    have hnd := ht0.ok.nodup
    obtain ⟨rfl, rfl, rfl⟩ : A = A2 ∧ k = k2 ∧ B = B2 := by
      rw [← hL] at hn
      rw [T.ptrs, ← hL] at hnd
      clear hc h1 ht ht' hn' hch herr hgone hcmp hL
      induction A generalizing A2 with
      | nil =>
        cases A2 with
        | nil => simp at hn; exact ⟨rfl, hn.1, hn.2⟩
        | cons y A2 =>
          simp at hn hnd
          exfalso
          rw [hn.2] at hnd
          exact hnd.1 k2 (by simp)
      | cons x A ih =>
        cases A2 with
        | nil =>
          simp at hn hnd
          exfalso
          rw [hn.1] at hnd
          exact hnd.1.2.1 rfl
        | cons y A2 =>
          simp only [List.cons_append, List.cons.injEq] at hn
          simp only [List.cons_append, List.map_cons, List.nodup_cons] at hnd
          obtain ⟨h1, h2, h3⟩ := ih hn.2 hnd.2
          rw [hn.1, h1]
          exact ⟨rfl, h2, h3⟩
    rw [← posOf_eq] at h1
    exact ⟨w', h1, (contents_iff ht').2 hn'.symm, hgone, herr, hcmp⟩

example : ∃ w A p B, Reach natLt w ∧ Alive w (.stk 0) ∧ Contents w (.stk 0) (A ++ (p, 2) :: B) ∧ A ≠ [] ∧ B ≠ [] := by
  obtain ⟨w, p, q, r, h0, hg, h1, h2, h3, h5⟩ := demo3
  exact ⟨w, [(p, 1)], q, [(r, 3)], h0, h1, h3, by simp, by simp⟩

/-- C05 (ranges): `erase(first, last)` removes exactly the elements of the range and returns `last`. -/
theorem set_erase_range {A M B : List (Ptr × K)} (hr : Reach lt w) (ha : Alive w s)
    (hc : Contents w s (A ++ (M ++ B))) :
    ∃ w', Runs (exec lt (.eraseRange s (posOf s (M ++ B)) (posOf s B))) (ready w)
        (.erasedRange (posOf s B) (M.map Prod.snd)) w' ∧
      Contents w' s (A ++ B) ∧ (∀ x ∈ M, w'.heap x.1 = none) ∧ w'.err = none := by
  obtain ⟨o0, t0, ht0, hL⟩ := hr.tree ha hc
  have hrun : wp (exec lt (.eraseRange s (posOf s (M ++ B)) (posOf s B))) (ready w) (fun r w' =>
      r = .erasedRange (posOf s B) (M.map Prod.snd) ∧ Contents w' s (A ++ B) ∧ (∀ x ∈ M, w'.heap x.1 = none) ∧
      w'.err = none) := by
    rw [posOf_eq, posOf_eq]
    simp only [exec, wp_bind]
    refine wp_walkRange (w := ready w) ht0 hL.symm ?_
    refine wp_eraseRange (w := ready w) ht0 hL.symm ?_
    intro H' t' h1 h2 h3 h4
    exact ⟨rfl, (contents_iff (w := (ready w).setHeap H') h1).2 h2.symm, h3, rfl⟩
  obtain ⟨r, w', h1, rfl, h2⟩ := wp.runs hrun
  exact ⟨w', h1, h2⟩

example : ∃ w A M B, Reach natLt w ∧ Alive w (.stk 0) ∧ Contents w (.stk 0) (A ++ (M ++ B)) ∧ A ≠ [] ∧ M ≠ [] ∧ B ≠ [] := by
  obtain ⟨w, p, q, r, h0, hg, h1, h2, h3, h5⟩ := demo3
  exact ⟨w, [(p, 1)], [(q, 2)], [(r, 3)], h0, h1, h3, by simp, by simp, by simp⟩

/-! ### C06 -/

/-- The call `c` removes the element at position `p` with key `k` from set `s`. -/
def Removes (lt : K → K → Bool) (c : Call K) (r : Res K) (s p : Ptr) (k : K) : Prop :=
  c = .eraseAt s p ∨ (∃ k', c = .eraseKey s k' ∧ Equiv lt k k') ∨
  (∃ f l n ks, c = .eraseRange s f l ∧ r = .erasedRange n ks ∧ k ∈ ks) ∨
  c = .clear s ∨ (∃ prop s', c = .copy prop s s' ∧ s ≠ s') ∨ c = .destroy s

/-- C06: an iterator keeps denoting the same element (same node, same key, same set) across every call, unless the call
erases that element; when the whole set is moved it denotes that element of the new set object. -/
theorem set_iterators_stable {c : Call K} {r : Res K} {p : Ptr} (hr : Reach lt w) (hs : SWO lt) (hv : Valid w c)
    (hrun : Runs (exec lt c) (ready w) r w') (ha : Alive w s) (hc : Contents w s L) (hp : (p, k) ∈ L) :
    Removes lt c r s p k ∨ (Alive w' s ∧ ∃ L', Contents w' s L' ∧ (p, k) ∈ L') ∨
      (c = .move s ∧ ∃ d, r = .obj d ∧ Alive w' d ∧ ∃ L', Contents w' d L' ∧ (p, k) ∈ L') := by
  obtain ⟨o0, t0, ht0, rfl⟩ := hr.tree ha hc
  obtain ⟨-, he⟩ := hr.effect hv hrun
  have hI := hr.inv.ready
  by_cases ht : Touches c s
  · have ok : ∀ {o t'}, Tree w'.heap s o t' → (p, k) ∈ t'.nodes → Alive w' s ∧ ∃ L', Contents w' s L' ∧ (p, k) ∈ L' := by
      intro o t' ht' hm
      obtain ⟨i, rfl⟩ := ht'.ok.hdr
      exact ⟨⟨i, rfl, ht'.ne_none⟩, t'.nodes, (contents_iff ht').2 rfl, hm⟩
    cases he with
    | create hc => exact ht.elim
    | insertOld h1 hn _ _ hh =>
      cases ht
      exact Or.inr (Or.inl (ok (o := o0) (by rw [hh]; exact ht0) hp))
    | insertFail h1 hn _ hh =>
      cases ht
      exact Or.inr (Or.inl (ok (o := o0) (by rw [hh]; exact ht0) hp))
    | insertNew h1 h2 hn hn' =>
      cases ht
      obtain ⟨-, rfl⟩ := Tree.unique (by exact h1) ht0
      refine Or.inr (Or.inl (ok h2 ?_))
      rw [hn] at hp
      rw [hn']
      simp only [List.mem_append, List.mem_cons] at hp ⊢
      rcases hp with h | h
      · exact Or.inl h
      · exact Or.inr (Or.inr h)
    | eraseKey h1 h2 hn hn' hcut =>
      cases ht
      obtain ⟨-, rfl⟩ := Tree.unique (by exact h1) ht0
      rw [hn] at hp
      simp only [List.mem_append] at hp
      rcases hp with h | h | h
      · exact Or.inr (Or.inl (ok h2 (by rw [hn']; simp [h])))
      · exact Or.inl (Or.inr (Or.inl ⟨_, rfl, (hcut hs).2.1 _ h⟩))
      · exact Or.inr (Or.inl (ok h2 (by rw [hn']; simp [h])))
    | eraseAt h1 h2 hn hn' =>
      cases ht
      obtain ⟨-, rfl⟩ := Tree.unique (by exact h1) ht0
      rw [hn] at hp
      simp only [List.mem_append, List.mem_cons] at hp
      rcases hp with h | h | h
      · exact Or.inr (Or.inl (ok h2 (by rw [hn']; simp [h])))
      · cases h; exact Or.inl (Or.inl rfl)
      · exact Or.inr (Or.inl (ok h2 (by rw [hn']; simp [h])))
    | eraseRange h1 h2 hn hn' =>
      cases ht
      obtain ⟨-, rfl⟩ := Tree.unique (by exact h1) ht0
      rw [hn] at hp
      simp only [List.mem_append] at hp
      rcases hp with h | h | h
      · exact Or.inr (Or.inl (ok h2 (by rw [hn']; simp [h])))
      · exact Or.inl (Or.inr (Or.inr (Or.inl ⟨_, _, _, _, rfl, rfl, List.mem_map_of_mem (f := Prod.snd) h⟩)))
      · exact Or.inr (Or.inl (ok h2 (by rw [hn']; simp [h])))
    | clear => cases ht; exact Or.inl (Or.inr (Or.inr (Or.inr (Or.inl rfl))))
    | findNone => exact ht.elim
    | findSome => exact ht.elim
    | copySelf _ _ => exact (ht.2 rfl).elim
    | copyFail hne =>
      obtain ⟨rfl, -⟩ := ht
      exact Or.inl (Or.inr (Or.inr (Or.inr (Or.inr (Or.inl ⟨_, _, rfl, hne⟩)))))
    | copyOk hne =>
      obtain ⟨rfl, -⟩ := ht
      exact Or.inl (Or.inr (Or.inr (Or.inr (Or.inr (Or.inl ⟨_, _, rfl, hne⟩)))))
    | move h1 hm =>
      cases ht
      obtain ⟨-, rfl⟩ := Tree.unique (by exact h1) ht0
      exact Or.inr (Or.inr ⟨rfl, _, rfl, ⟨_, rfl, hm.tree.ne_none⟩, _, (contents_iff hm.tree).2 rfl, hp⟩)
    | destroy => cases ht; exact Or.inl (Or.inr (Or.inr (Or.inr (Or.inr (Or.inr rfl)))))
  · have ht' := he.frame hI ht0 ht
    obtain ⟨i, rfl⟩ := ht'.ok.hdr
    exact Or.inr (Or.inl ⟨⟨i, rfl, ht'.ne_none⟩, t0.nodes, (contents_iff ht').2 rfl, hp⟩)

example : ∃ w L p r w', Reach natLt w ∧ Alive w (.stk 0) ∧ Contents w (.stk 0) L ∧ (p, 1) ∈ L ∧
    Valid w (.eraseKey (.stk 0) 2) ∧ Runs (exec natLt (.eraseKey (.stk 0) 2)) (ready w) r w' ∧
    ¬ Removes natLt (.eraseKey (.stk 0) 2) r (.stk 0) p 1 := by
  obtain ⟨w, p, q, r, h0, hg, h1, h2, h3, h5⟩ := demo3
  obtain ⟨r, w', hr, _⟩ := h0.step (c := .eraseKey (.stk 0) 2) h1
  exact ⟨w, _, p, r, w', h0, h1, h3, by simp, h1, hr, by simp [Removes, Equiv, natLt]⟩

/-- C06 (other sets): a call leaves every set it is not applied to alive with the same elements in the same nodes.
This holds for every comparator. -/
theorem set_frame {c : Call K} {r : Res K} (hr : Reach lt w) (hv : Valid w c)
    (hrun : Runs (exec lt c) (ready w) r w') (ha : Alive w s) (hc : Contents w s L) (ht : ¬ Touches c s) :
    Alive w' s ∧ Contents w' s L := by
  obtain ⟨o0, t0, ht0, rfl⟩ := hr.tree ha hc
  obtain ⟨-, he⟩ := hr.effect hv hrun
  have ht' := he.frame hr.inv.ready ht0 ht
  obtain ⟨i, rfl⟩ := ht'.ok.hdr
  exact ⟨⟨i, rfl, ht'.ne_none⟩, (contents_iff ht').2 rfl⟩

example : ∃ w L r w', Reach natLt w ∧ Alive w (.stk 0) ∧ Contents w (.stk 0) L ∧ L ≠ [] ∧
    Valid w (.insert (.stk 1) 2) ∧ Runs (exec natLt (.insert (.stk 1) 2)) (ready w) r w' ∧
    ¬ Touches (.insert (.stk 1) 2) (.stk 0) := by
  obtain ⟨w, p, q, r, h0, hg, h1, h2, h3, h5⟩ := demo3
  obtain ⟨r, w', hr, _⟩ := h0.step (c := .insert (.stk 1) 2) h2
  exact ⟨w, _, r, w', h0, h1, h3, by simp, h2, hr, by simp [Touches]⟩

/-! ### C07, C08 -/

/-- C07: `size()` is the number of elements visited by iteration and `empty()` holds iff `begin() == end()`. -/
theorem set_size_empty (hr : Reach lt w) (ha : Alive w s) (hc : Contents w s L) :
    Runs (size s) w L.length w ∧ ∃ e f b, Runs (empty s) w b w ∧ Runs (begin_ s) w f w ∧ Runs (end_ s) w e w ∧
      (b = true ↔ f = e) ∧ (b = true ↔ L = []) := by
  obtain ⟨o0, t, ht, rfl⟩ := hr.tree ha hc
  have h1 : Runs (size s) w t.nodes.length w := by
    obtain ⟨a, w', h1, rfl, rfl⟩ := wp.runs (m := size s) (s := w) (Q := fun a w' => a = t.nodes.length ∧ w' = w) (by
      simp only [size, wp_bind, wp_rd ht.cell ht.hdr_ne, wp_pure, hdCell, and_self])
    exact h1
  have h2 : Runs (empty s) w (decide (t.nodes.length = 0)) w := by
    obtain ⟨a, w', h1, rfl, rfl⟩ := wp.runs (m := empty s) (s := w) (Q := fun a w' => a = decide (t.nodes.length = 0) ∧ w' = w) (by
      simp only [empty, wp_bind, wp_rd ht.cell ht.hdr_ne, wp_pure, hdCell]
      exact ⟨rfl, trivial⟩)
    exact h1
  have h3 : Runs (begin_ s) w (firstP s t.nodes) w := by
    obtain ⟨a, w', h1, rfl, rfl⟩ := wp.runs (m := begin_ s) (s := w) (Q := fun a w' => a = firstP s t.nodes ∧ w' = w) (by
      simp only [begin_, wp_bind, wp_rd ht.cell ht.hdr_ne, wp_pure, hdCell, and_self])
    exact h1
  refine ⟨h1, s, _, _, h2, h3, rfl, ?_, ?_⟩
  · rw [decide_eq_true_iff]
    cases hL : t.nodes with
    | nil => simp
    | cons x L =>
      simp only [List.length_cons, Nat.add_one_ne_zero, firstP_cons, false_iff]
      intro e
      obtain ⟨a, ha⟩ := ht.ok.dyn x.1 (by rw [T.ptrs, hL]; simp)
      obtain ⟨i, hi⟩ := ht.ok.hdr
      rw [ha, hi] at e; cases e
  · simp

example : ∃ w L, Reach natLt w ∧ Alive w (.stk 0) ∧ Contents w (.stk 0) L ∧ L.length = 3 := by
  obtain ⟨w, p, q, r, h0, hg, h1, h2, h3, h5⟩ := demo3
  exact ⟨w, _, h0, h1, h3, rfl⟩

/-- C08: walking backwards from `end()` visits the same positions and keys in exactly the reverse order. -/
theorem set_walk_back (hr : Reach lt w) (ha : Alive w s) (hc : Contents w s L) : Runs (walkBack s) w L.reverse w := by
  obtain ⟨o0, t, ht, rfl⟩ := hr.tree ha hc
  obtain ⟨a, w', h1, rfl, rfl⟩ := wp.runs (m := walkBack s) (s := w) (Q := fun a w' => a = t.nodes.reverse ∧ w' = w) (by
    simp only [walkBack, end_, begin_, wp_bind, wp_pure, wp_rd ht.cell ht.hdr_ne]
    exact wp_walkBackFrom (B := []) ht (by simp) ⟨rfl, rfl⟩)
  exact h1

example : ∃ w L, Reach natLt w ∧ Alive w (.stk 0) ∧ Contents w (.stk 0) L ∧ L.length = 3 := by
  obtain ⟨w, p, q, r, h0, hg, h1, h2, h3, h5⟩ := demo3
  exact ⟨w, _, h0, h1, h3, rfl⟩

/-- C08: `++` and `--` undo each other, for every element and the next position (which may be `end()`). -/
theorem set_incr_decr {A B : List (Ptr × K)} {p : Ptr} (hr : Reach lt w) (ha : Alive w s)
    (hc : Contents w s (A ++ (p, k) :: B)) :
    Runs (increment p) w (posOf s B) w ∧ Runs (decrement (posOf s B)) w p w := by
  obtain ⟨o0, t, ht, hL⟩ := hr.tree ha hc
  rw [posOf_eq]
  constructor
  · obtain ⟨a, w', h1, rfl, rfl⟩ := wp.runs (m := increment p) (s := w) (Q := fun a w' => a = firstP s B ∧ w' = w)
      (wp_increment' ht hL.symm ⟨rfl, rfl⟩)
    exact h1
  · obtain ⟨a, w', h1, rfl, rfl⟩ := wp.runs (m := decrement (firstP s B)) (s := w) (Q := fun a w' => a = p ∧ w' = w) (by
      cases B with
      | nil =>
        have htn : t ≠ .nil := by rintro rfl; simp [T.nodes] at hL
        refine wp_decrement_end (Tree.toZ (ctx := []) ht) htn ?_
        simp only [plug, ← hL]
        simp
      | cons b B =>
        obtain ⟨q, kq⟩ := b
        refine wp_decrement' (A := A ++ [(p, k)]) ht (k := kq) (B := B) (by rw [← hL]; simp) (by simp) ?_
        simp)
    exact h1

example : ∃ w A p B, Reach natLt w ∧ Alive w (.stk 0) ∧ Contents w (.stk 0) (A ++ (p, 2) :: B) ∧ A ≠ [] ∧ B ≠ [] := by
  obtain ⟨w, p, q, r, h0, hg, h1, h2, h3, h5⟩ := demo3
  exact ⟨w, [(p, 1)], q, [(r, 3)], h0, h1, h3, by simp, by simp⟩

/-! ### C09 -/

/-- C09: `find`, `insert` and `erase(key)` on a set of `n` elements call the comparator at most `2 log2(n+1) + 1`,
`2 log2(n+1) + 2` and `4 log2(n+1)` times, for every comparator; erasing through an iterator, clearing and copying call it
never. -/
theorem set_log_comparisons {c : Call K} {r : Res K} (hr : Reach lt w) (ha : Alive w s) (hc : Contents w s L)
    (hv : Valid w c) (hrun : Runs (exec lt c) (ready w) r w') :
    (c = .find s k → w'.nCmp ≤ w.nCmp + 2 * Nat.log2 (L.length + 1) + 1) ∧
    (c = .insert s k → w'.nCmp ≤ w.nCmp + 2 * Nat.log2 (L.length + 1) + 2) ∧
    (c = .eraseKey s k → w'.nCmp ≤ w.nCmp + 4 * Nat.log2 (L.length + 1)) ∧
    (∀ p, c = .eraseAt s p → w'.nCmp = w.nCmp) := by
  obtain ⟨o0, t0, ht0, rfl⟩ := hr.tree ha hc
  obtain ⟨-, he⟩ := hr.effect hv hrun
  have hh := ht0.height_le
  have e0 : (ready w).nCmp = w.nCmp := rfl
  refine ⟨?_, ?_, ?_, ?_⟩
  · rintro rfl
    cases he with
    | findNone ht _ _ _ _ _ _ hn => obtain ⟨-, rfl⟩ := Tree.unique (by exact ht) ht0; omega
    | findSome ht _ _ _ _ _ _ hn => obtain ⟨-, rfl⟩ := Tree.unique (by exact ht) ht0; omega
  · rintro rfl
    cases he with
    | insertOld ht _ _ _ _ _ _ _ _ hn => obtain ⟨-, rfl⟩ := Tree.unique (by exact ht) ht0; omega
    | insertFail ht _ _ _ _ _ _ hn => obtain ⟨-, rfl⟩ := Tree.unique (by exact ht) ht0; omega
    | insertNew ht _ _ _ _ _ _ _ hn _ => obtain ⟨-, rfl⟩ := Tree.unique (by exact ht) ht0; omega
  · rintro rfl
    cases he with
    | eraseKey ht _ _ _ _ _ _ _ hn => obtain ⟨-, rfl⟩ := Tree.unique (by exact ht) ht0; omega
  · rintro p rfl
    cases he with
    | eraseAt ht _ _ _ _ _ _ hn => exact hn

example : ∃ w L r w', Reach natLt w ∧ Alive w (.stk 0) ∧ Contents w (.stk 0) L ∧ L.length = 3 ∧
    Valid w (.find (.stk 0) 2) ∧ Runs (exec natLt (.find (.stk 0) 2)) (ready w) r w' := by
  obtain ⟨w, p, q, r, h0, hg, h1, h2, h3, h5⟩ := demo3
  obtain ⟨r, w', hr, _⟩ := h0.step (c := .find (.stk 0) 2) h1
  exact ⟨w, _, r, w', h0, h1, h3, rfl, h1, hr⟩

/-! ### C11, C14 -/

/-- C11: `clear()` empties the set and releases every node (`Runs` excludes double destruction, destruction of unconstructed
values, deallocation of live values and deallocation through a foreign allocator, which are faults of the model). -/
theorem set_clear (hr : Reach lt w) (ha : Alive w s) (hc : Contents w s L) :
    ∃ w', Runs (exec lt (.clear s)) (ready w) .unit w' ∧ Reach lt w' ∧ Alive w' s ∧ Contents w' s [] ∧
      (∀ x ∈ L, w'.heap x.1 = none) ∧ w'.err = none := by
  obtain ⟨o0, t0, ht0, rfl⟩ := hr.tree ha hc
  obtain ⟨r, w', h1, h2, h3⟩ := hr.step (c := .clear s) ha
  cases h3 with
  | clear ht ht' hch he =>
    obtain ⟨-, rfl⟩ := Tree.unique (by exact ht) ht0
    obtain ⟨i, rfl⟩ := ht'.ok.hdr
    refine ⟨w', h1, h2, ⟨i, rfl, ht'.ne_none⟩, (contents_iff ht').2 rfl, ?_, he⟩
    intro x hx
    exact hch.gone x.1 (List.mem_map_of_mem hx) (by simp [T.ptrs, T.nodes])

example : ∃ w L, Reach natLt w ∧ Alive w (.stk 0) ∧ Contents w (.stk 0) L ∧ L.length = 3 := by
  obtain ⟨w, p, q, r, h0, hg, h1, h2, h3, h5⟩ := demo3
  exact ⟨w, _, h0, h1, h3, rfl⟩

/-- C11: the destructor releases every node and the object itself. -/
theorem set_destroy (hr : Reach lt w) (ha : Alive w s) (hc : Contents w s L) :
    ∃ w', Runs (exec lt (.destroy s)) (ready w) .unit w' ∧ Reach lt w' ∧ ¬ Alive w' s ∧
      (∀ x ∈ L, w'.heap x.1 = none) ∧ w'.err = none := by
  obtain ⟨o0, t0, ht0, rfl⟩ := hr.tree ha hc
  obtain ⟨r, w', h1, h2, h3⟩ := hr.step (c := .destroy s) ha
  cases h3 with
  | destroy ht hch he =>
    obtain ⟨-, rfl⟩ := Tree.unique (by exact ht) ht0
    refine ⟨w', h1, h2, ?_, ?_, he⟩
    · rintro ⟨i, rfl, hn⟩
      exact hn hch.hdrGone
    · intro x hx
      exact hch.gone x.1 (List.mem_map_of_mem hx)

example : ∃ w L, Reach natLt w ∧ Alive w (.stk 0) ∧ Contents w (.stk 0) L ∧ L.length = 3 := by
  obtain ⟨w, p, q, r, h0, hg, h1, h2, h3, h5⟩ := demo3
  exact ⟨w, _, h0, h1, h3, rfl⟩

/-- C11/C14: nothing is ever leaked: every allocated block is a node of exactly one live set, whatever the comparator. -/
theorem set_no_leak {a : Nat} (hr : Reach lt w) (hm : w.heap (.dyn a) ≠ none) :
    ∃ s L k, Alive w s ∧ Contents w s L ∧ (.dyn a, k) ∈ L ∧
      ∀ s' L' k', Alive w s' → Contents w s' L' → (.dyn a, k') ∈ L' → s' = s := by
  have hI := hr.inv
  obtain ⟨i, o, t, ht, hin⟩ := hI.cover a hm
  obtain ⟨k, hk⟩ := mem_ptrs_iff.1 hin
  refine ⟨.stk i, t.nodes, k, ⟨i, rfl, ht.ne_none⟩, (contents_iff ht).2 rfl, hk, ?_⟩
  intro s' L' k' ha hc hk'
  obtain ⟨o2, t2, ht2, rfl⟩ := hr.tree ha hc
  obtain ⟨j, rfl⟩ := ht2.ok.hdr
  by_cases e : j = i
  · rw [e]
  · exact absurd hin (hI.disj ht2 ht e _ (mem_ptrs_iff.2 ⟨k', hk'⟩))

example : ∃ w a, Reach natLt w ∧ w.heap (.dyn a) ≠ none := by
  obtain ⟨w, p, q, r, h0, hg, h1, h2, h3, h5⟩ := demo3
  obtain ⟨o, t, ht, hL⟩ := h0.tree h1 h3
  have hm : q ∈ t.ptrs := by rw [T.ptrs, ← hL]; simp
  obtain ⟨a, rfl⟩ := ht.ok.dyn q hm
  obtain ⟨n, hn, _⟩ := Rep_alloc ht.rep _ hm
  exact ⟨w, a, h0, by rw [hn]; simp⟩

/-- C11: once all sets are destroyed no memory is allocated. -/
theorem set_all_released (hr : Reach lt w) (hd : ∀ s, ¬ Alive w s) (a : Nat) : w.heap (.dyn a) = none := by
  apply Classical.byContradiction
  intro h
  obtain ⟨s, L, k, ha, _⟩ := set_no_leak hr h
  exact hd s ha

example : ∃ w : W Nat, Reach natLt w ∧ (∀ s, ¬ Alive w s) ∧ w.nAlloc ≥ 1 := by
  obtain ⟨w, p, h0, h1, h2, h3, h4⟩ := demo_refused
  obtain ⟨o, t, ht, hL⟩ := h0.tree h1 h2
  have hna : w.nAlloc ≥ 1 := by
    have hm : p ∈ t.ptrs := by rw [T.ptrs, ← hL]; simp
    obtain ⟨a, rfl⟩ := ht.ok.dyn p hm
    obtain ⟨n, hn, _⟩ := Rep_alloc ht.rep _ hm
    obtain ⟨k, hk, _⟩ := h0.inv.past a (by rw [hn]; simp)
    omega
  obtain ⟨r, w', g1, g2, g3⟩ := h0.step (c := .destroy (.stk 0)) h1
  cases g3 with
  | destroy ht hch he =>
    refine ⟨w', g2, ?_, Nat.le_trans hna hch.ext.nAlloc⟩
    rintro s ⟨i, rfl, hi⟩
    have h5 := (g2.inv.alive i hi).1
    have h6 : w'.sp = 1 := hch.ext.sp.trans h4
    have : i = 0 := by omega
    subst this
    exact hi hch.hdrGone

/-- C14: whatever the comparator, every valid call on every reachable state terminates without any fault (null or dangling
access, double free, ...), and the resulting state is again reachable. -/
theorem set_memory_safe {c : Call K} (hr : Reach lt w) (hv : Valid w c) :
    ∃ r w', Runs (exec lt c) (ready w) r w' ∧ Reach lt w' := by
  obtain ⟨r, w', h1, h2, _⟩ := hr.step hv
  exact ⟨r, w', h1, h2⟩

/-- With a comparator that always answers `true` (no order at all), a set can hold the same key twice. -/
example : ¬ SWO (fun _ _ : Nat => true) ∧ ∃ w, Reach (fun _ _ : Nat => true) w ∧ Alive w (.stk 0) ∧
    ∃ L, Contents w (.stk 0) L ∧ L.map Prod.snd = [1, 1] := by
  refine ⟨fun h => by have := h.irrefl 0; simp at this, ?_⟩
  have ins : ∀ {w : W Nat} {o t} (k : Nat), Reach (fun _ _ : Nat => true) w → Good w → Tree w.heap (.stk 0) o t →
      ∃ w' t' a A B, Reach (fun _ _ : Nat => true) w' ∧ Good w' ∧ Tree w'.heap (.stk 0) o t' ∧ t.nodes = A ++ B ∧
        t'.nodes = A ++ (.dyn a, k) :: B := by
    intro w o t k hr hg ht0
    obtain ⟨r, w', _, r2, e2⟩ := hr.step (c := .insert (.stk 0) k) ⟨0, rfl, ht0.ne_none⟩
    have hg2 := (e2.good hr.inv.ready hg.ready).2
    cases e2 with
    | insertOld _ _ h => cases h
    | insertFail _ _ _ _ _ _ h => exact absurd h hg.ready.not_refused
    | insertNew ht ht' hn hn' =>
      obtain ⟨rfl, rfl⟩ := Tree.unique (by exact ht) ht0
      exact ⟨w', _, _, _, _, r2, hg2, ht', hn, hn'⟩
  have r0 : Reach (fun _ _ : Nat => true) (start goodEnv) := ⟨_, _, Hist.start⟩
  obtain ⟨_, w1, _, r1, e1⟩ := r0.step (c := .create 7) trivial
  have g1 := (e1.good r0.inv.ready good_start.ready).2
  cases e1 with
  | create c1 _ =>
  obtain ⟨w2, t2, a2, A2, B2, r2, g2, ht2, hn, hn2⟩ := ins 1 r1 g1 (by exact c1.tree)
  obtain ⟨rfl, rfl⟩ : A2 = [] ∧ B2 = [] := by simpa [T.nodes] using hn.symm
  obtain ⟨w3, t3, a3, A3, B3, r3, g3, ht3, hm, hm2⟩ := ins 1 r2 g2 ht2
  refine ⟨w3, r3, ⟨0, rfl, ht3.ne_none⟩, _, (contents_iff ht3).2 rfl, ?_⟩
  rw [hm2]
  rw [hn2, List.nil_append] at hm
  cases A3 with
  | nil => rw [List.nil_append] at hm; rw [← hm]; rfl
  | cons x A3 =>
    simp at hm
    obtain ⟨rfl, rfl, rfl⟩ := hm
    rfl

/-! ### C12, C13 -/

/-- C12: move construction transfers all elements (same nodes, same order) to the new object without allocating,
constructing or failing; the source is then empty, and alive. -/
theorem set_move (hr : Reach lt w) (ha : Alive w s) (hc : Contents w s L) :
    ∃ d w', Runs (exec lt (.move s)) (ready w) (.obj d) w' ∧ Reach lt w' ∧ ¬ Alive w d ∧ Alive w' d ∧ Contents w' d L ∧
      Alive w' s ∧ Contents w' s [] ∧ w'.err = none ∧ w'.nAlloc = w.nAlloc ∧ w'.nCtor = w.nCtor := by
  obtain ⟨o0, t0, ht0, rfl⟩ := hr.tree ha hc
  obtain ⟨r, w', h1, h2, h3⟩ := hr.step (c := .move s) ha
  cases h3 with
  | move ht hm he hct =>
    obtain ⟨-, rfl⟩ := Tree.unique (by exact ht) ht0
    obtain ⟨i, rfl⟩ := ht0.ok.hdr
    refine ⟨_, w', h1, h2, ?_, ⟨_, rfl, hm.tree.ne_none⟩, (contents_iff hm.tree).2 rfl, ⟨i, rfl, hm.srcTree.ne_none⟩,
      (contents_iff hm.srcTree).2 rfl, he, hm.nAlloc, hct⟩
    rintro ⟨j, hj, hne⟩
    exact hne (by exact hr.inv.fresh_stk)

example : ∃ w L, Reach natLt w ∧ Alive w (.stk 0) ∧ Contents w (.stk 0) L ∧ L.length = 3 := by
  obtain ⟨w, p, q, r, h0, hg, h1, h2, h3, h5⟩ := demo3
  exact ⟨w, _, h0, h1, h3, rfl⟩

/-- C13: `copy_nothrow` gives the destination the same keys in the same order, in nodes disjoint from the source's, and
leaves the source unchanged; on failure (only possible if a request was refused) the destination is empty.  The old
nodes of the destination are released or reused. -/
theorem set_copy {d : Ptr} {prop : Bool} {Ld : List (Ptr × K)} (hr : Reach lt w) (ha : Alive w s) (had : Alive w d)
    (hne : d ≠ s) (hc : Contents w s L) (hd : Contents w d Ld) :
    ∃ w', Runs (exec lt (.copy prop d s)) (ready w) .unit w' ∧ Reach lt w' ∧ Alive w' s ∧ Contents w' s L ∧ Alive w' d ∧
      ((w'.err = none ∧ ∃ L', Contents w' d L' ∧ L'.map Prod.snd = L.map Prod.snd ∧
          (∀ x ∈ L', ∀ y ∈ L, x.1 ≠ y.1) ∧ (∀ x ∈ Ld, x.1 ∉ L'.map Prod.fst → w'.heap x.1 = none)) ∨
       (w'.err ≠ none ∧ ¬ Good w ∧ Contents w' d [] ∧ ∀ x ∈ Ld, w'.heap x.1 = none)) := by
  obtain ⟨o0, t0, ht0, rfl⟩ := hr.tree ha hc
  obtain ⟨od, td, htd, rfl⟩ := hr.tree had hd
  obtain ⟨r, w', h1, h2, h3⟩ := hr.step (c := .copy prop d s) ⟨had, ha⟩
  have hfr := h3.frame hr.inv.ready (x := s) ht0 (by rintro ⟨e, _⟩; exact hne e.symm)
  obtain ⟨i, rfl⟩ := ht0.ok.hdr
  obtain ⟨j, rfl⟩ := htd.ok.hdr
  cases h3 with
  | copySelf => exact absurd rfl hne
  | copyFail _ ht hs ht' hch he hng =>
    obtain ⟨-, rfl⟩ := Tree.unique (by exact ht) htd
    refine ⟨w', h1, h2, ⟨i, rfl, hfr.ne_none⟩, (contents_iff hfr).2 rfl, ⟨j, rfl, ht'.ne_none⟩, Or.inr ⟨by rw [he]; simp, ?_,
      (contents_iff ht').2 rfl, ?_⟩⟩
    · intro hg; exact hng ⟨hg.some, hg.inj, hg.ctor, hg.past⟩
    · intro x hx
      exact hch.gone x.1 (List.mem_map_of_mem hx) (by simp [T.ptrs, T.nodes])
  | @copyOk _ _ _ _ _ _ _ t2 t3 _ ht hs ht' hl hch he _ =>
    obtain ⟨-, rfl⟩ := Tree.unique (by exact ht) htd
    obtain ⟨-, rfl⟩ := Tree.unique (by exact hs) ht0
    refine ⟨w', h1, h2, ⟨i, rfl, hfr.ne_none⟩, (contents_iff hfr).2 rfl, ⟨j, rfl, ht'.ne_none⟩, Or.inl ⟨he, _,
      (contents_iff ht').2 rfl, hl.keys, ?_, ?_⟩⟩
    · intro x hx y hy e
      refine h2.inv.disj ht' hfr (by rintro rfl; exact hne rfl) x.1 (List.mem_map_of_mem hx) ?_
      rw [e]; exact List.mem_map_of_mem hy
    · intro x hx hx2
      exact hch.gone x.1 (List.mem_map_of_mem hx) hx2

example : ∃ w L, Reach natLt w ∧ Alive w (.stk 0) ∧ Alive w (.stk 1) ∧ Contents w (.stk 0) L ∧ L.length = 3 ∧
    Contents w (.stk 1) [] ∧ Good w := by
  obtain ⟨w, p, q, r, h0, hg, h1, h2, h3, h5⟩ := demo3
  exact ⟨w, _, h0, h1, h2, h3, rfl, h5, hg⟩

/-- C13: copying a set to itself changes nothing. -/
theorem set_copy_self {prop : Bool} (hr : Reach lt w) (ha : Alive w s) :
    Runs (exec lt (.copy prop s s)) (ready w) .unit (ready w) := by
  obtain ⟨r, w', h1, h2, h3⟩ := hr.step (c := .copy prop s s) ⟨ha, ha⟩
  cases h3 with
  | copySelf he => subst he; exact h1
  | copyFail h => exact absurd rfl h
  | copyOk h => exact absurd rfl h

example : ∃ w L, Reach natLt w ∧ Alive w (.stk 0) ∧ Contents w (.stk 0) L ∧ L.length = 3 := by
  obtain ⟨w, p, q, r, h0, hg, h1, h2, h3, h5⟩ := demo3
  exact ⟨w, _, h0, h1, h3, rfl⟩

/-! ### C15 -/

/-- C15: `lower_bound(k)` is the position of the first element that is not less than `k`. -/
theorem set_lower_bound (hr : Reach lt w) (hs : SWO lt) (ha : Alive w s) (hc : Contents w s L) :
    ∃ A B w', L = A ++ B ∧ (∀ x ∈ A, lt x.2 k = true) ∧ (∀ x ∈ B, lt x.2 k = false) ∧
      Runs (lowerBoundKey lt s k) w (posOf s B) w' ∧ w'.heap = w.heap := by
  obtain ⟨o, t, ht, rfl⟩ := hr.tree ha hc
  obtain ⟨p, w', h1, A, B, h2, h3, rfl, h4⟩ := wp.runs (m := lowerBoundKey lt s k) (s := w)
    (Q := fun p w' => ∃ A B, t.nodes = A ++ B ∧ LCut lt k A B ∧ p = posOf s B ∧ w'.heap = w.heap) (by
    simp only [lowerBoundKey, wp_bind, wp_rd ht.cell ht.hdr_ne]
    refine wp_lowerBound ht.rep ht.null_notMem ?_
    intro n A B h1 h2 h3 h4
    exact ⟨A, B, h1, h4 hs ((hr.inv.sorted ht hs).weak hs), (posOf_eq _ _).symm, rfl⟩)
  exact ⟨A, B, w', h2, h3.1, h3.2, h1, h4⟩

example : ∃ w L, Reach natLt w ∧ Alive w (.stk 0) ∧ Contents w (.stk 0) L ∧ L.map Prod.snd = [1, 2, 3] := by
  obtain ⟨w, L, h0, _, h1, _, h3, h4, _⟩ := demo
  exact ⟨w, L, h0, h1, h3, h4⟩

/-- C15: `upper_bound(k)` is the position of the first element that is greater than `k`. -/
theorem set_upper_bound (hr : Reach lt w) (hs : SWO lt) (ha : Alive w s) (hc : Contents w s L) :
    ∃ A B w', L = A ++ B ∧ (∀ x ∈ A, lt k x.2 = false) ∧ (∀ x ∈ B, lt k x.2 = true) ∧
      Runs (upperBoundKey lt s k) w (posOf s B) w' ∧ w'.heap = w.heap := by
  obtain ⟨o, t, ht, rfl⟩ := hr.tree ha hc
  obtain ⟨p, w', h1, A, B, h2, h3, rfl, h4⟩ := wp.runs (m := upperBoundKey lt s k) (s := w)
    (Q := fun p w' => ∃ A B, t.nodes = A ++ B ∧ UCut lt k A B ∧ p = posOf s B ∧ w'.heap = w.heap) (by
    simp only [upperBoundKey, wp_bind, wp_rd ht.cell ht.hdr_ne]
    refine wp_upperBound ht.rep ht.null_notMem ?_
    intro n A B h1 h2 h3 h4
    exact ⟨A, B, h1, h4 hs ((hr.inv.sorted ht hs).weak hs), (posOf_eq _ _).symm, rfl⟩)
  exact ⟨A, B, w', h2, h3.1, h3.2, h1, h4⟩

example : ∃ w L, Reach natLt w ∧ Alive w (.stk 0) ∧ Contents w (.stk 0) L ∧ L.map Prod.snd = [1, 2, 3] := by
  obtain ⟨w, L, h0, _, h1, _, h3, h4, _⟩ := demo
  exact ⟨w, L, h0, h1, h3, h4⟩

/-- C15: `equal_range(k)` is the pair of the two bounds, and `count(k)` is the number of equivalent elements. -/
theorem set_equal_range_count (hr : Reach lt w) (hs : SWO lt) (ha : Alive w s) (hc : Contents w s L) :
    ∃ A M B w' w'', L = A ++ (M ++ B) ∧ (∀ x ∈ A, lt x.2 k = true) ∧ (∀ x ∈ M, Equiv lt x.2 k) ∧
      (∀ x ∈ B, lt k x.2 = true) ∧ Runs (equalRange lt s k) w (posOf s (M ++ B), posOf s B) w' ∧ w'.heap = w.heap ∧
      Runs (count lt s k) w M.length w'' ∧ w''.heap = w.heap := by
  obtain ⟨o, t, ht, rfl⟩ := hr.tree ha hc
  have hsort := hr.inv.sorted ht hs
  obtain ⟨p, w', h1, A, M, B, h2, h3, rfl, h4⟩ := wp.runs (m := equalRange lt s k) (s := w)
    (Q := fun p w' => ∃ A M B, t.nodes = A ++ (M ++ B) ∧ ECut lt k A M B ∧ p = (posOf s (M ++ B), posOf s B) ∧
      w'.heap = w.heap) (by
    refine wp_equalRange ht ?_
    intro n A M B h1 h2 h3
    exact ⟨A, M, B, h1, h3 hs (hsort.weak hs), by rw [posOf_eq, posOf_eq], rfl⟩)
  obtain ⟨m, w'', g1, A', M', B', g2, g3, rfl, g4⟩ := wp.runs (m := count lt s k) (s := w)
    (Q := fun p w' => ∃ A M B, t.nodes = A ++ (M ++ B) ∧ ECut lt k A M B ∧ p = M.length ∧ w'.heap = w.heap) (by
    refine wp_count ht ?_
    intro n A M B h1 h2 h3
    exact ⟨A, M, B, h2, h3 hs (hsort.weak hs), rfl, rfl⟩)
  have cnt : ∀ {A M B : List (Ptr × K)}, t.nodes = A ++ (M ++ B) → ECut lt k A M B →
      t.nodes.countP (fun x => !lt x.2 k && !lt k x.2) = M.length := by
    intro A M B hn hcut
    rw [hn, List.countP_append, List.countP_append]
    rw [List.countP_eq_zero.2, List.countP_eq_length.2, List.countP_eq_zero.2]
    · simp
    · intro x hx; simp [hcut.2.2 x hx]
    · intro x hx; simp [hcut.2.1 x hx]
    · intro x hx; simp [hcut.1 x hx]
  have : M'.length = M.length := (cnt g2 g3).symm.trans (cnt h2 h3)
  rw [this] at g1
  exact ⟨A, M, B, w', w'', h2, h3.1, h3.2.1, h3.2.2, h1, h4, g1, g4⟩

example : ∃ w L, Reach natLt w ∧ Alive w (.stk 0) ∧ Contents w (.stk 0) L ∧ L.map Prod.snd = [1, 2, 3] := by
  obtain ⟨w, L, h0, _, h1, _, h3, h4, _⟩ := demo
  exact ⟨w, L, h0, h1, h3, h4⟩

/-! ### C60 -/

/-- C60: if the allocator always delivers (a new address each time) and constructors never fail, then no call of any
history reports an error. -/
theorem set_no_spurious_failure {env : Env (TNode K)} {h : List (Entry K)} (hh : Hist lt env h w)
    (h1 : ∀ n, ∃ a, env.addr n = some a) (h2 : ∀ i j, env.addr i = env.addr j → i = j) (h3 : ∀ n, env.ctor n = true) :
    ∀ e ∈ h, e.failed = false := by
  suffices (∀ e ∈ h, e.failed = false) ∧ Good w from this.1
  induction hh with
  | start => exact ⟨by simp, h1, h2, h3, fun _ h => absurd rfl h⟩
  | call hp hv hr ih =>
    have hI := hp.inv
    obtain ⟨ih1, hg⟩ := ih
    obtain ⟨g1, g2⟩ := (Runs.wp (exec_effect hI.ready (Inv.weak hI.ready) (hv.ready hI) rfl) hr).good hI.ready
      ⟨hg.some, hg.inj, hg.ctor, hg.past⟩
    refine ⟨?_, g2⟩
    intro e he
    rw [List.mem_cons] at he
    rcases he with rfl | he
    · simp [g1]
    · exact ih1 e he

example : ∃ h w, Hist natLt goodEnv h w ∧ (∀ n, ∃ a, goodEnv.addr n = some a) ∧
    (∀ i j, goodEnv.addr i = goodEnv.addr j → i = j) ∧ (∀ n, goodEnv.ctor n = true) ∧ Alive w (.stk 0) := by
  obtain ⟨h, w, L, hd, h1, _⟩ := demo_exists
  exact ⟨h, w, hd.1, fun n => ⟨n, rfl⟩, fun i j e => by simpa [goodEnv] using e, fun _ => rfl, h1⟩

end Nestl.Set
