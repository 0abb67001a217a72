import Verif.LinkedList.Demo
set_option autoImplicit false
/-
Property theorems of nestl::list (C17-C30, C61, C62).  The vocabulary (`Contents`, `Alive`, `HasAlloc`, `Call`, `exec`,
`Valid`, `Hist`, `Reach`, `Spec`, `SpecRun`) is defined in `Verif/LinkedList/Client.lean`, `Unchanged`, `Silent`,
`Removed` and `Relocates` at the top of `Verif/LinkedList/PropLemmas.lean`; the programs run by the calls are in
`Verif/LinkedList/Model.lean`.  After each theorem an `example` shows a concrete state that meets its hypotheses.
-/
namespace Nestl.LC
open Nestl.LL
variable {V : Type} {w w' : W V} {s t : Ptr} {L M X Y Z : List (Ptr × V)} {v : V} {pos : Ptr}

/-! ### C17 -/

/-- C17: after any history of calls, in any environment, there are mathematical lists that the same calls (with the same
results and the same failures) produce, and iterating over any live list object yields exactly its mathematical list. -/
theorem list_history_refinement {env : Env (LNode V)} {h : List (Entry V)} (hh : Hist env h w) :
    ∃ A, SpecRun h A ∧ (∀ s, Alive w s ↔ A s ≠ none) ∧
      ∀ s a L, A s = some (a, L) → Contents w s L ∧ HasAlloc w s a := by
  obtain ⟨A, h1, h2⟩ := hh.sim
  exact ⟨A, h1, fun s => h2.alive, fun s a L hs => ⟨(h2.contents hs).1, (h2.contents hs).2.1⟩⟩

/-- C17: every call whose precondition holds terminates without undefined behaviour, assertion failure, use of freed
memory or release through a wrong allocator. -/
theorem list_calls_safe (hr : Reach w) {c : Call V} (hv : Valid w c) : ∃ r w', Runs (exec c) (ready w) r w' := by
  obtain ⟨A, hs⟩ := hr.sim
  obtain ⟨r, w', h1, _⟩ := (hs.call hv).runs
  exact ⟨r, w', h1⟩

example : ∃ env h, ∃ (w : W Nat) (s p q r : Ptr), Hist env h w ∧ Contents w s [(p, 3), (q, 1), (r, 2)] ∧
    Valid w (.erase s q) := by
  obtain ⟨w, s, t, u, p, q, r, x, y, z, ⟨env, h, hh⟩, _, _, _, _, ha, _, _, hc, _⟩ := demo
  exact ⟨env, h, w, s, p, q, r, hh, hc, ha, [(p, 3)], 1, [(r, 2)], hc⟩

/-! ### C18 -/

/-- C18: iterating backwards from `end()` yields the reverse of the forward sequence; `size()` is its length, `empty()`
tells whether it has no elements, `front()` and `back()` are its ends.  None of these changes anything. -/
theorem list_backward_iteration (hr : Reach w) (ha : Alive w s) (hc : Contents w s L) :
    Runs (walkBack s) w L.reverse w ∧ Runs (size s) w L.length w ∧ Runs (empty s) w L.isEmpty w ∧
      (∀ x T, L = x :: T → Runs (front s) w x.2 w) ∧ (∀ x T, L = T ++ [x] → Runs (back s) w x.2 w) := by
  obtain ⟨σ, h, ho⟩ := hr.inv
  obtain ⟨ls, hs⟩ := (alive_iff h).1 ha
  obtain rfl := (contents_iff h hs).1 hc
  have run : ∀ {α : Type} {m : M (W V) α} {a : α}, wp m w (fun r w' => r = a ∧ w' = w) → Runs m w a w := by
    intro α m a hm
    obtain ⟨r, w', hr, rfl, rfl⟩ := hm.runs
    exact hr
  refine ⟨run (wp_walkBack h hs ⟨rfl, rfl⟩), run (wp_size h hs ⟨by simp, rfl⟩), run (wp_empty h hs ⟨?_, rfl⟩), ?_, ?_⟩
  · cases ls.els <;> rfl
  · intro x T hx
    obtain ⟨e, B, hB, rfl, _⟩ := view_cons_inv hx
    exact run (wp_front h hs hB ⟨rfl, rfl⟩)
  · intro x T hx
    obtain ⟨A, B', hB, _, hx2⟩ := view_split hx
    obtain ⟨e, B, rfl, rfl, hnil⟩ := view_cons_inv hx2
    obtain rfl := view_eq_nil.1 hnil
    exact run (wp_back h hs hB ⟨rfl, rfl⟩)

example : ∃ (w : W Nat) (s p q r : Ptr), Reach w ∧ Alive w s ∧ Contents w s [(p, 3), (q, 1), (r, 2)] := by
  obtain ⟨w, s, t, u, p, q, r, x, y, z, hr, _, _, _, _, ha, _, _, hc, _⟩ := demo
  exact ⟨w, s, p, q, r, hr, ha, hc⟩

/-! ### C19 -/

/-- C19: a call leaves every iterator to an element it does not destroy valid: the iterator still denotes an element of a
live list and has the same value.  Unless the call moves elements between lists it is an element of the same list. -/
theorem list_iterator_stability (hr : Reach w) {c : Call V} {r : Res} (hv : Valid w c)
    (hrun : Runs (exec c) (ready w) r w') (ha : Alive w s) (hc : Contents w s L) {p : Ptr} {v : V} (hp : (p, v) ∈ L)
    (hnr : ¬ Removed w c p) :
    Runs (deref p) w' v w' ∧
      ∃ s' L', Alive w' s' ∧ Contents w' s' L' ∧ (p, v) ∈ L' ∧ (¬ Relocates c → s' = s) := by
  obtain ⟨A, hsim⟩ := hr.sim
  have hsim0 := hsim
  obtain ⟨σ, h, ho, rfl⟩ := hsim
  obtain ⟨ls, hs⟩ := (alive_iff h).1 ha
  have hL := (contents_iff h hs).1 hc
  obtain ⟨A', hsp, hsim', _⟩ := Runs.wp (hsim0.call hv) hrun
  have hcon : ∀ {u a X}, abs σ u = some (a, X) → Contents w u X := fun hu => (hsim0.contents hu).1
  have key := spec_stable hsp (abs_some hs) (x := (p, v)) (by rw [← hL]; exact hp) (by
    intro hrem
    apply hnr
    cases c with
    | erase s pos => exact hrem
    | eraseRange s f l => obtain ⟨a, X, M, Y, hu, h1, h2, hm⟩ := hrem; exact ⟨X, M, Y, v, hcon hu, h1, h2, hm⟩
    | popBack s => obtain ⟨a, X, hu⟩ := hrem; exact ⟨X, v, hcon hu⟩
    | popFront s => obtain ⟨a, Y, hu⟩ := hrem; exact ⟨v, Y, hcon hu⟩
    | clear s => obtain ⟨a, Y, hu, hm⟩ := hrem; exact ⟨Y, v, hcon hu, hm⟩
    | assignN s _ _ => obtain ⟨a, Y, hu, hm⟩ := hrem; exact ⟨Y, v, hcon hu, hm⟩
    | assignVals s _ => obtain ⟨a, Y, hu, hm⟩ := hrem; exact ⟨Y, v, hcon hu, hm⟩
    | assignRange s _ _ _ => obtain ⟨a, Y, hu, hm⟩ := hrem; exact ⟨Y, v, hcon hu, hm⟩
    | copy s _ => obtain ⟨a, Y, hu, hm⟩ := hrem; exact ⟨Y, v, hcon hu, hm⟩
    | moveAssign s _ => obtain ⟨a, Y, hu, hm⟩ := hrem; exact ⟨Y, v, hcon hu, hm⟩
    | destroy s => obtain ⟨a, Y, hu, hm⟩ := hrem; exact ⟨Y, v, hcon hu, hm⟩
    | _ => exact hrem.elim)
  obtain ⟨s', a', L', hs', hm', hrel⟩ := key
  have hcs := hsim'.contents hs'
  refine ⟨?_, s', L', hcs.2.2, hcs.1, hm', hrel⟩
  obtain ⟨σ', h', ho', rfl⟩ := hsim'
  obtain ⟨l, hl, rfl⟩ := abs_inv hs'
  obtain ⟨e, he, hev⟩ := List.mem_map.1 hm'
  cases hev
  obtain ⟨v, w2, hr2, rfl, rfl⟩ := (wp_deref h' hl he (Q := fun r w2 => r = e.v ∧ w2 = w') ⟨rfl, rfl⟩).runs
  exact hr2

example : ∃ (w w' : W Nat) (s t p q r x y : Ptr) (res : Res), Reach w ∧ Valid w (.merge (fun a b => a < b) s t) ∧
    Runs (exec (.merge (fun a b => a < b) s t)) (ready w) res w' ∧ Alive w s ∧
    Contents w s [(p, 3), (q, 1), (r, 2)] ∧ Contents w t [(x, 2), (y, 5)] ∧
    ¬ Removed w (.merge (fun a b => a < b) s t) q := by
  obtain ⟨w, s, t, u, p, q, r, x, y, z, hr, hg, hst, _, _, ha, hb, _, hc, hd, _, h1, h2, _⟩ := demo
  have hv : Valid w (.merge (fun a b => a < b) s t) := ⟨ha, hb, ⟨_, h1, h2⟩, hst⟩
  obtain ⟨res, w', hrun⟩ := list_calls_safe hr hv
  exact ⟨w, w', s, t, p, q, r, x, y, res, hr, hv, hrun, ha, hc, hd, id⟩

/-! ### C20 -/

/-- C20: `insert`/`emplace` of one element at any position: if memory or the element constructor is refused an error is
reported, `end()` is returned and the memory is exactly as before (nothing changed, nothing leaked); otherwise there is no
error, the new element stands before the position and the returned iterator denotes it. -/
theorem list_insert_atomic (hr : Reach w) (ha : Alive w s) (hc : Contents w s (X ++ Y)) :
    ∃ p w', Runs (exec (.insert s (posOf s Y) v)) (ready w) (.pos p) w' ∧ (w'.err ≠ none ↔ Refused w) ∧
      (w'.err ≠ none → p = s ∧ w'.heap = w.heap ∧ Contents w' s (X ++ Y)) ∧
      (w'.err = none → Contents w' s (X ++ (p, v) :: Y) ∧ w.heap p = none) ∧ Unchanged w w' [s] := by
  obtain ⟨σ, h, ho⟩ := hr.inv
  obtain ⟨ls, hs⟩ := (alive_iff h).1 ha
  obtain ⟨A, B, hA, rfl, rfl⟩ := view_split ((contents_iff h hs).1 hc).symm
  suffices hw : wp (exec (.insert s (posOf s (view B)) v)) (ready w) fun r w' => ∃ p, r = .pos p ∧
      (w'.err ≠ none ↔ Refused w) ∧
      (w'.err ≠ none → p = s ∧ w'.heap = w.heap ∧ Contents w' s (view A ++ view B)) ∧
      (w'.err = none → Contents w' s (view A ++ (p, v) :: view B) ∧ w.heap p = none) ∧ Unchanged w w' [s] by
    obtain ⟨r, w', h1, p, rfl, h2⟩ := hw.runs
    exact ⟨p, w', h1, h2⟩
  rw [posOf_view]
  unfold exec; simp only [wp_bind]
  refine wp_emplace h.ready hs hA rfl ?_ ?_
  · intro w' _ _ herr href hinv hheap
    have hne : w'.err ≠ none := by intro h0; rw [h0] at herr; cases herr
    refine ⟨s, rfl, ⟨fun _ => href, fun _ => hne⟩, fun _ => ⟨rfl, hheap, ?_⟩, fun h0 => absurd h0 hne, ?_⟩
    · exact (contents_iff hinv hs).2 (by rw [hA]; simp)
    · exact unchanged h hinv fun _ _ => rfl
  · intro w' n _ _ herr href hn hinv
    refine ⟨n, rfl, ⟨fun h0 => absurd herr h0, fun h0 => absurd h0 href⟩, fun h0 => absurd herr h0, fun _ => ⟨?_, hn⟩, ?_⟩
    · exact (contents_iff hinv (upd_same _ _ _)).2 (by simp)
    · exact unchanged1 h hinv

/-- C20 for `push_back` / `emplace_back`. -/
theorem list_push_back_atomic (hr : Reach w) (ha : Alive w s) (hc : Contents w s L) :
    ∃ w', Runs (exec (.pushBack s v)) (ready w) .unit w' ∧ (w'.err ≠ none ↔ Refused w) ∧
      (w'.err ≠ none → w'.heap = w.heap ∧ Contents w' s L) ∧
      (w'.err = none → ∃ p, w.heap p = none ∧ Contents w' s (L ++ [(p, v)])) ∧ Unchanged w w' [s] := by
  obtain ⟨σ, h, ho⟩ := hr.inv
  obtain ⟨ls, hs⟩ := (alive_iff h).1 ha
  obtain rfl := (contents_iff h hs).1 hc
  suffices hw : wp (exec (.pushBack s v)) (ready w) fun r w' => r = .unit ∧ (w'.err ≠ none ↔ Refused w) ∧
      (w'.err ≠ none → w'.heap = w.heap ∧ Contents w' s (view ls.els)) ∧
      (w'.err = none → ∃ p, w.heap p = none ∧ Contents w' s (view ls.els ++ [(p, v)])) ∧ Unchanged w w' [s] by
    obtain ⟨r, w', h1, rfl, h2⟩ := hw.runs
    exact ⟨w', h1, h2⟩
  unfold exec; simp only [wp_bind]
  refine wp_pushBack h.ready hs rfl ?_ ?_
  · intro w' _ _ herr href hinv hheap
    have hne : w'.err ≠ none := by intro h0; rw [h0] at herr; cases herr
    exact ⟨rfl, ⟨fun _ => href, fun _ => hne⟩, fun _ => ⟨hheap, (contents_iff hinv hs).2 rfl⟩, fun h0 => absurd h0 hne,
      unchanged h hinv fun _ _ => rfl⟩
  · intro w' n _ _ herr href hn hinv
    exact ⟨rfl, ⟨fun h0 => absurd herr h0, fun h0 => absurd h0 href⟩, fun h0 => absurd herr h0,
      fun _ => ⟨n, hn, (contents_iff hinv (upd_same _ _ _)).2 (by simp)⟩, unchanged1 h hinv⟩

/-- C20 for `push_front` / `emplace_front`. -/
theorem list_push_front_atomic (hr : Reach w) (ha : Alive w s) (hc : Contents w s L) :
    ∃ w', Runs (exec (.pushFront s v)) (ready w) .unit w' ∧ (w'.err ≠ none ↔ Refused w) ∧
      (w'.err ≠ none → w'.heap = w.heap ∧ Contents w' s L) ∧
      (w'.err = none → ∃ p, w.heap p = none ∧ Contents w' s ((p, v) :: L)) ∧ Unchanged w w' [s] := by
  obtain ⟨σ, h, ho⟩ := hr.inv
  obtain ⟨ls, hs⟩ := (alive_iff h).1 ha
  obtain rfl := (contents_iff h hs).1 hc
  suffices hw : wp (exec (.pushFront s v)) (ready w) fun r w' => r = .unit ∧ (w'.err ≠ none ↔ Refused w) ∧
      (w'.err ≠ none → w'.heap = w.heap ∧ Contents w' s (view ls.els)) ∧
      (w'.err = none → ∃ p, w.heap p = none ∧ Contents w' s ((p, v) :: view ls.els)) ∧ Unchanged w w' [s] by
    obtain ⟨r, w', h1, rfl, h2⟩ := hw.runs
    exact ⟨w', h1, h2⟩
  unfold exec; simp only [wp_bind]
  refine wp_pushFront h.ready hs rfl ?_ ?_
  · intro w' _ _ herr href hinv hheap
    have hne : w'.err ≠ none := by intro h0; rw [h0] at herr; cases herr
    exact ⟨rfl, ⟨fun _ => href, fun _ => hne⟩, fun _ => ⟨hheap, (contents_iff hinv hs).2 rfl⟩, fun h0 => absurd h0 hne,
      unchanged h hinv fun _ _ => rfl⟩
  · intro w' n _ _ herr href hn hinv
    exact ⟨rfl, ⟨fun h0 => absurd herr h0, fun h0 => absurd h0 href⟩, fun h0 => absurd herr h0,
      fun _ => ⟨n, hn, (contents_iff hinv (upd_same _ _ _)).2 (by simp)⟩, unchanged1 h hinv⟩

/-- A state in which insertions fail ... -/
example : ∃ (w : W Nat) (s p : Ptr), Reach w ∧ Alive w s ∧ Contents w s ([] ++ [(p, 4)]) ∧ Refused w := demo_refused
/-- ... and one in which they succeed. -/
example : ∃ (w : W Nat) (s p q r : Ptr), Reach w ∧ Alive w s ∧ Contents w s ([(p, 3)] ++ [(q, 1), (r, 2)]) ∧
    ¬ Refused w := by
  obtain ⟨w, s, t, u, p, q, r, x, y, z, hr, hg, _, _, _, ha, _, _, hc, _⟩ := demo
  exact ⟨w, s, p, q, r, hr, ha, hc, hg.not_refused⟩

/-! ### C21 -/

/-- What `insert_nothrow(err, pos, first, last)` does (unless something is refused): the values are inserted before `pos`
in *reverse* order. -/
theorem list_range_insert_reverses (hr : Reach w) (hg : Good w) (ha : Alive w s) (hc : Contents w s (X ++ Y))
    (vs : List V) :
    ∃ w' N, Runs (exec (.insertRange s (posOf s Y) vs)) (ready w) .unit w' ∧ w'.err = none ∧
      N.map Prod.snd = vs.reverse ∧ Contents w' s (X ++ (N ++ Y)) ∧ Unchanged w w' [s] := by
  obtain ⟨σ, h, ho⟩ := hr.inv
  obtain ⟨ls, hs⟩ := (alive_iff h).1 ha
  obtain ⟨A, B, hA, rfl, rfl⟩ := view_split ((contents_iff h hs).1 hc).symm
  suffices hw : wp (exec (.insertRange s (posOf s (view B)) vs)) (ready w) fun r w' => r = .unit ∧ ∃ N, w'.err = none ∧
      N.map Prod.snd = vs.reverse ∧ Contents w' s (view A ++ (N ++ view B)) ∧ Unchanged w w' [s] by
    obtain ⟨r, w', h1, rfl, N, h2⟩ := hw.runs
    exact ⟨w', N, h1, h2⟩
  rw [posOf_view]
  unfold exec; simp only [wp_bind]
  refine wp_insertRange h.ready hs hA rfl ?_
  intro w' k N _ _ hadd hN hinv
  have herr := hadd.good ⟨hg.some, hg.inj, hg.ctor, hg.past⟩
  refine ⟨rfl, view N, herr, ?_, (contents_iff hinv (upd_same _ _ _)).2 (by simp), unchanged1 h hinv⟩
  rw [view_snd, hN, hadd.ok herr, List.take_length]

example : ∃ (w : W Nat) (s p q r : Ptr), Reach w ∧ Good w ∧ Alive w s ∧ Contents w s ([(p, 3)] ++ [(q, 1), (r, 2)]) := by
  obtain ⟨w, s, t, u, p, q, r, x, y, z, hr, hg, _, _, _, ha, _, _, hc, _⟩ := demo
  exact ⟨w, s, p, q, r, hr, hg, ha, hc⟩

/-- C21 is violated: inserting the range 4, 5 at the front of 3, 1, 2 gives 5, 4, 3, 1, 2. -/
theorem list_range_insert_order_violated : ∃ (w w' : W Nat) (s p q r : Ptr) (L : List (Ptr × Nat)), Reach w ∧
    Alive w s ∧ Contents w s [(p, 3), (q, 1), (r, 2)] ∧ Runs (exec (.insertRange s p [4, 5])) (ready w) .unit w' ∧
    w'.err = none ∧ Contents w' s L ∧ L.map Prod.snd = [5, 4, 3, 1, 2] := by
  obtain ⟨w, s, t, u, p, q, r, x, y, z, hr, hg, _, _, _, ha, _, _, hc, _⟩ := demo
  obtain ⟨w', N, h1, h2, h3, h4, _⟩ := list_range_insert_reverses hr hg ha (X := []) hc [4, 5]
  exact ⟨w, w', s, p, q, r, _, hr, ha, hc, h1, h2, h4, by simp [h3]⟩

/-- C21 restricted to ranges that read the same in both directions, in particular to ranges of at most one element and to
`insert_nothrow(err, pos, count, value)`.  Missing: all other ranges, for which it is false
(`list_range_insert_order_violated`). -/
theorem list_range_insert_order_partial (hr : Reach w) (hg : Good w) (ha : Alive w s) (hc : Contents w s (X ++ Y))
    (vs : List V) (hpal : vs.reverse = vs) :
    ∃ w' N, Runs (exec (.insertRange s (posOf s Y) vs)) (ready w) .unit w' ∧ w'.err = none ∧
      N.map Prod.snd = vs ∧ Contents w' s (X ++ (N ++ Y)) ∧ Unchanged w w' [s] := by
  have := list_range_insert_reverses hr hg ha hc vs
  rwa [hpal] at this

example : [7, 8, 7].reverse = [7, 8, 7] := rfl

end Nestl.LC
