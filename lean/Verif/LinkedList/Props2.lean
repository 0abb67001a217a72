import Verif.LinkedList.Props
set_option autoImplicit false
/-
Property theorems of nestl::list, continued: splice, merge, sort, swap, move, clear, destruction, assignment, copy,
allocators, comparison (C22-C30, C61, C62).  Vocabulary: see `Verif/LinkedList/Props.lean`.
-/
namespace Nestl.LC
open Nestl.LL
variable {V : Type} {w w' : W V} {s t : Ptr} {L M X Y Z C D : List (Ptr × V)} {v : V} {x : Ptr × V} {pos : Ptr}

theorem silent {c : Call V} {r : Res} (hq : Quiet (exec c)) (hrun : Runs (exec c) (ready w) r w') : Silent w w' := by
  have h := hq _ _ _ hrun
  exact ⟨h.err, h.allocs, h.ctors⟩

/-- From the effect of a call to a run of it. -/
theorem run_unit {c : Call V} {P : W V → Prop} (hq : Quiet (exec c))
    (h : wp (exec c) (ready w) fun r w' => r = .unit ∧ P w') :
    ∃ w', Runs (exec c) (ready w) .unit w' ∧ Silent w w' ∧ P w' := by
  obtain ⟨r, w', h1, rfl, h2⟩ := h.runs
  exact ⟨w', h1, silent hq h1, h2⟩

/-! ### C22 -/

/-- C22: `s.splice(pos, t)` moves all elements of `t` to just before `pos`. -/
theorem list_splice_all (hr : Reach w) (ha : Alive w s) (hb : Alive w t) (hst : s ≠ t) (hc : Contents w s (X ++ Y))
    (hd : Contents w t M) :
    ∃ w', Runs (exec (.spliceAll s (posOf s Y) t)) (ready w) .unit w' ∧ Silent w w' ∧
      Contents w' s (X ++ M ++ Y) ∧ Contents w' t [] ∧ Unchanged w w' [s, t] := by
  obtain ⟨σ, h, ho⟩ := hr.inv
  obtain ⟨ls, hs⟩ := (alive_iff h).1 ha
  obtain ⟨l2, ht⟩ := (alive_iff h).1 hb
  obtain ⟨A, B, hA, rfl, rfl⟩ := view_split ((contents_iff h hs).1 hc).symm
  obtain rfl := (contents_iff h ht).1 hd
  refine run_unit (.bind (LL.Quiet.spliceAll _ _) fun _ => .pure _) ?_
  rw [posOf_view]
  unfold exec; simp only [wp_bind]
  refine wp_spliceAll h.ready hs ht hst hA ?_
  intro w' _ _ _ hinv
  refine ⟨rfl, (contents_iff hinv (by rw [upd_other _ _ hst, upd_same])).2 (by simp), ?_, unchanged2 h hinv⟩
  exact (contents_iff hinv (upd_same _ _ _)).2 rfl

/-- C22: `s.splice(pos, t, it)` moves the element denoted by `it` to just before `pos`. -/
theorem list_splice_one (hr : Reach w) (ha : Alive w s) (hb : Alive w t) (hst : s ≠ t) (hc : Contents w s (X ++ Y))
    (hd : Contents w t (C ++ x :: D)) :
    ∃ w', Runs (exec (.spliceOne s (posOf s Y) t x.1)) (ready w) .unit w' ∧ Silent w w' ∧
      Contents w' s (X ++ x :: Y) ∧ Contents w' t (C ++ D) ∧ Unchanged w w' [s, t] := by
  obtain ⟨σ, h, ho⟩ := hr.inv
  obtain ⟨ls, hs⟩ := (alive_iff h).1 ha
  obtain ⟨l2, ht⟩ := (alive_iff h).1 hb
  obtain ⟨A, B, hA, rfl, rfl⟩ := view_split ((contents_iff h hs).1 hc).symm
  obtain ⟨C, D', hC, rfl, hD⟩ := view_split ((contents_iff h ht).1 hd).symm
  obtain ⟨m, D, rfl, rfl, rfl⟩ := view_cons_inv hD
  refine run_unit (.bind (LL.Quiet.spliceOne _ _) fun _ => .pure _) ?_
  rw [posOf_view]
  unfold exec; simp only [wp_bind]
  refine wp_spliceOne2 h.ready hs ht hst hA hC ?_
  intro w' _ _ _ hinv
  refine ⟨rfl, (contents_iff hinv (by rw [upd_other _ _ hst, upd_same])).2 (by simp), ?_, unchanged2 h hinv⟩
  exact (contents_iff hinv (upd_same _ _ _)).2 (by simp)

/-- C22: `s.splice(pos, s, it)` within one list, to a later position `pos` (including the position after `it`). -/
theorem list_splice_one_later (hr : Reach w) (ha : Alive w s) (hc : Contents w s (X ++ x :: (Z ++ Y))) :
    ∃ w', Runs (exec (.spliceOne s (posOf s Y) s x.1)) (ready w) .unit w' ∧ Silent w w' ∧
      Contents w' s (X ++ (Z ++ x :: Y)) ∧ Unchanged w w' [s] := by
  obtain ⟨σ, h, ho⟩ := hr.inv
  obtain ⟨ls, hs⟩ := (alive_iff h).1 ha
  obtain ⟨A, B', hA, rfl, hB⟩ := view_split ((contents_iff h hs).1 hc).symm
  obtain ⟨m, R, rfl, rfl, hR⟩ := view_cons_inv hB
  obtain ⟨Z, B, rfl, rfl, rfl⟩ := view_split hR
  refine run_unit (.bind (LL.Quiet.spliceOne _ _) fun _ => .pure _) ?_
  rw [posOf_view]
  unfold exec; simp only [wp_bind]
  cases Z with
  | nil =>
    refine wp_spliceOne_next h.ready hs (by simpa using hA) ?_
    exact ⟨rfl, (contents_iff h.ready hs).2 (by rw [hA]; simp), unchanged h h.ready fun _ _ => rfl⟩
  | cons y Z =>
    refine wp_spliceOne_later h.ready hs (A := A) (Y := Z) (P := B) (m := m) (y := y) hA ?_
    intro w' _ _ _ hinv
    exact ⟨rfl, (contents_iff hinv (upd_same _ _ _)).2 (by simp), unchanged1 h hinv⟩

/-- C22: `s.splice(pos, s, it)` within one list, to an earlier position `pos` (including `it` itself). -/
theorem list_splice_one_earlier (hr : Reach w) (ha : Alive w s) (hc : Contents w s (X ++ (Z ++ x :: Y))) :
    ∃ w', Runs (exec (.spliceOne s (posOf s (Z ++ x :: Y)) s x.1)) (ready w) .unit w' ∧ Silent w w' ∧
      Contents w' s (X ++ x :: (Z ++ Y)) ∧ Unchanged w w' [s] := by
  obtain ⟨σ, h, ho⟩ := hr.inv
  obtain ⟨ls, hs⟩ := (alive_iff h).1 ha
  obtain ⟨A, R, hA, rfl, hR⟩ := view_split ((contents_iff h hs).1 hc).symm
  obtain ⟨Z, B', rfl, rfl, hB⟩ := view_split hR
  obtain ⟨m, B, rfl, rfl, rfl⟩ := view_cons_inv hB
  refine run_unit (.bind (LL.Quiet.spliceOne _ _) fun _ => .pure _) ?_
  rw [show posOf s (view Z ++ (m.p, m.v) :: view B) = posE s (Z ++ m :: B) by rw [← posOf_view]; simp]
  unfold exec; simp only [wp_bind]
  cases Z with
  | nil =>
    refine wp_spliceOne_self h.ready hs (by simpa using hA) ?_
    exact ⟨rfl, (contents_iff h.ready hs).2 (by rw [hA]; simp), unchanged h h.ready fun _ _ => rfl⟩
  | cons y Z =>
    refine wp_spliceOne_earlier h.ready hs (A := A) (X := Z) (P := B) (m := m) (x := y) hA ?_
    intro w' _ _ _ hinv
    exact ⟨rfl, (contents_iff hinv (upd_same _ _ _)).2 (by simp), unchanged1 h hinv⟩

/-- C22: `s.splice(pos, t, first, last)` moves the elements `M` of the range, in order, to just before `pos`. -/
theorem list_splice_range (hr : Reach w) (ha : Alive w s) (hb : Alive w t) (hst : s ≠ t) (hc : Contents w s (X ++ Y))
    (hd : Contents w t (C ++ (M ++ D))) :
    ∃ w', Runs (exec (.spliceRange s (posOf s Y) t (posOf t (M ++ D)) (posOf t D))) (ready w) .unit w' ∧ Silent w w' ∧
      Contents w' s (X ++ M ++ Y) ∧ Contents w' t (C ++ D) ∧ Unchanged w w' [s, t] := by
  obtain ⟨σ, h, ho⟩ := hr.inv
  obtain ⟨ls, hs⟩ := (alive_iff h).1 ha
  obtain ⟨l2, ht⟩ := (alive_iff h).1 hb
  obtain ⟨A, B, hA, rfl, rfl⟩ := view_split ((contents_iff h hs).1 hc).symm
  obtain ⟨C, D', hC, rfl, hD⟩ := view_split ((contents_iff h ht).1 hd).symm
  obtain ⟨M, D, rfl, rfl, rfl⟩ := view_split hD
  refine run_unit (.bind (LL.Quiet.spliceRange _ _ _) fun _ => .pure _) ?_
  rw [← view_append, posOf_view, posOf_view, posOf_view]
  unfold exec; simp only [wp_bind]
  refine wp_spliceRange2 h.ready hs ht hst hA hC ?_
  intro w' _ _ _ hinv
  refine ⟨rfl, (contents_iff hinv (by rw [upd_other _ _ hst, upd_same])).2 (by simp), ?_, unchanged2 h hinv⟩
  exact (contents_iff hinv (upd_same _ _ _)).2 (by simp)

/-- C22: `s.splice(pos, s, first, last)` within one list, `pos` after the range. -/
theorem list_splice_range_later (hr : Reach w) (ha : Alive w s) (hc : Contents w s (X ++ (M ++ (Z ++ Y)))) (hZ : Z ≠ []) :
    ∃ w', Runs (exec (.spliceRange s (posOf s Y) s (posOf s (M ++ (Z ++ Y))) (posOf s (Z ++ Y)))) (ready w) .unit w' ∧
      Silent w w' ∧ Contents w' s (X ++ (Z ++ (M ++ Y))) ∧ Unchanged w w' [s] := by
  obtain ⟨σ, h, ho⟩ := hr.inv
  obtain ⟨ls, hs⟩ := (alive_iff h).1 ha
  obtain ⟨A, R, hA, rfl, hR⟩ := view_split ((contents_iff h hs).1 hc).symm
  obtain ⟨M, R2, rfl, rfl, hR2⟩ := view_split hR
  obtain ⟨Z, B, rfl, rfl, rfl⟩ := view_split hR2
  refine run_unit (.bind (LL.Quiet.spliceRange _ _ _) fun _ => .pure _) ?_
  rw [← view_append, ← view_append, posOf_view, posOf_view, posOf_view]
  unfold exec; simp only [wp_bind]
  obtain ⟨y, Z, rfl⟩ := List.exists_cons_of_ne_nil (l := Z) (by rintro rfl; exact hZ rfl)
  refine wp_spliceRange_later h.ready hs (A := A) (M := M) (Y := Z) (P := B) (y := y) hA ?_
  intro w' _ _ _ hinv
  exact ⟨rfl, (contents_iff hinv (upd_same _ _ _)).2 (by simp), unchanged1 h hinv⟩

/-- C22: `s.splice(pos, s, first, last)` within one list, `pos` before the range. -/
theorem list_splice_range_earlier (hr : Reach w) (ha : Alive w s) (hc : Contents w s (X ++ (Z ++ (M ++ Y)))) (hZ : Z ≠ []) :
    ∃ w', Runs (exec (.spliceRange s (posOf s (Z ++ (M ++ Y))) s (posOf s (M ++ Y)) (posOf s Y))) (ready w) .unit w' ∧
      Silent w w' ∧ Contents w' s (X ++ (M ++ (Z ++ Y))) ∧ Unchanged w w' [s] := by
  obtain ⟨σ, h, ho⟩ := hr.inv
  obtain ⟨ls, hs⟩ := (alive_iff h).1 ha
  obtain ⟨A, R, hA, rfl, hR⟩ := view_split ((contents_iff h hs).1 hc).symm
  obtain ⟨Z, R2, rfl, rfl, hR2⟩ := view_split hR
  obtain ⟨M, B, rfl, rfl, rfl⟩ := view_split hR2
  refine run_unit (.bind (LL.Quiet.spliceRange _ _ _) fun _ => .pure _) ?_
  rw [← view_append, ← view_append, posOf_view, posOf_view, posOf_view]
  unfold exec; simp only [wp_bind]
  obtain ⟨y, Z, rfl⟩ := List.exists_cons_of_ne_nil (l := Z) (by rintro rfl; exact hZ rfl)
  refine wp_spliceRange_earlier h.ready hs (A := A) (X := Z) (M := M) (P := B) (x := y) hA ?_
  intro w' _ _ _ hinv
  exact ⟨rfl, (contents_iff hinv (upd_same _ _ _)).2 (by simp), unchanged1 h hinv⟩

/-- Two lists to splice between. -/
example : ∃ (w : W Nat) (s t p q r x y : Ptr), Reach w ∧ Alive w s ∧ Alive w t ∧ s ≠ t ∧
    Contents w s ([(p, 3)] ++ [(q, 1), (r, 2)]) ∧ Contents w t ([] ++ (x, 2) :: [(y, 5)]) := by
  obtain ⟨w, s, t, u, p, q, r, x, y, z, hr, hg, hst, _, _, ha, hb, _, hc, hd, _⟩ := demo
  exact ⟨w, s, t, p, q, r, x, y, hr, ha, hb, hst, hc, hd⟩
/-- One list with a range and another position. -/
example : ∃ (w : W Nat) (s p q r : Ptr), Reach w ∧ Alive w s ∧ Contents w s ([] ++ ([(p, 3), (q, 1)] ++ ([(r, 2)] ++ []))) ∧
    [(r, 2)] ≠ [] := by
  obtain ⟨w, s, t, u, p, q, r, x, y, z, hr, hg, hst, _, _, ha, hb, _, hc, hd, _⟩ := demo
  exact ⟨w, s, p, q, r, hr, ha, hc, by simp⟩

/-! ### C23 -/

/-- C23 is violated: for every non-empty range, `s.splice(last, s, first, last)`, a no-op for `std::list`, fails an
assertion. -/
theorem list_splice_range_at_last_violated (hr : Reach w) (ha : Alive w s) (hc : Contents w s (X ++ (M ++ Y)))
    (hM : M ≠ []) :
    Faults (exec (.spliceRange s (posOf s Y) s (posOf s (M ++ Y)) (posOf s Y))) (ready w) .assertFail := by
  obtain ⟨σ, h, ho⟩ := hr.inv
  obtain ⟨ls, hs⟩ := (alive_iff h).1 ha
  obtain ⟨A, R, hA, rfl, hR⟩ := view_split ((contents_iff h hs).1 hc).symm
  obtain ⟨M, B, rfl, rfl, rfl⟩ := view_split hR
  rw [← view_append, posOf_view, posOf_view]
  unfold exec
  exact Faults.bind (faults_spliceRange h.ready hs hA (by rintro rfl; exact hM rfl))

example : ∃ (w : W Nat) (s p q r : Ptr), Reach w ∧ Alive w s ∧ Contents w s ([(p, 3)] ++ ([(q, 1)] ++ [(r, 2)])) ∧
    [(q, 1)] ≠ [] := by
  obtain ⟨w, s, t, u, p, q, r, x, y, z, hr, hg, hst, _, _, ha, hb, _, hc, hd, _⟩ := demo
  exact ⟨w, s, p, q, r, hr, ha, hc, by simp⟩

/-- C23 restricted to empty ranges: nothing happens, for any `pos`.  Missing: non-empty ranges, for which it is false
(`list_splice_range_at_last_violated`). -/
theorem list_splice_range_at_last_partial (hr : Reach w) (ha : Alive w s) (hc : Contents w s (X ++ Y)) (pos : Ptr) :
    Runs (exec (.spliceRange s pos s (posOf s Y) (posOf s Y))) (ready w) .unit (ready w) := by
  obtain ⟨σ, h, ho⟩ := hr.inv
  obtain ⟨ls, hs⟩ := (alive_iff h).1 ha
  obtain ⟨A, B, hA, rfl, rfl⟩ := view_split ((contents_iff h hs).1 hc).symm
  have : wp (exec (.spliceRange s pos s (posOf s (view B)) (posOf s (view B)))) (ready w)
      fun r w' => r = .unit ∧ w' = ready w := by
    rw [posOf_view]; unfold exec; simp only [wp_bind]
    exact wp_spliceRange_nil h.ready hs hA pos ⟨rfl, rfl⟩
  obtain ⟨r, w', h1, rfl, rfl⟩ := this.runs
  exact h1

example : ∃ (w : W Nat) (s p q r : Ptr), Reach w ∧ Alive w s ∧ Contents w s ([(p, 3)] ++ [(q, 1), (r, 2)]) := by
  obtain ⟨w, s, t, u, p, q, r, x, y, z, hr, hg, hst, _, _, ha, hb, _, hc, hd, _⟩ := demo
  exact ⟨w, s, p, q, r, hr, ha, hc⟩

/-! ### C24, C62 -/

/-- C24: `s.merge(t, lt)` leaves `t` empty; afterwards `s` has exactly the elements of both lists (the same nodes), whatever
`lt` is; if `lt` is a strict weak ordering and both lists were in order, `s` is in order and equivalent elements stand in
their previous order, those of `s` before those of `t`.  Nothing is allocated, nothing fails, and (C62) the comparator is
called less often than there are elements. -/
theorem list_merge (hr : Reach w) (ha : Alive w s) (hb : Alive w t) (hst : s ≠ t) (hc : Contents w s L)
    (hd : Contents w t M) (lt : V → V → Bool) :
    ∃ w' N, Runs (exec (.merge lt s t)) (ready w) .unit w' ∧ Silent w w' ∧ Contents w' s N ∧ Contents w' t [] ∧
      N.Perm (L ++ M) ∧ (SWO lt → InOrder lt L → InOrder lt M → StableSorted lt (L ++ M) N) ∧
      w'.nCmp - w.nCmp ≤ L.length + M.length - 1 ∧ Unchanged w w' [s, t] := by
  obtain ⟨σ, h, ho⟩ := hr.inv
  obtain ⟨ls, hs⟩ := (alive_iff h).1 ha
  obtain ⟨l2, ht⟩ := (alive_iff h).1 hb
  obtain rfl := (contents_iff h hs).1 hc
  obtain rfl := (contents_iff h ht).1 hd
  have := run_unit (w := w) (c := .merge lt s t) (P := fun w' => ∃ N, Contents w' s N ∧ Contents w' t [] ∧
      N.Perm (view ls.els ++ view l2.els) ∧
      (SWO lt → InOrder lt (view ls.els) → InOrder lt (view l2.els) → StableSorted lt (view ls.els ++ view l2.els) N) ∧
      w'.nCmp - w.nCmp ≤ (view ls.els).length + (view l2.els).length - 1 ∧ Unchanged w w' [s, t])
    (.bind (LL.Quiet.merge _ _ _) fun _ => .pure _) ?_
  · obtain ⟨w', h1, h2, N, h3⟩ := this
    exact ⟨w', N, h1, h2, h3⟩
  unfold exec; simp only [wp_bind]
  refine wp_merge lt h.ready hs ht hst ?_
  intro w' hadv _ _ hinv
  refine ⟨rfl, view (List.merge ls.els l2.els (leE lt)), (contents_iff hinv (by rw [upd_other _ _ hst, upd_same])).2 rfl,
    (contents_iff hinv (upd_same _ _ _)).2 rfl, ?_, ?_, ?_, unchanged2 h hinv⟩
  · rw [← view_append]; exact (List.merge_perm_append _).map _
  · intro hswo h1 h2
    rw [← view_append]
    exact stable_view (SEq.merge fun _ => inOrder_view.1 h1)
      fun hs => LL.Ord.merge hs (inOrder_view.1 h1) (inOrder_view.1 h2)
  · have h1 := hadv.cmps
    have h2 : (ready w).nCmp = w.nCmp := rfl
    simp only [length_view]
    omega

/-- Two lists in order. -/
example : ∃ (w : W Nat) (s t x y z : Ptr), Reach w ∧ Alive w s ∧ Alive w t ∧ s ≠ t ∧ Contents w s [(x, 2), (y, 5)] ∧
    Contents w t [(z, 9)] ∧ SWO (fun a b : Nat => decide (a < b)) ∧
    InOrder (fun a b => decide (a < b)) [(x, 2), (y, 5)] ∧ InOrder (fun a b => decide (a < b)) [(z, 9)] := by
  obtain ⟨w, s, t, u, p, q, r, x, y, z, hr, hg, hst, _, htu, ha, hb, hu, hc, hd, he, _⟩ := demo
  refine ⟨w, t, u, x, y, z, hr, hb, hu, htu, hd, he, ?_, ?_, ?_⟩
  · constructor <;> intros <;> simp at * <;> omega
  · simp [InOrder]
  · simp [InOrder]

/-! ### C25, C62 -/

/-- C25: `s.sort(lt)`, for fewer than 2^64 elements: the elements (nodes) of `s` are permuted; if `lt` is a strict weak
ordering they are in order afterwards, equivalent ones in their previous order.  Nothing is allocated and nothing fails, and
(C62) the comparator is called at most `2 n log2 n` times. -/
theorem list_sort (hr : Reach w) (ha : Alive w s) (hc : Contents w s L) (hlen : L.length < 2 ^ 64) (lt : V → V → Bool) :
    ∃ w' N, Runs (exec (.sort lt s)) (ready w) .unit w' ∧ Silent w w' ∧ Contents w' s N ∧ N.Perm L ∧
      (SWO lt → InOrder lt N ∧ ∀ k, N.filter (equivTo lt k) = L.filter (equivTo lt k)) ∧
      w'.nCmp - w.nCmp ≤ 2 * L.length * Nat.log2 L.length ∧ Unchanged w w' [s] := by
  obtain ⟨σ, h, ho⟩ := hr.inv
  obtain ⟨ls, hs⟩ := (alive_iff h).1 ha
  obtain rfl := (contents_iff h hs).1 hc
  rw [length_view] at hlen
  have := run_unit (w := w) (c := .sort lt s) (P := fun w' => ∃ N, Contents w' s N ∧ StableSorted lt (view ls.els) N ∧
      w'.nCmp - w.nCmp ≤ 2 * (view ls.els).length * Nat.log2 (view ls.els).length ∧ Unchanged w w' [s])
    (.bind (LL.Quiet.sort _ _) fun _ => .pure _) ?_
  · obtain ⟨w', h1, h2, N, h3, h4, h5⟩ := this
    exact ⟨w', N, h1, h2, h3, h4.1, h4.2, h5⟩
  unfold exec; simp only [wp_bind]
  refine wp_sort lt h.ready hs hlen ?_
  intro w' N hadv _ hseq hord hinv
  refine ⟨rfl, view N, (contents_iff hinv (upd_same _ _ _)).2 rfl, stable_view hseq hord, ?_, unchanged1 h hinv⟩
  have h1 := hadv.cmps
  have h2 : (ready w).nCmp = w.nCmp := rfl
  simp only [length_view]
  omega

example : ∃ (w : W Nat) (s p q r : Ptr), Reach w ∧ Alive w s ∧ Contents w s [(p, 3), (q, 1), (r, 2)] ∧
    [(p, 3), (q, 1), (r, 2)].length < 2 ^ 64 ∧ SWO (fun a b : Nat => decide (a < b)) := by
  obtain ⟨w, s, t, u, p, q, r, x, y, z, hr, hg, hst, _, _, ha, hb, _, hc, hd, _⟩ := demo
  refine ⟨w, s, p, q, r, hr, ha, hc, by simp, ?_⟩
  constructor <;> intros <;> simp at * <;> omega

/-! ### C26 -/

/-- C26: `s.swap(t)` exchanges the elements (of any two lists, also of `s` with itself). -/
theorem list_swap (hr : Reach w) (ha : Alive w s) (hb : Alive w t) (hc : Contents w s L) (hd : Contents w t M) :
    ∃ w', Runs (exec (.swap s t)) (ready w) .unit w' ∧ Silent w w' ∧ Contents w' s M ∧ Contents w' t L ∧
      Unchanged w w' [s, t] := by
  obtain ⟨σ, h, ho⟩ := hr.inv
  obtain ⟨ls, hs⟩ := (alive_iff h).1 ha
  obtain ⟨l2, ht⟩ := (alive_iff h).1 hb
  obtain rfl := (contents_iff h hs).1 hc
  obtain rfl := (contents_iff h ht).1 hd
  refine run_unit (.bind (LL.Quiet.swap _ _) fun _ => .pure _) ?_
  unfold exec; simp only [wp_bind]
  refine wp_swap h.ready hs ht ?_
  intro w' _ _ _ hinv
  refine ⟨rfl, ?_, (contents_iff hinv (upd_same _ _ _)).2 rfl, unchanged2 h hinv⟩
  by_cases hst : s = t
  · subst hst
    rw [hs] at ht; cases ht
    exact (contents_iff hinv (upd_same _ _ _)).2 rfl
  · exact (contents_iff hinv (ls := ⟨ls.alloc, l2.els⟩) (by rw [upd_other _ _ hst, upd_same])).2 rfl

/-- C26: the move constructor gives the new object all elements and leaves the source empty, alive and usable; both have the
allocator of the source. -/
theorem list_move_construct (hr : Reach w) (ha : Alive w s) (hc : Contents w s L) {a : Nat} (hal : HasAlloc w s a) :
    ∃ d w', Runs (exec (.move s)) (ready w) (.obj d) w' ∧ Silent w w' ∧ ¬ Alive w d ∧ Alive w' d ∧ Contents w' d L ∧
      HasAlloc w' d a ∧ Alive w' s ∧ Contents w' s [] ∧ HasAlloc w' s a ∧ Unchanged w w' [s] := by
  obtain ⟨σ, h, ho⟩ := hr.inv
  obtain ⟨ls, hs⟩ := (alive_iff h).1 ha
  obtain rfl := (contents_iff h hs).1 hc
  obtain rfl := (hasAlloc_iff h hs).1 hal
  have : wp (exec (.move s)) (ready w) fun r w' => ∃ d, r = .obj d ∧ ¬ Alive w d ∧ Alive w' d ∧
      Contents w' d (view ls.els) ∧ HasAlloc w' d ls.alloc ∧ Alive w' s ∧ Contents w' s [] ∧ HasAlloc w' s ls.alloc ∧
      Unchanged w w' [s] := by
    unfold exec; simp only [wp_bind]
    refine wp_moveCtor h.ready hs ?_
    intro w' _ _ _ hn hne hinv
    have h1 := upd_same (upd σ s (some ⟨ls.alloc, []⟩)) (.stk (ready w).sp) (some ⟨ls.alloc, ls.els⟩)
    have h2 : upd (upd σ s (some ⟨ls.alloc, []⟩)) (.stk (ready w).sp) (some ⟨ls.alloc, ls.els⟩) s = some ⟨ls.alloc, []⟩ := by
      rw [upd_other _ _ hne, upd_same]
    refine ⟨_, rfl, ?_, (alive_iff hinv).2 ⟨_, h1⟩, (contents_iff hinv h1).2 rfl, (hasAlloc_iff hinv h1).2 rfl,
      (alive_iff hinv).2 ⟨_, h2⟩, (contents_iff hinv h2).2 rfl, (hasAlloc_iff hinv h2).2 rfl, ?_⟩
    · rw [alive_iff h]; rintro ⟨l, hl⟩; rw [hn] at hl; cases hl
    · intro u hu hau
      obtain ⟨lu, hlu⟩ := (alive_iff h).1 hau
      have hlu' : upd (upd σ s (some ⟨ls.alloc, []⟩)) (.stk (ready w).sp) (some ⟨ls.alloc, ls.els⟩) u = some lu := by
        rw [upd_other, upd_other, hlu]
        · simpa using hu
        · rintro rfl; rw [hn] at hlu; cases hlu
      exact ⟨(alive_iff hinv).2 ⟨_, hlu'⟩, fun L hL => (contents_iff hinv hlu').2 ((contents_iff h hlu).1 hL)⟩
  obtain ⟨r, w', h1, d, rfl, h2⟩ := this.runs
  exact ⟨d, w', h1, silent (c := .move s) (.bind (LL.Quiet.moveCtor _) fun _ => .pure _) h1, h2⟩

example : ∃ (w : W Nat) (s t p q r x y : Ptr), Reach w ∧ Alive w s ∧ Alive w t ∧
    Contents w s [(p, 3), (q, 1), (r, 2)] ∧ Contents w t [(x, 2), (y, 5)] ∧ HasAlloc w s defaultAlloc := by
  obtain ⟨w, s, t, u, p, q, r, x, y, z, hr, hg, hst, _, _, ha, hb, _, hc, hd, _, h1, _⟩ := demo
  exact ⟨w, s, t, p, q, r, x, y, hr, ha, hb, hc, hd, h1⟩

/-! ### C27 -/

theorem heap_gone {σ : Sg V} {ls : Lst V} {o : Option (Lst V)} (h : Inv w σ) (hs : σ s = some ls)
    (hinv : Inv w' (upd σ s o)) (ho : ∀ l, o = some l → ∀ q ∈ ptrs l.els, w.heap q = none)
    {p : Ptr} (hp : p ∈ ptrs ls.els) : w'.heap p = none := by
  apply Classical.byContradiction
  intro hne
  rcases hinv.st.cover p (by rw [Ne, dat_none]; exact hne) with h1 | ⟨t, lt, ht, hm⟩
  · obtain ⟨l, hl⟩ := Option.ne_none_iff_exists'.1 h1
    obtain ⟨i, rfl⟩ := (hinv.st.hdr _ _ hl).1
    obtain ⟨e, he, hep⟩ := mem_ptrs.1 hp
    obtain ⟨a, ha⟩ := (h.st.el s ls hs e he).1
    rw [hep] at ha; cases ha
  · rw [upd_apply] at ht
    split at ht
    · obtain ⟨e, he, rfl⟩ := mem_ptrs.1 hp
      exact h.heap_el hs he (ho _ ht _ hm)
    · rename_i hts
      exact h.st.disj s t ls lt hs ht (fun h0 => hts h0.symm) p hp hm

theorem mem_view_ptrs {l : List (El V)} {x : Ptr × V} (hx : x ∈ view l) : x.1 ∈ ptrs l := by
  rw [← view_fst]; exact List.mem_map_of_mem hx

/-- C27: `clear()` releases the memory of every element (releasing something twice would be undefined behaviour) and leaves
the list empty, alive and usable.  No other memory is taken and other lists are untouched. -/
theorem list_clear (hr : Reach w) (ha : Alive w s) (hc : Contents w s L) :
    ∃ w', Runs (exec (.clear s)) (ready w) .unit w' ∧ Silent w w' ∧ Alive w' s ∧ Contents w' s [] ∧
      (∀ x ∈ L, w'.heap x.1 = none) ∧ (∀ p, w'.heap p ≠ none → w.heap p ≠ none) ∧ Unchanged w w' [s] := by
  obtain ⟨σ, h, ho⟩ := hr.inv
  obtain ⟨ls, hs⟩ := (alive_iff h).1 ha
  obtain rfl := (contents_iff h hs).1 hc
  refine run_unit (.bind (LL.Quiet.clear _) fun _ => .pure _) ?_
  unfold exec; simp only [wp_bind]
  refine wp_clear h.ready hs (ho s ls hs) ?_
  intro w' _ _ _ hinv hm
  refine ⟨rfl, (alive_iff hinv).2 ⟨_, upd_same _ _ _⟩, (contents_iff hinv (upd_same _ _ _)).2 rfl, ?_, hm, unchanged1 h hinv⟩
  intro x hx
  exact heap_gone h hs hinv (by rintro l ⟨rfl⟩; simp) (mem_view_ptrs hx)

/-- C27: the destructor releases the memory of every element and ends the lifetime of the object. -/
theorem list_destroy (hr : Reach w) (ha : Alive w s) (hc : Contents w s L) :
    ∃ w', Runs (exec (.destroy s)) (ready w) .unit w' ∧ Silent w w' ∧ ¬ Alive w' s ∧ w'.heap s = none ∧
      (∀ x ∈ L, w'.heap x.1 = none) ∧ (∀ p, w'.heap p ≠ none → w.heap p ≠ none) ∧ Unchanged w w' [s] := by
  obtain ⟨σ, h, ho⟩ := hr.inv
  obtain ⟨ls, hs⟩ := (alive_iff h).1 ha
  obtain rfl := (contents_iff h hs).1 hc
  refine run_unit (.bind (LL.Quiet.destroyList _) fun _ => .pure _) ?_
  unfold exec; simp only [wp_bind]
  refine wp_destroyList h.ready hs (ho s ls hs) ?_
  intro w' _ _ _ hinv hm
  have hna : ¬ Alive w' s := by
    rw [alive_iff hinv]; rintro ⟨l, hl⟩; rw [upd_same] at hl; cases hl
  refine ⟨rfl, hna, ?_, ?_, hm, unchanged1 h hinv⟩
  · obtain ⟨i, rfl⟩ := (h.st.hdr s ls hs).1
    apply Classical.byContradiction
    intro h0; exact hna ⟨i, rfl, h0⟩
  · intro x hx
    exact heap_gone h hs hinv (by rintro l ⟨⟩) (mem_view_ptrs hx)

/-- C27: at any time, everything in memory belongs to a live list: it is a list object or an element of one.  Hence, when no
list is alive, nothing is left. -/
theorem list_no_leak (hr : Reach w) {p : Ptr} (hp : w.heap p ≠ none) :
    Alive w p ∨ ∃ s L v, Alive w s ∧ Contents w s L ∧ (p, v) ∈ L := by
  obtain ⟨σ, h, ho⟩ := hr.inv
  rcases h.st.cover p (by rw [Ne, dat_none]; exact hp) with h1 | ⟨s, ls, hs, hm⟩
  · exact .inl ((alive_iff h).2 (Option.ne_none_iff_exists'.1 h1))
  · obtain ⟨e, he, rfl⟩ := mem_ptrs.1 hm
    exact .inr ⟨s, view ls.els, e.v, (alive_iff h).2 ⟨_, hs⟩, (contents_iff h hs).2 rfl, List.mem_map.2 ⟨e, he, rfl⟩⟩

example : ∃ (w : W Nat) (s p q r : Ptr), Reach w ∧ Alive w s ∧ Contents w s [(p, 3), (q, 1), (r, 2)] ∧ w.heap q ≠ none := by
  obtain ⟨w, s, t, u, p, q, r, x, y, z, hr, hg, hst, _, _, ha, hb, _, hc, hd, _, h1, _⟩ := demo
  refine ⟨w, s, p, q, r, hr, ha, hc, ?_⟩
  obtain ⟨σ, h, ho⟩ := hr.inv
  obtain ⟨ls, hs⟩ := (alive_iff h).1 ha
  have hv := (contents_iff h hs).1 hc
  obtain ⟨e, he, hq⟩ := List.mem_map.1 (show (q, 1) ∈ view ls.els by rw [← hv]; simp)
  have hp : e.p = q := (Prod.mk.inj hq).1
  rw [← hp]; exact h.heap_el hs he

/-! ### C28 -/

/-- C28: `s.assign_nothrow(err, vs...)`: afterwards `s` has new elements with the first `k` of the values, all of them if no
error is reported, fewer if one is.  The old elements are destroyed; other lists are untouched. -/
theorem list_assign_values_partial (hr : Reach w) (ha : Alive w s) (hal : HasAlloc w s defaultAlloc ∨ Contents w s [])
    (vs : List V) :
    ∃ w' k N, Runs (exec (.assignVals s vs)) (ready w) .unit w' ∧ Contents w' s N ∧ N.map Prod.snd = vs.take k ∧
      (w'.err = none → k = vs.length) ∧ (w'.err ≠ none → k < vs.length) ∧ (Good w → w'.err = none) ∧
      (∀ x ∈ N, w.heap x.1 = none) ∧ (∀ L, Contents w s L → ∀ x ∈ L, w'.heap x.1 = none) ∧ Unchanged w w' [s] := by
  obtain ⟨σ, h, ho⟩ := hr.inv
  obtain ⟨ls, hs⟩ := (alive_iff h).1 ha
  have : wp (exec (.assignVals s vs)) (ready w) fun r w' => r = .unit ∧ ∃ k N, Contents w' s N ∧
      N.map Prod.snd = vs.take k ∧ (w'.err = none → k = vs.length) ∧ (w'.err ≠ none → k < vs.length) ∧
      (Good w → w'.err = none) ∧ (∀ x ∈ N, w.heap x.1 = none) ∧ (∀ L, Contents w s L → ∀ x ∈ L, w'.heap x.1 = none) ∧ Unchanged w w' [s] := by
    unfold exec; simp only [wp_bind]
    refine wp_assignVals h.ready hs (own_default h ho hs hal) rfl ?_
    intro w' k N _ hadd hN hinv
    refine ⟨rfl, k, view N, (contents_iff hinv (upd_same _ _ _)).2 rfl, by rw [view_snd, hN], hadd.ok, hadd.fail,
      fun hg => hadd.good ⟨hg.some, hg.inj, hg.ctor, hg.past⟩, ?_, ?_, unchanged1 h hinv⟩
    · intro x hx
      obtain ⟨e, he, rfl⟩ := List.mem_map.1 hx
      exact hadd.fresh e he
    · intro L hL x hx
      obtain rfl := (contents_iff h hs).1 hL
      refine heap_gone h hs hinv ?_ (mem_view_ptrs hx)
      rintro l ⟨rfl⟩ q hq
      obtain ⟨e, he, rfl⟩ := mem_ptrs.1 hq
      exact hadd.fresh e he
  obtain ⟨r, w', h1, rfl, k, N, h2⟩ := this.runs
  exact ⟨w', k, N, h1, h2⟩

/-- C28 for `s.assign_nothrow(err, n, v)`. -/
theorem list_assign_n_partial (hr : Reach w) (ha : Alive w s) (hal : HasAlloc w s defaultAlloc ∨ Contents w s [])
    (n : Nat) (v : V) :
    ∃ w' k N, Runs (exec (.assignN s n v)) (ready w) .unit w' ∧ Contents w' s N ∧ N.map Prod.snd = List.replicate k v ∧
      k ≤ n ∧ (w'.err = none → k = n) ∧ (w'.err ≠ none → k < n) ∧ (Good w → w'.err = none) ∧
      (∀ x ∈ N, w.heap x.1 = none) ∧ (∀ L, Contents w s L → ∀ x ∈ L, w'.heap x.1 = none) ∧ Unchanged w w' [s] := by
  obtain ⟨w', k, N, h1, h2, h3, h4, h5, h6⟩ := list_assign_values_partial hr ha hal (List.replicate n v)
  rw [List.length_replicate] at h4 h5
  have hk : k ≤ n := by
    cases he : w'.err with
    | none => exact Nat.le_of_eq (h4 he)
    | some e => exact Nat.le_of_lt (h5 (by rw [he]; simp))
  refine ⟨w', k, N, ?_, h2, ?_, hk, h4, h5, h6⟩
  · simp only [exec, assignN_eq] at h1 ⊢
    exact h1
  · rw [h3, List.take_replicate, Nat.min_eq_left hk]

/-- C28 for a range of (another part of) a list: `s.assign_nothrow(err, first, last)` where the range `[first, last)`
consists of the elements `M` of `t`; `t` may be `s` if `last` is not `end()`. -/
theorem list_assign_range_partial (hr : Reach w) (ha : Alive w s) (hb : Alive w t)
    (hal : HasAlloc w s defaultAlloc ∨ Contents w s []) (hc : Contents w t (X ++ (M ++ Y))) (hst : s = t → Y ≠ []) :
    ∃ w' k N, Runs (exec (.assignRange s t (posOf t (M ++ Y)) (posOf t Y))) (ready w) .unit w' ∧ Contents w' s N ∧
      N.map Prod.snd = (M.map Prod.snd).take k ∧ (w'.err = none → k = M.length) ∧ (w'.err ≠ none → k < M.length) ∧
      (Good w → w'.err = none) ∧ (∀ x ∈ N, w.heap x.1 = none) ∧ (∀ L, Contents w s L → ∀ x ∈ L, w'.heap x.1 = none) ∧ Unchanged w w' [s] := by
  obtain ⟨σ, h, ho⟩ := hr.inv
  obtain ⟨ls, hs⟩ := (alive_iff h).1 ha
  obtain ⟨l2, ht⟩ := (alive_iff h).1 hb
  obtain ⟨A, R, hA, rfl, hR⟩ := view_split ((contents_iff h ht).1 hc).symm
  obtain ⟨M, B, rfl, rfl, rfl⟩ := view_split hR
  have key : ∀ (w' : W V) (k : Nat) (N : List (El V)), Added (ready w) w' (M.map El.v) k ls.alloc N →
      N.map El.v = (M.map El.v).take k → Inv w' (upd σ s (some ⟨ls.alloc, N⟩)) →
      ∃ k N, Contents w' s N ∧
        N.map Prod.snd = ((view M).map Prod.snd).take k ∧ (w'.err = none → k = (view M).length) ∧
        (w'.err ≠ none → k < (view M).length) ∧
        (Good w → w'.err = none) ∧ (∀ x ∈ N, w.heap x.1 = none) ∧ (∀ L, Contents w s L → ∀ x ∈ L, w'.heap x.1 = none) ∧ Unchanged w w' [s] := by
    intro w' k N hadd hN hinv
    refine ⟨k, view N, (contents_iff hinv (upd_same _ _ _)).2 rfl, by rw [view_snd, view_snd, hN], ?_, ?_,
      fun hg => hadd.good ⟨hg.some, hg.inj, hg.ctor, hg.past⟩, ?_, ?_, unchanged1 h hinv⟩
    · simpa using hadd.ok
    · simpa using hadd.fail
    · intro x hx
      obtain ⟨e, he, rfl⟩ := List.mem_map.1 hx
      exact hadd.fresh e he
    · intro L hL x hx
      obtain rfl := (contents_iff h hs).1 hL
      refine heap_gone h hs hinv ?_ (mem_view_ptrs hx)
      rintro l ⟨rfl⟩ q hq
      obtain ⟨e, he, rfl⟩ := mem_ptrs.1 hq
      exact hadd.fresh e he
  have : wp (exec (.assignRange s t (posOf t (view M ++ view B)) (posOf t (view B)))) (ready w) fun r w' => r = .unit ∧
      ∃ k N, Contents w' s N ∧
        N.map Prod.snd = ((view M).map Prod.snd).take k ∧ (w'.err = none → k = (view M).length) ∧
        (w'.err ≠ none → k < (view M).length) ∧
        (Good w → w'.err = none) ∧ (∀ x ∈ N, w.heap x.1 = none) ∧ (∀ L, Contents w s L → ∀ x ∈ L, w'.heap x.1 = none) ∧ Unchanged w w' [s] := by
    rw [← view_append, posOf_view, posOf_view]
    unfold exec; simp only [wp_bind]
    by_cases hst2 : s = t
    · subst hst2
      rw [hs] at ht; cases ht
      obtain ⟨y, B, rfl⟩ := List.exists_cons_of_ne_nil (l := B) (by rintro rfl; exact hst rfl rfl)
      refine wp_assignIt_self h.ready hs (own_default h ho hs hal) hA rfl ?_
      intro w' k N _ h2 h3 h4; exact ⟨rfl, key w' k N h2 h3 h4⟩
    · refine wp_assignIt h.ready hs (own_default h ho hs hal) ht hst2 hA rfl ?_
      intro w' k N _ h2 h3 h4; exact ⟨rfl, key w' k N h2 h3 h4⟩
  obtain ⟨r, w', h1, rfl, k, N, h2⟩ := this.runs
  exact ⟨w', k, N, h1, h2⟩

/-- C28 for `s.copy_nothrow(err, t)`, two different lists. -/
theorem list_copy_partial (hr : Reach w) (ha : Alive w s) (hb : Alive w t) (hst : s ≠ t)
    (hal : HasAlloc w s defaultAlloc ∨ Contents w s []) (hc : Contents w t M) :
    ∃ w' k N, Runs (exec (.copy s t)) (ready w) .unit w' ∧ Contents w' s N ∧ Contents w' t M ∧
      N.map Prod.snd = (M.map Prod.snd).take k ∧ (w'.err = none → k = M.length) ∧ (w'.err ≠ none → k < M.length) ∧
      (Good w → w'.err = none) ∧ (∀ x ∈ N, w.heap x.1 = none) ∧ (∀ L, Contents w s L → ∀ x ∈ L, w'.heap x.1 = none) ∧ Unchanged w w' [s] := by
  have hc' : Contents w t ([] ++ (M ++ [])) := by simpa using hc
  obtain ⟨w', k, N, h1, h2, h3, h4, h5, h6, h7, h7', h8⟩ := list_assign_range_partial hr ha hb hal hc' (fun h => absurd h hst)
  obtain ⟨σ, h, ho⟩ := hr.inv
  obtain ⟨l2, ht⟩ := (alive_iff h).1 hb
  obtain rfl := (contents_iff h ht).1 hc
  refine ⟨w', k, N, ?_, h2, (h8 t (by simpa using fun h => hst h.symm) hb).2 _ hc, h3, h4, h5, h6, h7, h7', h8⟩
  have hdet : wp (exec (.copy s t)) (ready w) fun r w2 => r = .unit ∧ w2 = w' := by
    have hw : wp (exec (.assignRange s t (posOf t (view l2.els ++ [])) (posOf t []))) (ready w)
        fun r w2 => r = .unit ∧ w2 = w' := wp_iff_runs.2 ⟨_, _, h1, rfl, rfl⟩
    rw [List.append_nil, posOf_view] at hw
    simp only [exec, copyNothrow, wp_bind] at hw ⊢
    refine wp_begin h.ready ht ?_
    refine wp_end h.ready ht ?_
    exact hw
  obtain ⟨r, w2, h9, rfl, rfl⟩ := hdet.runs
  exact h9

example : ∃ (w : W Nat) (s t p q r x y : Ptr), Reach w ∧ Good w ∧ Alive w s ∧ Alive w t ∧ s ≠ t ∧
    HasAlloc w s defaultAlloc ∧ Contents w s ([(p, 3)] ++ ([(q, 1)] ++ [(r, 2)])) ∧ Contents w t [(x, 2), (y, 5)] := by
  obtain ⟨w, s, t, u, p, q, r, x, y, z, hr, hg, hst, _, _, ha, hb, _, hc, hd, _, h1, _⟩ := demo
  exact ⟨w, s, t, p, q, r, x, y, hr, hg, ha, hb, hst, h1, hc, hd⟩
/-- A state in which assignments fail. -/
example : ∃ (w : W Nat) (s p : Ptr), Reach w ∧ Alive w s ∧ Contents w s [(p, 4)] ∧ Refused w := demo_refused

/-! ### C61: copying a list to itself -/

/-- C28 and C61 are violated: copying a non-empty list to itself dereferences an iterator that denotes no element
(undefined behaviour), provided that no allocation or construction is refused. -/
theorem list_self_copy_violated (hr : Reach w) (hg : Good w) (ha : Alive w s) (hc : Contents w s L) (hL : L ≠ []) :
    Faults (exec (.copy s s)) (ready w) .rawRead := by
  obtain ⟨σ, h, ho⟩ := hr.inv
  obtain ⟨ls, hs⟩ := (alive_iff h).1 ha
  obtain rfl := (contents_iff h hs).1 hc
  unfold exec
  exact Faults.bind (faults_selfCopy h.ready hs (by intro h0; rw [h0] at hL; exact hL rfl) rfl
    ⟨hg.some, hg.inj, hg.ctor, hg.past⟩)

example : ∃ (w : W Nat) (s p q r : Ptr), Reach w ∧ Good w ∧ Alive w s ∧ Contents w s [(p, 3), (q, 1), (r, 2)] ∧
    [(p, 3), (q, 1), (r, 2)] ≠ [] := by
  obtain ⟨w, s, t, u, p, q, r, x, y, z, hr, hg, hst, _, _, ha, hb, _, hc, hd, _, h1, _⟩ := demo
  exact ⟨w, s, p, q, r, hr, hg, ha, hc, by simp⟩

/-- C61, missing: non-empty lists (false for them, see above).  Copying an empty list to itself leaves it empty, reports
nothing and touches no other list. -/
theorem list_self_copy_partial (hr : Reach w) (ha : Alive w s) (hc : Contents w s []) :
    ∃ w', Runs (exec (.copy s s)) (ready w) .unit w' ∧ Contents w' s [] ∧ w'.err = none ∧ Unchanged w w' [s] := by
  obtain ⟨σ, h, ho⟩ := hr.inv
  obtain ⟨ls, hs⟩ := (alive_iff h).1 ha
  have hv := (contents_iff h hs).1 hc
  have he : ls.els = [] := by simpa [view] using hv.symm
  have hw : wp (copyNothrow s s) (ready w) fun _ w' => Contents w' s [] ∧ w'.err = none ∧ Unchanged w w' [s] := by
    unfold copyNothrow
    simp only [wp_bind]
    refine wp_begin h.ready hs ?_
    refine wp_end h.ready hs ?_
    rw [he]
    unfold assignIt
    refine wp_viaTmp (vs := []) h.ready hs (by simp [he]) rfl ?_ ?_
    · intro w2 tmp Q2 _ _ herr hinv hq
      rw [assignItLoop]
      simp only [wp_bind]
      apply wp_itEq_true (hinv.on_pos (A := []) (B := []) (upd_same _ _ _) rfl) rfl
      refine wp_if_pos rfl ?_
      refine hq w2 0 [] (Adv.refl _ _) rfl (Added.nil_ok herr) rfl hinv
    · intro w' k N _ hadd hN hinv
      have hN : N = [] := by simpa using hN
      subst hN
      refine ⟨(contents_iff hinv (upd_same _ _ _)).2 rfl, ?_, unchanged1 h hinv⟩
      apply Classical.byContradiction
      intro h0
      exact absurd (hadd.fail h0) (by simp)
  have : wp (exec (.copy s s)) (ready w) fun r w' => r = .unit ∧ Contents w' s [] ∧ w'.err = none ∧ Unchanged w w' [s] := by
    unfold exec
    simp only [wp_bind]
    exact wp_mono hw (fun _ _ h => ⟨rfl, h⟩)
  obtain ⟨r, w', h1, rfl, h2⟩ := this.runs
  exact ⟨w', h1, h2⟩

example : ∃ (w : W Nat) (s : Ptr), Reach w ∧ Alive w s ∧ Contents w s [] := by
  obtain ⟨w, s, t, u, p, q, r, x, y, z, hr, hg, hst, _, _, ha, hb, _, hc, hd, _, h1, _⟩ := demo
  obtain ⟨w', h1, _, h2, h3, _⟩ := list_clear hr ha hc
  obtain ⟨env, h, hh⟩ := hr
  exact ⟨w', s, ⟨env, _, Hist.call (c := .clear s) hh ha h1⟩, h2, h3⟩

/-! ### C29 -/

/-- C29 is violated by assignment: assigning anything to a non-empty list whose allocator is not (equal to) a default
constructed one returns its first node to a different allocator. -/
theorem list_assign_wrong_allocator (hr : Reach w) (ha : Alive w s) (hc : Contents w s L) (hL : L ≠ []) {a : Nat}
    (hal : HasAlloc w s a) (hne : a ≠ defaultAlloc) (vs : List V) :
    Faults (exec (.assignVals s vs)) (ready w) .wrongAllocator := by
  obtain ⟨σ, h, ho⟩ := hr.inv
  obtain ⟨ls, hs⟩ := (alive_iff h).1 ha
  obtain rfl := (contents_iff h hs).1 hc
  obtain rfl := (hasAlloc_iff h hs).1 hal
  unfold exec
  exact Faults.bind (faults_assignVals h.ready ho hs (by intro h0; rw [h0] at hL; exact hL rfl) hne rfl vs)

/-- C29 is violated by `swap` (also `merge` and `splice`, where the standard makes it a precondition): it exchanges the nodes
of lists with different allocators without their allocators, so destroying one of them afterwards returns a node to the wrong
allocator. -/
theorem list_swap_wrong_allocator (hr : Reach w) (ha : Alive w s) (hb : Alive w t) (hc : Contents w s L) (hL : L ≠ [])
    {a b : Nat} (hal : HasAlloc w s a) (hbl : HasAlloc w t b) (hab : a ≠ b) :
    ∃ w', Runs (exec (.swap s t)) (ready w) .unit w' ∧ Faults (exec (.destroy t)) (ready w') .wrongAllocator := by
  obtain ⟨σ, h, ho⟩ := hr.inv
  obtain ⟨ls, hs⟩ := (alive_iff h).1 ha
  obtain ⟨l2, ht⟩ := (alive_iff h).1 hb
  obtain rfl := (contents_iff h hs).1 hc
  obtain rfl := (hasAlloc_iff h hs).1 hal
  obtain rfl := (hasAlloc_iff h ht).1 hbl
  have : wp (exec (.swap s t)) (ready w) fun r w' => r = .unit ∧
      Faults (exec (.destroy t)) (ready w') .wrongAllocator := by
    unfold exec; simp only [wp_bind]
    refine wp_swap h.ready hs ht ?_
    intro w' _ _ _ hinv
    refine ⟨rfl, Faults.bind ?_⟩
    obtain ⟨e, B, hB⟩ := List.exists_cons_of_ne_nil (l := ls.els) (by intro h0; rw [h0] at hL; exact hL rfl)
    refine faults_destroyList hinv.ready (upd_same _ _ _) hB ?_
    rw [ho s ls hs e (by rw [hB]; simp)]
    exact hab
  obtain ⟨r, w', h1, rfl, h2⟩ := this.runs
  exact ⟨w', h1, h2⟩

/-- C29 where the allocators that meet are equal (`Valid`): no call returns a node to a wrong allocator (that would be a
fault, which excludes a run).  Missing: assignment to lists with other than default allocators and exchanges between lists
with different allocators, for which it is false (`list_assign_wrong_allocator`, `list_swap_wrong_allocator`). -/
theorem list_own_allocator_partial (hr : Reach w) {c : Call V} (hv : Valid w c) :
    ¬ Faults (exec c) (ready w) .wrongAllocator := by
  obtain ⟨r, w', h1⟩ := list_calls_safe hr hv
  intro hf
  unfold Faults at hf; unfold Runs at h1
  rw [h1] at hf; cases hf

example : ∃ (w : W Nat) (s u p q r z : Ptr), Reach w ∧ Alive w s ∧ Alive w u ∧ Contents w s [(p, 3), (q, 1), (r, 2)] ∧
    Contents w u [(z, 9)] ∧ HasAlloc w s defaultAlloc ∧ HasAlloc w u 7 ∧ 7 ≠ defaultAlloc ∧ Valid w (.clear u) := by
  obtain ⟨w, s, t, u, p, q, r, x, y, z, hr, hg, hst, _, _, ha, hb, hu, hc, hd, he, h1, h2, h3⟩ := demo
  exact ⟨w, s, u, p, q, r, z, hr, ha, hu, hc, he, h1, h3, by decide, hu⟩

/-! ### C30 -/

theorem allEq_iff (eq : V → V → Bool) : ∀ l m : List V, allEq eq l m = true ↔
    l.length = m.length ∧ ∀ z ∈ l.zip m, eq z.1 z.2 = true
  | [], [] => by simp [allEq]
  | [], _ :: _ => by simp [allEq]
  | _ :: _, [] => by simp [allEq]
  | x :: l, y :: m => by
    rw [allEq, Bool.and_eq_true, allEq_iff eq l m]; simp
    constructor
    · rintro ⟨h1, h2, h3⟩; exact ⟨h2, h1, h3⟩
    · rintro ⟨h2, h1, h3⟩; exact ⟨h1, h2, h3⟩

/-- C30: `operator==` holds iff the lists are equally long and corresponding elements are equal; it changes nothing. -/
theorem list_equality (hr : Reach w) (ha : Alive w s) (hb : Alive w t) (hc : Contents w s L) (hd : Contents w t M)
    (eq : V → V → Bool) :
    ∃ b, Runs (equal eq s t) w b w ∧ (b = true ↔ L.length = M.length ∧ ∀ z ∈ L.zip M, eq z.1.2 z.2.2 = true) := by
  obtain ⟨σ, h, ho⟩ := hr.inv
  obtain ⟨ls, hs⟩ := (alive_iff h).1 ha
  obtain ⟨l2, ht⟩ := (alive_iff h).1 hb
  obtain rfl := (contents_iff h hs).1 hc
  obtain rfl := (contents_iff h ht).1 hd
  obtain ⟨b, w', h1, rfl, rfl⟩ := (wp_equal eq h hs ht (Q := fun r w' => r = _ ∧ w' = w) ⟨rfl, rfl⟩).runs
  refine ⟨_, h1, ?_⟩
  rw [allEq_iff, ← view_snd, ← view_snd, List.zip_map, List.length_map, List.length_map]
  refine and_congr_right fun _ => ⟨fun h z hz => h _ (List.mem_map_of_mem hz), ?_⟩
  intro h z hz
  obtain ⟨y, hy, rfl⟩ := List.mem_map.1 hz
  exact h y hy

example : ∃ (w : W Nat) (s t p q r x y : Ptr), Reach w ∧ Alive w s ∧ Alive w t ∧
    Contents w s [(p, 3), (q, 1), (r, 2)] ∧ Contents w t [(x, 2), (y, 5)] := by
  obtain ⟨w, s, t, u, p, q, r, x, y, z, hr, hg, hst, _, _, ha, hb, _, hc, hd, _, h1, _⟩ := demo
  exact ⟨w, s, t, p, q, r, x, y, hr, ha, hb, hc, hd⟩

end Nestl.LC
