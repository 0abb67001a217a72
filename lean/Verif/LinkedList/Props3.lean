import Verif.LinkedList.Props2
set_option autoImplicit false
/-
Property theorems of nestl::list (C78, C79), continued from `Verif/LinkedList/Props2.lean`.
-/
namespace Nestl.LC
open Nestl.LL
variable {V : Type} {w w' : W V} {s t : Ptr} {X L M Y : List (Ptr × V)}

/-! ### C78 -/

/-- C78: `erase(first, last)` destroys exactly the elements of the range and releases their memory; the elements before and
behind it stay, as the same objects and in order, and the returned iterator is `last`.  Nothing is allocated, constructed or
reported, and other lists are untouched. -/
theorem list_erase_range (hr : Reach w) (ha : Alive w s) (hc : Contents w s (X ++ (M ++ Y))) :
    ∃ w', Runs (exec (.eraseRange s (posOf s (M ++ Y)) (posOf s Y))) (ready w) (.pos (posOf s Y)) w' ∧ Silent w w' ∧
      Alive w' s ∧ Contents w' s (X ++ Y) ∧ (∀ x ∈ M, w'.heap x.1 = none) ∧
      (∀ p, w'.heap p ≠ none → w.heap p ≠ none) ∧ Unchanged w w' [s] := by
  obtain ⟨σ, h, ho⟩ := hr.inv
  obtain ⟨ls, hs⟩ := (alive_iff h).1 ha
  obtain ⟨A, MY, hA, rfl, hMY⟩ := view_split ((contents_iff h hs).1 hc).symm
  obtain ⟨M, B, rfl, rfl, rfl⟩ := view_split hMY
  have e1 : posOf s (view M ++ view B) = posE s (M ++ B) := by rw [← view_append, posOf_view]
  have hown := own_remove ho hs hA
  suffices hw : wp (exec (.eraseRange s (posOf s (view M ++ view B)) (posOf s (view B)))) (ready w) fun r w' =>
      r = .pos (posOf s (view B)) ∧ Alive w' s ∧ Contents w' s (view A ++ view B) ∧ (∀ x ∈ view M, w'.heap x.1 = none) ∧
      (∀ p, w'.heap p ≠ none → w.heap p ≠ none) ∧ Unchanged w w' [s] by
    obtain ⟨r, w', h1, rfl, h2⟩ := hw.runs
    exact ⟨w', h1, silent (c := .eraseRange _ _ _) (.bind (LL.Quiet.eraseRange _ _ _) fun _ => .pure _) h1, h2⟩
  unfold exec; simp only [wp_bind]
  rw [e1, posOf_view]
  refine wp_eraseRange h.ready hs hA hown.2 ?_
  intro w' _ _ _ hinv hm
  refine ⟨rfl, (alive_iff hinv).2 ⟨_, upd_same _ _ _⟩, (contents_iff hinv (upd_same _ _ _)).2 (by simp), ?_, hm,
    unchanged1 h hinv⟩
  intro x hx
  have hxM : x.1 ∈ ptrs M := mem_view_ptrs hx
  have hnd := h.st.ring_nodup hs
  rw [hA] at hnd
  simp only [ptrs_append, List.nodup_cons, List.nodup_append, List.mem_append] at hnd
  apply Classical.byContradiction
  intro hne
  obtain ⟨e, heM, hep⟩ := mem_ptrs.1 hxM
  have hmem : e ∈ ls.els := by rw [hA]; simp [heM]
  rcases hinv.st.cover x.1 (by rw [Ne, dat_none]; exact hne) with h1 | ⟨t, lt, ht, hm'⟩
  · obtain ⟨l, hl⟩ := Option.ne_none_iff_exists'.1 h1
    obtain ⟨i, hi⟩ := (hinv.st.hdr _ _ hl).1
    obtain ⟨a, ha⟩ := (h.st.el s ls hs e hmem).1
    rw [← hep, ha] at hi; cases hi
  · rw [upd_apply] at ht
    split at ht
    · cases ht
      simp only [ptrs_append, List.mem_append] at hm'
      rcases hm' with h1 | h1
      · exact hnd.2.2.2 _ h1 _ (.inl hxM) rfl
      · exact hnd.2.2.1.2.2 _ hxM _ h1 rfl
    · rename_i hts
      refine h.st.disj s t ls lt hs ht (fun h0 => hts h0.symm) x.1 ?_ hm'
      rw [hA, ptrs_append, ptrs_append]; simp [hxM]

/-- Erasing the first two of three elements. -/
example : ∃ (w : W Nat) (s p q r : Ptr), Reach w ∧ Alive w s ∧ Contents w s ([] ++ ([(p, 3), (q, 1)] ++ [(r, 2)])) := by
  obtain ⟨w, s, t, u, p, q, r, x, y, z, hr, _, _, _, _, ha, _, _, hc, _⟩ := demo
  exact ⟨w, s, p, q, r, hr, ha, hc⟩

/-! ### C79 -/

/-- C79: move assignment from another list with an equal allocator: the target has exactly the elements of the source (the
same objects: iterators to them stay valid), the source is empty and usable, the former elements of the target are released,
and nothing is allocated, constructed, copied or reported.  Other lists are untouched. -/
theorem list_move_assign_partial (hr : Reach w) (ha : Alive w s) (hb : Alive w t) (hst : s ≠ t) (hsa : SameAlloc w s t)
    (hc : Contents w s L) (hd : Contents w t M) :
    ∃ w', Runs (exec (.moveAssign s t)) (ready w) .unit w' ∧ Silent w w' ∧ Alive w' s ∧ Alive w' t ∧ Contents w' s M ∧
      Contents w' t [] ∧ SameAlloc w' s t ∧ (∀ x ∈ L, w'.heap x.1 = none) ∧ Unchanged w w' [s, t] := by
  obtain ⟨σ, h, ho⟩ := hr.inv
  obtain ⟨ls, hs⟩ := (alive_iff h).1 ha
  obtain ⟨l2, ht⟩ := (alive_iff h).1 hb
  obtain rfl := (contents_iff h hs).1 hc
  obtain rfl := (contents_iff h ht).1 hd
  have hal := same_alloc h hs ht hsa
  refine run_unit (.bind (LL.Quiet.moveAssign _ _) fun _ => .pure _) ?_
  unfold exec; simp only [wp_bind]
  refine wp_moveAssign h.ready hs ht (ho s ls hs) ?_
  intro w' _ _ hinv
  rw [if_neg hst] at hinv
  have hs' : upd (upd σ s (some ⟨ls.alloc, l2.els⟩)) t (some ⟨l2.alloc, []⟩) s = some ⟨ls.alloc, l2.els⟩ := by
    rw [upd_other _ _ hst, upd_same]
  refine ⟨rfl, (alive_iff hinv).2 ⟨_, hs'⟩, (alive_iff hinv).2 ⟨_, upd_same _ _ _⟩, (contents_iff hinv hs').2 rfl,
    (contents_iff hinv (upd_same _ _ _)).2 rfl, ⟨ls.alloc, (hasAlloc_iff hinv hs').2 rfl,
      (hasAlloc_iff hinv (upd_same _ _ _)).2 hal⟩, ?_, unchanged2 h hinv⟩
  intro x hx
  have hxL : x.1 ∈ ptrs ls.els := mem_view_ptrs hx
  apply Classical.byContradiction
  intro hne
  obtain ⟨e, he, hep⟩ := mem_ptrs.1 hxL
  rcases hinv.st.cover x.1 (by rw [Ne, dat_none]; exact hne) with h1 | ⟨u, lu, hu, hm'⟩
  · obtain ⟨l, hl⟩ := Option.ne_none_iff_exists'.1 h1
    obtain ⟨i, hi⟩ := (hinv.st.hdr _ _ hl).1
    obtain ⟨a, ha⟩ := (h.st.el s ls hs e he).1
    rw [← hep, ha] at hi; cases hi
  · by_cases hut : u = t
    · subst hut; rw [upd_same] at hu; cases hu; simp at hm'
    · by_cases hus : u = s
      · subst hus; rw [hs'] at hu; cases hu
        exact h.st.disj u t ls l2 hs ht hst x.1 hxL hm'
      · rw [upd_other _ _ hut, upd_other _ _ hus] at hu
        exact h.st.disj s u ls lu hs hu (fun h0 => hus h0.symm) x.1 hxL hm'

example : ∃ (w : W Nat) (s t p q r x y : Ptr), Reach w ∧ Alive w s ∧ Alive w t ∧ s ≠ t ∧ SameAlloc w s t ∧
    Contents w s [(p, 3), (q, 1), (r, 2)] ∧ Contents w t [(x, 2), (y, 5)] := by
  obtain ⟨w, s, t, u, p, q, r, x, y, z, hr, hg, hst, _, _, ha, hb, _, hc, hd, _, h1, h2, _⟩ := demo
  exact ⟨w, s, t, p, q, r, x, y, hr, ha, hb, hst, ⟨_, h1, h2⟩, hc, hd⟩

/-- C79: move assignment of a list to itself destroys all its elements. -/
theorem list_self_move_assign_empties (hr : Reach w) (ha : Alive w s) (hc : Contents w s L) :
    ∃ w', Runs (exec (.moveAssign s s)) (ready w) .unit w' ∧ Silent w w' ∧ Alive w' s ∧ Contents w' s [] ∧
      (∀ x ∈ L, w'.heap x.1 = none) ∧ Unchanged w w' [s] := by
  obtain ⟨σ, h, ho⟩ := hr.inv
  obtain ⟨ls, hs⟩ := (alive_iff h).1 ha
  obtain rfl := (contents_iff h hs).1 hc
  refine run_unit (.bind (LL.Quiet.moveAssign _ _) fun _ => .pure _) ?_
  unfold exec; simp only [wp_bind]
  refine wp_moveAssign h.ready hs hs (ho s ls hs) ?_
  intro w' _ _ hinv
  rw [if_pos rfl] at hinv
  refine ⟨rfl, (alive_iff hinv).2 ⟨_, upd_same _ _ _⟩, (contents_iff hinv (upd_same _ _ _)).2 rfl, ?_, unchanged1 h hinv⟩
  intro x hx
  exact heap_gone h hs hinv (by rintro l ⟨rfl⟩; simp) (mem_view_ptrs hx)

example : ∃ (w : W Nat) (s p q r : Ptr), Reach w ∧ Alive w s ∧ Contents w s [(p, 3), (q, 1), (r, 2)] := by
  obtain ⟨w, s, t, u, p, q, r, x, y, z, hr, _, _, _, _, ha, _, _, hc, _⟩ := demo
  exact ⟨w, s, p, q, r, hr, ha, hc⟩

/-- C79 is violated for different allocators: move assignment takes the elements but not the allocator, so destroying the
target afterwards returns a node to the wrong allocator. -/
theorem list_move_assign_wrong_allocator (hr : Reach w) (ha : Alive w s) (hb : Alive w t) (hd : Contents w t M) (hM : M ≠ [])
    {a b : Nat} (hal : HasAlloc w s a) (hbl : HasAlloc w t b) (hab : a ≠ b) :
    ∃ w', Runs (exec (.moveAssign s t)) (ready w) .unit w' ∧ Contents w' s M ∧ HasAlloc w' s a ∧
      Faults (exec (.destroy s)) (ready w') .wrongAllocator := by
  obtain ⟨σ, h, ho⟩ := hr.inv
  obtain ⟨ls, hs⟩ := (alive_iff h).1 ha
  obtain ⟨l2, ht⟩ := (alive_iff h).1 hb
  obtain rfl := (contents_iff h ht).1 hd
  obtain rfl := (hasAlloc_iff h hs).1 hal
  obtain rfl := (hasAlloc_iff h ht).1 hbl
  have hst : s ≠ t := by rintro rfl; rw [hs] at ht; cases ht; exact hab rfl
  have : wp (exec (.moveAssign s t)) (ready w) fun r w' => r = .unit ∧ Contents w' s (view l2.els) ∧ HasAlloc w' s ls.alloc ∧
      Faults (exec (.destroy s)) (ready w') .wrongAllocator := by
    unfold exec; simp only [wp_bind]
    refine wp_moveAssign h.ready hs ht (ho s ls hs) ?_
    intro w' _ _ hinv
    rw [if_neg hst] at hinv
    have hs' : upd (upd σ s (some ⟨ls.alloc, l2.els⟩)) t (some ⟨l2.alloc, []⟩) s = some ⟨ls.alloc, l2.els⟩ := by
      rw [upd_other _ _ hst, upd_same]
    obtain ⟨e, B, hB⟩ := List.exists_cons_of_ne_nil (show l2.els ≠ [] by rintro h0; rw [h0] at hM; exact hM rfl)
    refine ⟨rfl, (contents_iff hinv hs').2 rfl, (hasAlloc_iff hinv hs').2 rfl, ?_⟩
    exact Faults.bind (faults_destroyList hinv.ready hs' hB (by
      rw [ho t l2 ht e (by rw [hB]; simp)]; exact fun h0 => hab h0.symm))
  obtain ⟨r, w', h1, rfl, h2⟩ := this.runs
  exact ⟨w', h1, h2⟩

example : ∃ (w : W Nat) (s u p q r z : Ptr), Reach w ∧ Alive w s ∧ Alive w u ∧ Contents w s [(p, 3), (q, 1), (r, 2)] ∧
    Contents w u [(z, 9)] ∧ HasAlloc w s defaultAlloc ∧ HasAlloc w u 7 ∧ defaultAlloc ≠ 7 := by
  obtain ⟨w, s, t, u, p, q, r, x, y, z, hr, hg, hst, _, _, ha, hb, hu, hc, hd, he, h1, h2, h3⟩ := demo
  exact ⟨w, s, u, p, q, r, z, hr, ha, hu, hc, he, h1, h3, by decide⟩

end Nestl.LC
