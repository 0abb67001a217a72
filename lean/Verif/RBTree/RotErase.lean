import Verif.RBTree.RotOps
import Verif.RBTree.Bounds
import Verif.Set.Inv
set_option autoImplicit false
/-
Erasing ranges and keys with a count of the rotations and of the passes of the rebalancing loop.
-/
namespace Nestl.RB
variable {K : Type}

/-! ### Model -/

/-- Loop of `m_erase_aux(first, last)`: rbt.hpp:2160-2163 (as `eraseRangeLoop`). -/
def eraseRangeLoopN (hdr first last : Ptr) : M (W K) (Nat × Nat) := do
  if first ≠ last then
    let nxt ← increment first
    let n ← eraseIterN hdr first
    let m ← eraseRangeLoopN hdr nxt last
    pure (n.2.1 + m.1, n.2.2 + m.2)
  else pure (0, 0)
partial_fixpoint

/-- `m_erase_aux(first, last)` and `erase(first, last)`: rbt.hpp:2151-2168, 1212-1217 (as `eraseRange`). -/
def eraseRangeN (hdr first last : Ptr) : M (W K) (Ptr × Nat × Nat) := do
  let b ← begin_ hdr
  if first = b ∧ last = hdr then
    clear hdr
    pure (last, 0, 0)
  else
    let n ← eraseRangeLoopN hdr first last
    pure (last, n)

/-- `erase(const Key&)`: rbt.hpp:2170-2178; set.hpp:335-340 (as `eraseKey`). -/
def eraseKeyN (lt : K → K → Bool) (hdr : Ptr) (k : K) : M (W K) (Nat × Nat × Nat) := do
  let (f, l) ← equalRange lt hdr k
  let old ← size hdr
  let n ← eraseRangeN hdr f l
  pure (old - (← size hdr), n.2)

/-! ### Costs -/

section
variable {w : W K} {hdr : Ptr} {t : T K} {o : Nat} {A M B : List (Ptr × K)} {lt : K → K → Bool} {k : K}

theorem runs_increment {p : Ptr} (h : Tree w.heap hdr o t) (hn : t.nodes = A ++ (p, k) :: B) : Runs (increment p) w (firstP hdr B) w := by
  obtain ⟨q, w', h1, rfl, rfl⟩ := wp.runs (wp_increment' (Q := fun q w' => q = firstP hdr B ∧ w' = w) h hn ⟨rfl, rfl⟩)
  exact h1

theorem eraseRangeLoopN_runs (M : List (Ptr × K)) : ∀ {w : W K} {t : T K}, Tree w.heap hdr o t → t.nodes = A ++ (M ++ B) →
    ∃ rot i w' t', Runs (eraseRangeLoopN hdr (firstP hdr (M ++ B)) (firstP hdr B)) w (rot, i) w' ∧
      Runs (eraseRangeLoop hdr (firstP hdr (M ++ B)) (firstP hdr B)) w () w' ∧ Tree w'.heap hdr o t' ∧ t'.nodes = A ++ B ∧
      rot ≤ 3 * M.length ∧ i + phi t' ≤ phi t + 12 * M.length := by
  induction M with
  | nil =>
    intro w t h hn
    refine ⟨0, 0, w, t, ?_, ?_, h, by simpa using hn, by simp, by simp⟩
    · rw [eraseRangeLoopN]; simp only [List.nil_append, ne_eq, not_true, if_false]; rfl
    · rw [eraseRangeLoop]; simp only [List.nil_append, ne_eq, not_true, if_false]; rfl
  | cons x M ih =>
    intro w t h hn
    rcases x with ⟨p, k⟩
    have hpne : p ≠ firstP hdr B := by
      have hnd := h.ok.nodup
      have hpm : p ∈ t.ptrs := by rw [T.ptrs, hn]; simp
      have := h.node_ne_hdr hpm
      rw [T.ptrs, hn] at hnd
      cases B with
      | nil => simpa using this
      | cons b B =>
        simp only [List.map_append, List.map_cons, List.cons_append, List.nodup_append, List.nodup_cons, List.mem_append, List.mem_cons] at hnd
        simp only [firstP_cons]
        grind
    have hn' : t.nodes = A ++ (p, k) :: (M ++ B) := by simpa using hn
    have h0 := runs_increment h hn'
    obtain ⟨⟨r, rot, i⟩, w1, h1, t1, h2, h3, h4, h5⟩ := wp.runs (m := eraseIterN hdr p) (s := w)
      (Q := fun b w' => ∃ t1, Tree w'.heap hdr o t1 ∧ t1.nodes = A ++ (M ++ B) ∧ b.2.1 ≤ 3 ∧ b.2.2 + phi t1 ≤ phi t + 12)
      (wp_eraseIterN h hn' fun _ _ t1 h1 h2 h3 _ h4 => ⟨t1, h1, h2, h3, h4⟩)
    obtain ⟨rot', i', w', t', q1, q2, q3, q4, q5, q6⟩ := ih h2 h3
    dsimp only at h4 h5
    refine ⟨rot + rot', i + i', w', t', ?_, ?_, q3, q4, by simp only [List.length_cons]; omega, by simp only [List.length_cons]; omega⟩
    · rw [eraseRangeLoopN]
      simp only [List.cons_append, firstP_cons, ne_eq, hpne, not_false_eq_true, if_true]
      exact runs_seq h0 (runs_seq h1 (runs_seq q1 rfl))
    · rw [eraseRangeLoop]
      simp only [List.cons_append, firstP_cons, ne_eq, hpne, not_false_eq_true, if_true]
      exact runs_seq h0 (runs_seq (eraseIterN_sim _ _ _ trivial h1) q2)

theorem eraseRangeN_runs (h : Tree w.heap hdr o t) (hn : t.nodes = A ++ (M ++ B)) :
    ∃ rot i w' t', Runs (eraseRangeN hdr (firstP hdr (M ++ B)) (firstP hdr B)) w (firstP hdr B, rot, i) w' ∧
      Runs (eraseRange hdr (firstP hdr (M ++ B)) (firstP hdr B)) w (firstP hdr B) w' ∧ Tree w'.heap hdr o t' ∧ t'.nodes = A ++ B ∧
      rot ≤ 3 * M.length ∧ i + phi t' ≤ phi t + 12 * M.length := by
  obtain ⟨b, hb⟩ : ∃ b, Runs (begin_ hdr) w b w := by
    obtain ⟨b, w', h1, rfl⟩ := wp.runs (m := begin_ hdr) (s := w) (Q := fun _ w' => w' = w)
      (by unfold begin_; rw [wp_bind, wp_rd h.cell h.hdr_ne, wp_pure])
    exact ⟨b, h1⟩
  by_cases hc : firstP hdr (M ++ B) = b ∧ firstP hdr B = hdr
  · obtain ⟨r, w', e1, H', t', rfl, e2, e3⟩ := wp.runs (wp_eraseRange (w := w)
      (Q := fun _ w' => ∃ H' t', w' = w.setHeap H' ∧ Tree H' hdr o t' ∧ t'.nodes = A ++ B) h hn fun H' t' h1 h2 _ _ => ⟨H', t', rfl, h1, h2⟩)
    obtain ⟨b', w1, f1, f2⟩ := runs_seq_inv e1
    obtain ⟨rfl, rfl⟩ := Runs.det f1 hb
    rw [if_pos hc] at f2
    obtain ⟨u, w2, f3, f4⟩ := runs_seq_inv f2
    cases f4
    obtain ⟨_, _, f5, H2, f6, g1⟩ := wp.runs (wp_clear (Q := fun _ w' => ∃ H', w' = w1.setHeap H' ∧ Tree H' hdr o .nil) h fun H' h1 _ _ => ⟨H', rfl, h1⟩)
    obtain ⟨-, f7⟩ := Runs.det f3 f5
    have hT : Tree (w1.setHeap H').heap hdr o .nil := by rw [f7, f6]; exact g1
    obtain ⟨-, rfl⟩ := Tree.unique (by exact e2) hT
    refine ⟨0, 0, _, .nil, runs_seq hb ?_, e1, e2, e3, by simp, by simp [phi]⟩
    rw [if_pos hc]
    exact runs_seq f3 rfl
  · obtain ⟨rot, i, w', t', h1, h2, h3, h4, h5, h6⟩ := eraseRangeLoopN_runs M h hn
    refine ⟨rot, i, w', t', runs_seq hb ?_, runs_seq hb ?_, h3, h4, h5, h6⟩
    · rw [if_neg hc]; exact runs_seq h1 rfl
    · rw [if_neg hc]; exact runs_seq h2 rfl

theorem eraseKeyN_runs (h : Tree w.heap hdr o t) :
    ∃ A M B rot i w' t', Runs (eraseKeyN lt hdr k) w (M.length, rot, i) w' ∧ Runs (eraseKey lt hdr k) w M.length w' ∧
      t.nodes = A ++ (M ++ B) ∧ Tree w'.heap hdr o t' ∧ t'.nodes = A ++ B ∧ rot ≤ 3 * M.length ∧ i + phi t' ≤ phi t + 12 * M.length := by
  obtain ⟨r, w1, h1, n, A, M, B, hn, rfl, rfl⟩ := wp.runs (m := equalRange lt hdr k) (s := w)
    (Q := fun r w1 => ∃ n A M B, t.nodes = A ++ (M ++ B) ∧ r = (firstP hdr (M ++ B), firstP hdr B) ∧ w1 = w.addCmp n)
    (wp_equalRange h fun n A M B h1 _ _ => ⟨n, A, M, B, h1, rfl, rfl⟩)
  have size_runs : ∀ {w : W K} {t : T K}, Tree w.heap hdr o t → Runs (size hdr) w t.nodes.length w := by
    intro w t h
    obtain ⟨b, w', h1, rfl, rfl⟩ := wp.runs (m := size hdr) (s := w) (Q := fun b w' => b = t.nodes.length ∧ w' = w)
      (by unfold size; rw [wp_bind, wp_rd h.cell h.hdr_ne, wp_pure]; exact ⟨rfl, rfl⟩)
    exact h1
  obtain ⟨rot, i, w', t', h2, h3, h4, h5, h6, h7⟩ := eraseRangeN_runs (w := w.addCmp n) (by exact h) hn
  have e : t.nodes.length - t'.nodes.length = M.length := by rw [hn, h5]; simp; omega
  refine ⟨A, M, B, rot, i, w', t', ?_, ?_, hn, h4, h5, h6, h7⟩
  · have := size_runs (w := w.addCmp n) (by exact h)
    rw [← e]
    exact runs_seq h1 (runs_seq this (runs_seq h2 (runs_seq (size_runs h4) rfl)))
  · have := size_runs (w := w.addCmp n) (by exact h)
    rw [← e]
    exact runs_seq h1 (runs_seq this (runs_seq h3 (runs_seq (size_runs h4) rfl)))

end
end Nestl.RB
