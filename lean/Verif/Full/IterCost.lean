import Verif.RBTree.Steps
import Verif.Full.Props
set_option autoImplicit false
/-
C121: the cost of iterating over a set or tree, in links followed.
-/
namespace Nestl.Full
open Nestl.RB Nestl.Set Nestl.Multi
variable {K : Type} {lt : K → K → Bool} {w w' : W K} {s hdr x y : Ptr} {t : T K} {o m n : Nat}

/-- Client loop `while (m--) ++it;` with the iterators of rbt.hpp:177-245. -/
def forward : Nat → Ptr → M (W K) Ptr
  | 0, it => pure it
  | m + 1, it => do forward m (← increment it)

/-- Client loop `while (m--) --it;` with the iterators of rbt.hpp:177-245. -/
def backward : Nat → Ptr → M (W K) Ptr
  | 0, it => pure it
  | m + 1, it => do backward m (← decrement it)

/-- `while (m--) ++it;` with the number of links that were followed (iterators of rbt.hpp:177-245). -/
def forwardN : Nat → Ptr → M (W K) (Ptr × Nat)
  | 0, it => pure (it, 0)
  | m + 1, it => do
    let a ← incrementN it
    let b ← forwardN m a.1
    pure (b.1, a.2 + b.2)

/-- `while (m--) --it;` with the number of links that were followed (iterators of rbt.hpp:177-245). -/
def backwardN : Nat → Ptr → M (W K) (Ptr × Nat)
  | 0, it => pure (it, 0)
  | m + 1, it => do
    let a ← decrementN it
    let b ← backwardN m a.1
    pure (b.1, a.2 + b.2)

theorem forwardN_run (h : Runs (forwardN m x) w (y, n) w') : Runs (forward m x) w y w' := by
  induction m generalizing x w n with
  | zero => cases h; rfl
  | succ m ih =>
    obtain ⟨⟨a, i⟩, w1, h1, h2⟩ := runs_seq_inv h
    obtain ⟨⟨b, j⟩, w2, h3, h4⟩ := runs_seq_inv h2
    cases h4
    exact runs_seq (incrementN_run h1) (ih h3)

theorem backwardN_run (h : Runs (backwardN m x) w (y, n) w') : Runs (backward m x) w y w' := by
  induction m generalizing x w n with
  | zero => cases h; rfl
  | succ m ih =>
    obtain ⟨⟨a, i⟩, w1, h1, h2⟩ := runs_seq_inv h
    obtain ⟨⟨b, j⟩, w2, h3, h4⟩ := runs_seq_inv h2
    cases h4
    exact runs_seq (decrementN_run h1) (ih h3)

theorem _root_.Nestl.RB.At.bounds {i g : Nat} (h : At t i g) : g ≤ 2 * i + t.height ∧ 2 * i ≤ g + t.height := by
  rcases h with ⟨h, rfl⟩ | ⟨rfl, h⟩
  · have := gpos_le t h
    have := le_gpos t h
    omega
  · cases t with
    | nil => simp [T.nodes] at h ⊢; omega
    | node => rw [T.height]; omega

theorem wp_forwardN {A B C : List (Ptr × K)} {Q : Ptr × Nat → W K → Prop} (h : Tree w.heap hdr o t) (hn : t.nodes = A ++ (B ++ C)) {g : Nat}
    (hg : At t A.length g) (hQ : ∀ n g', At t (A.length + B.length) g' → g' = g + n → Q (firstP hdr C, n) w) :
    wp (forwardN B.length (firstP hdr (B ++ C))) w Q := by
  induction B generalizing A g Q with
  | nil => exact hQ 0 g hg rfl
  | cons b B ih =>
    obtain ⟨p, k⟩ := b
    have hlt : A.length < t.nodes.length := by rw [hn]; simp
    obtain rfl : g = gpos t A.length := by
      rcases hg with ⟨-, h⟩ | ⟨h, -⟩
      · exact h
      · omega
    simp only [List.cons_append] at hn
    obtain ⟨ctx, c, l, r, rfl, rfl, hB, hz⟩ := h.toZ' hn
    simp only [forwardN, List.length_cons, List.cons_append, firstP_cons, wp_bind]
    refine wp_incrementN hz fun n1 g1 _ h2 h3 => ?_
    rw [← hB]
    have := ih (A := (pre ctx ++ l.nodes) ++ [(p, k)]) (g := g1) (Q := fun a w => Q (a.1, n1 + a.2) w) (by rw [hn]; simp)
      (by simpa [Nat.add_assoc] using h2) (by
        intro n g' e1 e2
        refine hQ (n1 + n) g' ?_ (by omega)
        have e : ((pre ctx ++ l.nodes) ++ [(p, k)]).length + B.length = (pre ctx ++ l.nodes).length + ((p, k) :: B).length := by
          simp; omega
        rw [e] at e1
        exact e1)
    simpa using this

/-- Specification: positions on the way back (no code): the end is one link away from the last element. -/
def BAt (t : T K) (i g : Nat) : Prop :=
  (i < t.nodes.length ∧ g = gpos t i) ∨ (i = t.nodes.length ∧ 0 < i ∧ g = gpos t (i - 1) + 1) ∨ (i = 0 ∧ t.nodes.length = 0 ∧ g = 0)

theorem BAt.bounds {i g : Nat} (h : BAt t i g) : g ≤ 2 * i + t.height ∧ 2 * i ≤ g + t.height := by
  rcases h with ⟨h, rfl⟩ | ⟨rfl, h, rfl⟩ | ⟨rfl, _, rfl⟩
  · have := gpos_le t h
    have := le_gpos t h
    omega
  · have := gpos_le t (i := t.nodes.length - 1) (by omega)
    have := le_gpos t (i := t.nodes.length - 1) (by omega)
    omega
  · omega

theorem wp_backwardN {A B C : List (Ptr × K)} {Q : Ptr × Nat → W K → Prop} (h : Tree w.heap hdr o t) (hn : t.nodes = A ++ (B ++ C)) {g : Nat}
    (hg : BAt t (A.length + B.length) g) (hQ : ∀ n g', BAt t A.length g' → g = g' + n → Q (firstP hdr (B ++ C), n) w) :
    wp (backwardN B.length (firstP hdr C)) w Q := by
  induction hlen : B.length generalizing B C g Q with
  | zero =>
    obtain rfl := List.length_eq_zero_iff.1 hlen
    exact hQ 0 g (by simpa using hg) rfl
  | succ m ih =>
    rcases List.eq_nil_or_concat B with rfl | ⟨B, ⟨p, k⟩, rfl⟩
    · simp at hlen
    rw [List.concat_eq_append] at hn hg hQ hlen
    have hm : B.length = m := by simpa using hlen
    have hn' : t.nodes = A ++ (B ++ ((p, k) :: C)) := by rw [hn]; simp
    have hlt : A.length + B.length < t.nodes.length := by rw [hn']; simp
    simp only [backwardN, wp_bind]
    have hstep : ∀ n1 g1, BAt t (A.length + B.length) g1 → g = g1 + n1 →
        wp (backwardN m p) w fun b w' => wp (pure (b.1, n1 + b.2)) w' Q := by
      intro n1 g1 h1 h2
      have := ih (B := B) (C := (p, k) :: C) (Q := fun a w => Q (a.1, n1 + a.2) w) hn' h1 (by
        intro n g' e1 e2
        have := hQ (n1 + n) g' e1 (by omega)
        simpa using this) hm
      simpa using this
    cases C with
    | nil =>
      have ht : t ≠ .nil := by rintro rfl; simp [T.nodes] at hn
      refine wp_decrementN_end (Tree.toZ (ctx := []) h) ht ?_
      have e : lastP hdr t.nodes = p := by rw [hn]; simp [lastP_append]
      simp only [plug, firstP_nil]
      rw [e]
      refine hstep 1 (gpos t (A.length + B.length)) (Or.inl ⟨hlt, rfl⟩) ?_
      have hN : t.nodes.length = A.length + B.length + 1 := by rw [hn]; simp; omega
      rcases hg with ⟨h1, -⟩ | ⟨h1, h2, h3⟩ | ⟨h1, h2, h3⟩
      · rw [hN] at h1; simp at h1; omega
      · rw [h3]; congr 2; simp
      · omega
    | cons c C =>
      obtain ⟨q, kq⟩ := c
      have hn2 : t.nodes = (A ++ (B ++ [(p, k)])) ++ (q, kq) :: C := by rw [hn]; simp
      obtain ⟨ctx, c, l, r, rfl, hA, -, hz⟩ := h.toZ' hn2
      simp only [firstP_cons]
      refine wp_decrementN hz h.black (by rw [← hA]; simp) fun n1 _ h2 => ?_
      rw [← hA] at h2 ⊢
      have e : lastP hdr (A ++ (B ++ [(p, k)])) = p := by simp [lastP_append]
      rw [e]
      refine hstep n1 _ (Or.inl ⟨hlt, rfl⟩) ?_
      have e1 : (A ++ (B ++ [(p, k)])).length = A.length + (B ++ [(p, k)]).length := by simp
      have e2 : (A ++ (B ++ [(p, k)])).length - 1 = A.length + B.length := by simp
      rw [e1] at h2
      rw [← e1, e2, e1] at h2
      rcases hg with ⟨-, h3⟩ | ⟨h1, -, -⟩ | ⟨h1, h3, -⟩
      · rw [h3]; exact h2
      · rw [hn] at h1; simp at h1
      · omega

theorem step_tree {A C : List (Ptr × K)} {p : Ptr × K} (ht : Tree w.heap s o t) (hn : A ++ p :: C = t.nodes) :
    (∃ n, Runs (incrementN p.1) w (firstP s C, n) w ∧ Runs (increment p.1) w (firstP s C) w ∧
      n ≤ 2 * Nat.log2 ((A ++ p :: C).length + 1) + 1) ∧
    ∃ n, Runs (decrementN (firstP s C)) w (p.1, n) w ∧ Runs (decrement (firstP s C)) w p.1 w ∧
      n ≤ 2 * Nat.log2 ((A ++ p :: C).length + 1) := by
  obtain ⟨p, k⟩ := p
  have hh := ht.height_le
  rw [hn]
  constructor
  · obtain ⟨ctx, c, l, r, rfl, rfl, hB, hz⟩ := ht.toZ' hn.symm
    obtain ⟨a, w', h1, rfl, h2, h3⟩ := wp.runs (m := incrementN p) (s := w)
      (Q := fun a w' => w' = w ∧ a.1 = firstP s C ∧ a.2 ≤ (plug ctx (.node p c l k r)).height + 1)
      (wp_incrementN hz fun n g e1 _ _ => ⟨rfl, by rw [hB], e1⟩)
    obtain ⟨a, n⟩ := a
    obtain rfl : a = firstP s C := h2
    exact ⟨n, h1, incrementN_run h1, by simp only at h3; omega⟩
  · obtain ⟨a, w', h1, rfl, h2, h3⟩ := wp.runs (m := decrementN (firstP s C)) (s := w)
      (Q := fun a w' => w' = w ∧ a.1 = p ∧ a.2 ≤ t.height) (by
        cases C with
        | nil =>
          have hne : t ≠ .nil := by rintro rfl; simp [T.nodes] at hn
          refine wp_decrementN_end (Tree.toZ (ctx := []) ht) hne ⟨rfl, ?_, ?_⟩
          · simp only [plug, firstP_nil, ← hn]; simp [lastP_append]
          · cases t with
            | nil => exact absurd rfl hne
            | node => simp only [T.height]; omega
        | cons q C =>
          obtain ⟨q, kq⟩ := q
          have hn2 : t.nodes = (A ++ [(p, k)]) ++ (q, kq) :: C := by rw [← hn]; simp
          obtain ⟨ctx, c, l, r, rfl, hA, -, hz⟩ := ht.toZ' hn2
          simp only [firstP_cons]
          refine wp_decrementN hz ht.black (by rw [← hA]; simp) fun n1 e _ => ⟨rfl, ?_, e⟩
          rw [← hA]; simp [lastP_append])
    obtain ⟨a, n⟩ := a
    obtain rfl : a = p := h2
    exact ⟨n, h1, decrementN_run h1, by simp only at h3; omega⟩

/-- C121: one `++` from an element follows at most `2 log2(n+1) + 1` links, and one `--` at most `2 log2(n+1)`
(`firstP s C` is the iterator to the first element of `C`, or the end iterator when `C` is empty). -/
theorem tree_iterator_step {A C : List (Ptr × K)} {p : Ptr × K} (hr : FReach lt w) (hs : Alive w s) (hL : Contents w s (A ++ p :: C)) :
    (∃ n, Runs (incrementN p.1) w (firstP s C, n) w ∧ Runs (increment p.1) w (firstP s C) w ∧
      n ≤ 2 * Nat.log2 ((A ++ p :: C).length + 1) + 1) ∧
    ∃ n, Runs (decrementN (firstP s C)) w (p.1, n) w ∧ Runs (decrement (firstP s C)) w p.1 w ∧
      n ≤ 2 * Nat.log2 ((A ++ p :: C).length + 1) := by
  obtain ⟨o, t, ht, hn⟩ := hr.tree hs hL
  exact step_tree ht hn

theorem forward_tree {A B C : List (Ptr × K)} (ht : Tree w.heap s o t) (hn : A ++ (B ++ C) = t.nodes) :
    ∃ n, Runs (forwardN B.length (firstP s (B ++ C))) w (firstP s C, n) w ∧
      Runs (forward B.length (firstP s (B ++ C))) w (firstP s C) w ∧
      n ≤ 2 * B.length + 4 * Nat.log2 ((A ++ (B ++ C)).length + 1) ∧
      2 * B.length ≤ n + 4 * Nat.log2 ((A ++ (B ++ C)).length + 1) := by
  have hh := ht.height_le
  rw [hn]
  have hA : ∃ g, At t A.length g := by
    have hl : t.nodes.length = A.length + (B.length + C.length) := by rw [← hn]; simp
    by_cases h : A.length < t.nodes.length
    · exact ⟨_, Or.inl ⟨h, rfl⟩⟩
    · exact ⟨2 * A.length, Or.inr ⟨by omega, Or.inr rfl⟩⟩
  obtain ⟨g, hg⟩ := hA
  obtain ⟨⟨a, n⟩, w', h1, rfl, h2, g', h3, h4⟩ := wp.runs (m := forwardN B.length (firstP s (B ++ C))) (s := w)
    (Q := fun a w' => w' = w ∧ a.1 = firstP s C ∧ ∃ g', At t (A.length + B.length) g' ∧ g' = g + a.2)
    (wp_forwardN ht hn.symm hg fun n g' e1 e2 => ⟨rfl, rfl, g', e1, e2⟩)
  obtain rfl : a = firstP s C := h2
  have b1 := hg.bounds
  have b2 := h3.bounds
  simp only at h4
  exact ⟨n, h1, forwardN_run h1, by omega, by omega⟩

/-- C121: from any position, `m` successive `++` follow `2 m` links up to `4 log2(n+1)`, and change nothing. -/
theorem tree_iterate_forward {A B C : List (Ptr × K)} (hr : FReach lt w) (hs : Alive w s) (hL : Contents w s (A ++ (B ++ C))) :
    ∃ n, Runs (forwardN B.length (firstP s (B ++ C))) w (firstP s C, n) w ∧
      Runs (forward B.length (firstP s (B ++ C))) w (firstP s C) w ∧
      n ≤ 2 * B.length + 4 * Nat.log2 ((A ++ (B ++ C)).length + 1) ∧
      2 * B.length ≤ n + 4 * Nat.log2 ((A ++ (B ++ C)).length + 1) := by
  obtain ⟨o, t, ht, hn⟩ := hr.tree hs hL
  exact forward_tree ht hn

theorem backward_tree {A B C : List (Ptr × K)} (ht : Tree w.heap s o t) (hn : A ++ (B ++ C) = t.nodes) :
    ∃ n, Runs (backwardN B.length (firstP s C)) w (firstP s (B ++ C), n) w ∧
      Runs (backward B.length (firstP s C)) w (firstP s (B ++ C)) w ∧
      n ≤ 2 * B.length + 4 * Nat.log2 ((A ++ (B ++ C)).length + 1) ∧
      2 * B.length ≤ n + 4 * Nat.log2 ((A ++ (B ++ C)).length + 1) := by
  have hh := ht.height_le
  rw [hn]
  have hA : ∃ g, BAt t (A.length + B.length) g := by
    have hl : t.nodes.length = A.length + (B.length + C.length) := by rw [← hn]; simp
    by_cases h : A.length + B.length < t.nodes.length
    · exact ⟨_, Or.inl ⟨h, rfl⟩⟩
    · by_cases h0 : 0 < A.length + B.length
      · exact ⟨_, Or.inr (Or.inl ⟨by omega, h0, rfl⟩)⟩
      · exact ⟨0, Or.inr (Or.inr ⟨by omega, by omega, rfl⟩)⟩
  obtain ⟨g, hg⟩ := hA
  obtain ⟨⟨a, n⟩, w', h1, rfl, h2, g', h3, h4⟩ := wp.runs (m := backwardN B.length (firstP s C)) (s := w)
    (Q := fun a w' => w' = w ∧ a.1 = firstP s (B ++ C) ∧ ∃ g', BAt t A.length g' ∧ g = g' + a.2)
    (wp_backwardN ht hn.symm hg fun n g' e1 e2 => ⟨rfl, rfl, g', e1, e2⟩)
  obtain rfl : a = firstP s (B ++ C) := h2
  have b1 := hg.bounds
  have b2 := h3.bounds
  simp only at h4
  exact ⟨n, h1, backwardN_run h1, by omega, by omega⟩

/-- C121: from any position, `m` successive `--` follow `2 m` links up to `4 log2(n+1)`, and change nothing. -/
theorem tree_iterate_backward {A B C : List (Ptr × K)} (hr : FReach lt w) (hs : Alive w s) (hL : Contents w s (A ++ (B ++ C))) :
    ∃ n, Runs (backwardN B.length (firstP s C)) w (firstP s (B ++ C), n) w ∧
      Runs (backward B.length (firstP s C)) w (firstP s (B ++ C)) w ∧
      n ≤ 2 * B.length + 4 * Nat.log2 ((A ++ (B ++ C)).length + 1) ∧
      2 * B.length ≤ n + 4 * Nat.log2 ((A ++ (B ++ C)).length + 1) := by
  obtain ⟨o, t, ht, hn⟩ := hr.tree hs hL
  exact backward_tree ht hn

theorem all_tree {L : List (Ptr × K)} (ht : Tree w.heap s o t) (hn : L = t.nodes) :
    Runs (begin_ s) w (firstP s L) w ∧ Runs (end_ s) w s w ∧
    (∃ n, Runs (forwardN L.length (firstP s L)) w (s, n) w ∧
      Runs (forward L.length (firstP s L)) w s w ∧ n ≤ 2 * L.length ∧ 2 * L.length ≤ n + 2 * Nat.log2 (L.length + 1)) ∧
    ∃ n, Runs (backwardN L.length s) w (firstP s L, n) w ∧
      Runs (backward L.length s) w (firstP s L) w ∧ n ≤ 2 * L.length ∧ 2 * L.length ≤ n + 4 * Nat.log2 (L.length + 1) := by
  subst hn
  have hh := ht.height_le
  have h0 : Runs (begin_ s) w (firstP s t.nodes) w := by
    obtain ⟨a, w', h1, rfl, rfl⟩ := wp.runs (m := begin_ s) (s := w) (Q := fun a w' => a = firstP s t.nodes ∧ w' = w) (by
      simp only [begin_, wp_bind, wp_pure, wp_rd ht.cell ht.hdr_ne]
      exact ⟨by rfl, trivial⟩)
    exact h1
  refine ⟨h0, rfl, ?_, ?_⟩
  · have hA : ∃ g, At t 0 g ∧ g ≤ t.height ∧ (0 < t.nodes.length → g + 1 ≤ t.height) := by
      by_cases h : 0 < t.nodes.length
      · have := gpos_le t h
        exact ⟨_, Or.inl ⟨h, rfl⟩, by omega, fun _ => by omega⟩
      · exact ⟨0, Or.inr ⟨by omega, Or.inr rfl⟩, by omega, fun h' => absurd h' h⟩
    obtain ⟨g, hg, hg1, hg2⟩ := hA
    obtain ⟨⟨a, n⟩, w', h1, rfl, h2, g', h3, h4⟩ := wp.runs (m := forwardN t.nodes.length (firstP s t.nodes)) (s := w)
      (Q := fun a w' => w' = w ∧ a.1 = s ∧ ∃ g', At t t.nodes.length g' ∧ g' = g + a.2)
      (by
        have := wp_forwardN (A := []) (B := t.nodes) (C := []) (Q := fun a w' => w' = w ∧ a.1 = s ∧ ∃ g', At t t.nodes.length g' ∧ g' = g + a.2)
          ht (by simp) hg fun n g' e1 e2 => ⟨rfl, rfl, g', by simpa using e1, e2⟩
        simpa using this)
    obtain rfl : a = s := h2
    simp only at h4
    have hb : g' ≤ 2 * t.nodes.length ∧ 2 * t.nodes.length ≤ g' + 1 := by
      rcases h3 with ⟨h, -⟩ | ⟨-, h⟩ <;> omega
    refine ⟨n, h1, forwardN_run h1, by omega, ?_⟩
    by_cases h : 0 < t.nodes.length
    · have := hg2 h
      omega
    · omega
  · have hA : ∃ g, BAt t t.nodes.length g ∧ g ≤ 2 * t.nodes.length := by
      by_cases h : 0 < t.nodes.length
      · have := gpos_lt t (i := t.nodes.length - 1) (by omega)
        exact ⟨_, Or.inr (Or.inl ⟨rfl, h, rfl⟩), by omega⟩
      · exact ⟨0, Or.inr (Or.inr ⟨by omega, by omega, rfl⟩), by omega⟩
    obtain ⟨g, hg, hg1⟩ := hA
    obtain ⟨⟨a, n⟩, w', h1, rfl, h2, g', h3, h4⟩ := wp.runs (m := backwardN t.nodes.length s) (s := w)
      (Q := fun a w' => w' = w ∧ a.1 = firstP s t.nodes ∧ ∃ g', BAt t 0 g' ∧ g = g' + a.2)
      (by
        have := wp_backwardN (A := []) (B := t.nodes) (C := []) (Q := fun a w' => w' = w ∧ a.1 = firstP s t.nodes ∧ ∃ g', BAt t 0 g' ∧ g = g' + a.2)
          ht (by simp) (by simpa using hg) fun n g' e1 e2 => ⟨rfl, by simp, g', e1, e2⟩
        simpa using this)
    obtain rfl : a = firstP s t.nodes := h2
    have b1 := hg.bounds
    have b2 := h3.bounds
    simp only at h4
    exact ⟨n, h1, backwardN_run h1, by omega, by omega⟩

/-- C121: a pass over all `n` elements, from `begin()` to `end()` or back, follows at most `2 n` links. -/
theorem tree_iterate_all {L : List (Ptr × K)} (hr : FReach lt w) (hs : Alive w s) (hL : Contents w s L) :
    Runs (begin_ s) w (firstP s L) w ∧ Runs (end_ s) w s w ∧
    (∃ n, Runs (forwardN L.length (firstP s L)) w (s, n) w ∧
      Runs (forward L.length (firstP s L)) w s w ∧ n ≤ 2 * L.length ∧ 2 * L.length ≤ n + 2 * Nat.log2 (L.length + 1)) ∧
    ∃ n, Runs (backwardN L.length s) w (firstP s L, n) w ∧
      Runs (backward L.length s) w (firstP s L) w ∧ n ≤ 2 * L.length ∧ 2 * L.length ≤ n + 4 * Nat.log2 (L.length + 1) := by
  obtain ⟨o, t, ht, hn⟩ := hr.tree hs hL
  exact all_tree ht hn

/-- The four-element object of `fdemo`: from its second element, two `++` reach its last and two `--` return. -/
example : ∃ (w : W (Nat × Nat)) (A B C : List (Ptr × (Nat × Nat))), FReach pairLt w ∧ Alive w (.stk 0) ∧
    Contents w (.stk 0) (A ++ (B ++ C)) ∧ A.length = 1 ∧ B.length = 2 ∧ C.length = 1 ∧
    Runs (forward 2 (firstP (.stk 0) (B ++ C))) w (firstP (.stk 0) C) w ∧
    Runs (backward 2 (firstP (.stk 0) C)) w (firstP (.stk 0) (B ++ C)) w := by
  obtain ⟨w, L, M, hr, -, ha, -, hc, -, hL, -⟩ := fdemo 7
  match L, hL, hc with
  | [], hL, _ | [_], hL, _ | [_, _], hL, _ | [_, _, _], hL, _ | _ :: _ :: _ :: _ :: _ :: _, hL, _ => simp at hL
  | [a, b, c, d], _, hc =>
    have hc' : Contents w (.stk 0) ([a] ++ ([b, c] ++ [d])) := hc
    obtain ⟨n, -, h1, -⟩ := tree_iterate_forward hr ha hc'
    obtain ⟨n', -, h2, -⟩ := tree_iterate_backward hr ha hc'
    exact ⟨w, [a], [b, c], [d], hr, ha, hc', rfl, rfl, rfl, h1, h2⟩

end Nestl.Full
