import Verif.RBTree.Search
set_option autoImplicit false
/-
lower_bound / upper_bound / equal_range / find, and the height bound.
-/
namespace Nestl.RB
variable {K : Type}

section
variable {hdr : Ptr} {w : W K} {ctx : Ctx K} {t l r : T K} {o : Nat} {lt : K → K → Bool} {k : K}

/-- `A` are the elements smaller than `k`, `B` the others. -/
def LCut (lt : K → K → Bool) (k : K) (A B : List (Ptr × K)) : Prop :=
  (∀ a ∈ A, lt a.2 k = true) ∧ (∀ b ∈ B, lt b.2 k = false)

/-- `B` are the elements greater than `k`, `A` the others. -/
def UCut (lt : K → K → Bool) (k : K) (A B : List (Ptr × K)) : Prop :=
  (∀ a ∈ A, lt k a.2 = false) ∧ (∀ b ∈ B, lt k b.2 = true)

theorem wp_lowerBound {y pr : Ptr} {Q : Ptr → W K → Prop} (h : Rep w.heap o pr t) (h0 : Ptr.null ∉ t.ptrs)
    (hQ : ∀ n A B, t.nodes = A ++ B → n ≤ t.height → (∀ b B', B = b :: B' → lt b.2 k = false) →
      (SWO lt → WSorted lt t.nodes → LCut lt k A B) → Q (firstP y B) (w.addCmp n)) :
    wp (lowerBound lt k t.ptr y) w Q := by
  induction t generalizing w y pr with
  | nil =>
    rw [lowerBound]
    simpa [T.ptr] using hQ 0 [] [] rfl (Nat.zero_le _) (by simp) (fun _ _ => by simp [LCut])
  | node p c l k' r ihl ihr =>
    obtain ⟨hc, hrl, hrr⟩ := h
    rw [ptrs_mk_L, mem_ptrs_mk] at h0
    have hpn : p ≠ .null := fun e => h0 (Or.inl e.symm)
    rw [lowerBound]
    simp only [T.ptr, ne_eq, hpn, not_false_eq_true, if_true, wp_bind]
    rw [wp_keyOf hc hpn (cellS_val ..), wp_cmp]
    cases hl : lt k' k
    · simp only [Bool.not_false, if_true, wp_bind]
      rw [wp_rd (by exact hc) hpn]
      refine ihl (w := w.addCmp 1) (by exact hrl) (fun hh => h0 (Or.inr (Or.inl hh))) ?_
      intro n A B hn hh hfst hcut
      rw [World.addCmp_addCmp]
      have : firstP p B = firstP y (B ++ (p, k') :: r.nodes) := by rw [firstP_append]; simp
      rw [this]
      refine hQ _ A _ (by simp [T.nodes, hn]) (by simp only [T.height]; omega) ?_ ?_
      · intro b B' hb
        cases B with
        | nil => simp at hb; rw [← hb.1]; exact hl
        | cons b0 B0 => simp at hb; rw [← hb.1]; exact hfst b0 B0 rfl
      · intro hs hsort
        simp only [T.nodes, WSorted, List.pairwise_append, List.pairwise_cons] at hsort
        obtain ⟨h1, h2⟩ := hcut hs hsort.1
        refine ⟨h1, ?_⟩
        intro b hb
        simp only [List.mem_append, List.mem_cons] at hb
        rcases hb with hb | rfl | hb
        · exact h2 b hb
        · exact hl
        · cases hh : lt b.2 k
          · rfl
          · have := hs.lt_of_le_lt (hsort.2.1.1 b hb) hh
            rw [hl] at this; cases this
    · simp only [Bool.not_true, Bool.false_eq_true, if_false, wp_bind]
      rw [wp_rd (by exact hc) hpn]
      refine ihr (w := w.addCmp 1) (by exact hrr) (fun hh => h0 (Or.inr (Or.inr hh))) ?_
      intro n A B hn hh hfst hcut
      rw [World.addCmp_addCmp]
      refine hQ _ (l.nodes ++ (p, k') :: A) B (by simp [T.nodes, hn]) (by simp only [T.height]; omega) hfst ?_
      intro hs hsort
      simp only [T.nodes, WSorted, List.pairwise_append, List.pairwise_cons] at hsort
      obtain ⟨h1, h2⟩ := hcut hs hsort.2.1.2
      refine ⟨?_, h2⟩
      intro a ha
      simp only [List.mem_append, List.mem_cons] at ha
      rcases ha with ha | rfl | ha
      · exact hs.lt_of_le_lt (hsort.2.2 a ha (p, k') (by simp)) hl
      · exact hl
      · exact h1 a ha

theorem wp_upperBound {y pr : Ptr} {Q : Ptr → W K → Prop} (h : Rep w.heap o pr t) (h0 : Ptr.null ∉ t.ptrs)
    (hQ : ∀ n A B, t.nodes = A ++ B → n ≤ t.height → (∀ b B', B = b :: B' → lt k b.2 = true) →
      (SWO lt → WSorted lt t.nodes → UCut lt k A B) → Q (firstP y B) (w.addCmp n)) :
    wp (upperBound lt k t.ptr y) w Q := by
  induction t generalizing w y pr with
  | nil =>
    rw [upperBound]
    simpa [T.ptr] using hQ 0 [] [] rfl (Nat.zero_le _) (by simp) (fun _ _ => by simp [UCut])
  | node p c l k' r ihl ihr =>
    obtain ⟨hc, hrl, hrr⟩ := h
    rw [ptrs_mk_L, mem_ptrs_mk] at h0
    have hpn : p ≠ .null := fun e => h0 (Or.inl e.symm)
    rw [upperBound]
    simp only [T.ptr, ne_eq, hpn, not_false_eq_true, if_true, wp_bind]
    rw [wp_keyOf hc hpn (cellS_val ..), wp_cmp]
    cases hl : lt k k'
    · simp only [Bool.false_eq_true, if_false, wp_bind]
      rw [wp_rd (by exact hc) hpn]
      refine ihr (w := w.addCmp 1) (by exact hrr) (fun hh => h0 (Or.inr (Or.inr hh))) ?_
      intro n A B hn hh hfst hcut
      rw [World.addCmp_addCmp]
      refine hQ _ (l.nodes ++ (p, k') :: A) B (by simp [T.nodes, hn]) (by simp only [T.height]; omega) hfst ?_
      intro hs hsort
      simp only [T.nodes, WSorted, List.pairwise_append, List.pairwise_cons] at hsort
      obtain ⟨h1, h2⟩ := hcut hs hsort.2.1.2
      refine ⟨?_, h2⟩
      intro a ha
      simp only [List.mem_append, List.mem_cons] at ha
      rcases ha with ha | rfl | ha
      · cases hh : lt k a.2
        · rfl
        · have := hs.lt_of_lt_le hh (hsort.2.2 a ha (p, k') (by simp))
          simp only at this
          rw [hl] at this; cases this
      · exact hl
      · exact h1 a ha
    · simp only [if_true, wp_bind]
      rw [wp_rd (by exact hc) hpn]
      refine ihl (w := w.addCmp 1) (by exact hrl) (fun hh => h0 (Or.inr (Or.inl hh))) ?_
      intro n A B hn hh hfst hcut
      rw [World.addCmp_addCmp]
      have : firstP p B = firstP y (B ++ (p, k') :: r.nodes) := by rw [firstP_append]; simp
      rw [this]
      refine hQ _ A _ (by simp [T.nodes, hn]) (by simp only [T.height]; omega) ?_ ?_
      · intro b B' hb
        cases B with
        | nil => simp at hb; rw [← hb.1]; exact hl
        | cons b0 B0 => simp at hb; rw [← hb.1]; exact hfst b0 B0 rfl
      · intro hs hsort
        simp only [T.nodes, WSorted, List.pairwise_append, List.pairwise_cons] at hsort
        obtain ⟨h1, h2⟩ := hcut hs hsort.1
        refine ⟨h1, ?_⟩
        intro b hb
        simp only [List.mem_append, List.mem_cons] at hb
        rcases hb with hb | rfl | hb
        · exact h2 b hb
        · exact hl
        · exact hs.lt_of_lt_le hl (hsort.2.1.1 b hb)

/-- `A`, `M`, `B` are the elements smaller than, equivalent to and greater than `k`. -/
def ECut (lt : K → K → Bool) (k : K) (A M B : List (Ptr × K)) : Prop :=
  (∀ a ∈ A, lt a.2 k = true) ∧ (∀ m ∈ M, lt m.2 k = false ∧ lt k m.2 = false) ∧ (∀ b ∈ B, lt k b.2 = true)

theorem wp_equalRangeLoop {y pr : Ptr} {Q : Ptr × Ptr → W K → Prop} (h : Rep w.heap o pr t) (h0 : Ptr.null ∉ t.ptrs)
    (hQ : ∀ n A M B, t.nodes = A ++ (M ++ B) → n ≤ 2 * t.height →
      (SWO lt → WSorted lt t.nodes → ECut lt k A M B) → Q (firstP y (M ++ B), firstP y B) (w.addCmp n)) :
    wp (equalRangeLoop lt k t.ptr y) w Q := by
  induction t generalizing w y pr with
  | nil =>
    rw [equalRangeLoop]
    simpa [T.ptr] using hQ 0 [] [] [] rfl (Nat.zero_le _) (fun _ _ => by simp [ECut])
  | node p c l k' r ihl ihr =>
    obtain ⟨hc, hrl, hrr⟩ := h
    rw [ptrs_mk_L, mem_ptrs_mk] at h0
    have hpn : p ≠ .null := fun e => h0 (Or.inl e.symm)
    rw [equalRangeLoop]
    simp only [T.ptr, ne_eq, hpn, not_false_eq_true, if_true, wp_bind]
    rw [wp_keyOf hc hpn (cellS_val ..), wp_cmp]
    cases hl : lt k' k
    · simp only [Bool.false_eq_true, if_false, wp_bind]
      rw [wp_keyOf (by exact hc) hpn (cellS_val ..), wp_cmp]
      cases hl2 : lt k k'
      · simp only [Bool.false_eq_true, if_false, wp_bind, wp_pure, World.addCmp_addCmp]
        rw [wp_rd (by exact hc) hpn]
        refine wp_lowerBound (w := w.addCmp _) (o := o) (pr := p) (t := l) (by exact hrl) (fun hh => h0 (Or.inr (Or.inl hh))) ?_
        intro n1 A M1 hn1 hh1 hf1 hcut1
        rw [wp_rd (by exact hc) hpn]
        refine wp_upperBound (o := o) (pr := p) (t := r) (by exact hrr) (fun hh => h0 (Or.inr (Or.inr hh))) ?_
        intro n2 M2 B hn2 hh2 hf2 hcut2
        simp only [World.addCmp_addCmp]
        have : firstP p M1 = firstP y ((M1 ++ (p, k') :: M2) ++ B) := by simp [firstP_append]
        rw [this]
        refine hQ _ A (M1 ++ (p, k') :: M2) B (by simp [T.nodes, hn1, hn2]) (by simp only [T.height]; omega) ?_
        intro hs hsort
        simp only [T.nodes, WSorted, List.pairwise_append, List.pairwise_cons] at hsort
        obtain ⟨h1, h2⟩ := hcut1 hs hsort.1
        obtain ⟨h3, h4⟩ := hcut2 hs hsort.2.1.2
        refine ⟨h1, ?_, h4⟩
        intro m hm
        simp only [List.mem_append, List.mem_cons] at hm
        rcases hm with hm | rfl | hm
        · refine ⟨h2 m hm, ?_⟩
          cases hh : lt k m.2
          · rfl
          · have := hs.lt_of_lt_le hh (hsort.2.2 m (by rw [hn1]; simp [hm]) (p, k') (by simp))
            simp only at this
            rw [hl2] at this; cases this
        · exact ⟨hl, hl2⟩
        · refine ⟨?_, h3 m hm⟩
          cases hh : lt m.2 k
          · rfl
          · have := hs.lt_of_le_lt (hsort.2.1.1 m (by rw [hn2]; simp [hm])) hh
            rw [hl] at this; cases this
      · simp only [if_true, wp_bind, World.addCmp_addCmp]
        rw [wp_rd (by exact hc) hpn]
        refine ihl (w := w.addCmp _) (by exact hrl) (fun hh => h0 (Or.inr (Or.inl hh))) ?_
        intro n A M B hn hh hcut
        rw [World.addCmp_addCmp]
        have h1 : firstP p (M ++ B) = firstP y (M ++ (B ++ (p, k') :: r.nodes)) := by simp [firstP_append]
        have h2 : firstP p B = firstP y (B ++ (p, k') :: r.nodes) := by simp [firstP_append]
        rw [h1, h2]
        refine hQ _ A M _ (by simp [T.nodes, hn]) (by simp only [T.height]; omega) ?_
        intro hs hsort
        simp only [T.nodes, WSorted, List.pairwise_append, List.pairwise_cons] at hsort
        obtain ⟨h1, h2, h3⟩ := hcut hs hsort.1
        refine ⟨h1, h2, ?_⟩
        intro b hb
        simp only [List.mem_append, List.mem_cons] at hb
        rcases hb with hb | rfl | hb
        · exact h3 b hb
        · exact hl2
        · exact hs.lt_of_lt_le hl2 (hsort.2.1.1 b hb)
    · simp only [if_true, wp_bind]
      rw [wp_rd (by exact hc) hpn]
      refine ihr (w := w.addCmp 1) (by exact hrr) (fun hh => h0 (Or.inr (Or.inr hh))) ?_
      intro n A M B hn hh hcut
      rw [World.addCmp_addCmp]
      refine hQ _ (l.nodes ++ (p, k') :: A) M B (by simp [T.nodes, hn]) (by simp only [T.height]; omega) ?_
      intro hs hsort
      simp only [T.nodes, WSorted, List.pairwise_append, List.pairwise_cons] at hsort
      obtain ⟨h1, h2, h3⟩ := hcut hs hsort.2.1.2
      refine ⟨?_, h2, h3⟩
      intro a ha
      simp only [List.mem_append, List.mem_cons] at ha
      rcases ha with ha | rfl | ha
      · exact hs.lt_of_le_lt (hsort.2.2 a ha (p, k') (by simp)) hl
      · exact hl
      · exact h1 a ha

theorem Tree.null_notMem {H : Ptr → Option (TNode K)} (h : Tree H hdr o t) : Ptr.null ∉ t.ptrs :=
  fun hh => h.node_ne_null hh rfl

theorem wp_equalRange {Q : Ptr × Ptr → W K → Prop} (h : Tree w.heap hdr o t)
    (hQ : ∀ n A M B, t.nodes = A ++ (M ++ B) → n ≤ 2 * t.height →
      (SWO lt → WSorted lt t.nodes → ECut lt k A M B) → Q (firstP hdr (M ++ B), firstP hdr B) (w.addCmp n)) :
    wp (equalRange lt hdr k) w Q := by
  unfold equalRange
  rw [wp_bind, wp_rd h.cell h.hdr_ne]
  exact wp_equalRangeLoop h.rep h.null_notMem hQ

/-- `find`: the first element not smaller than `k`, if it is not greater than `k`; otherwise `end()`. -/
theorem wp_find {Q : Ptr → W K → Prop} (h : Tree w.heap hdr o t)
    (hmiss : ∀ n A B, t.nodes = A ++ B → n ≤ t.height + 1 → (∀ b B', B = b :: B' → lt k b.2 = true) →
      (SWO lt → WSorted lt t.nodes → LCut lt k A B) → Q hdr (w.addCmp n))
    (hhit : ∀ n A p k' B, t.nodes = A ++ (p, k') :: B → n ≤ t.height + 1 → lt k' k = false → lt k k' = false →
      (SWO lt → WSorted lt t.nodes → LCut lt k A ((p, k') :: B)) → Q p (w.addCmp n)) :
    wp (find lt hdr k) w Q := by
  unfold find
  rw [wp_bind, wp_rd h.cell h.hdr_ne, wp_bind]
  refine wp_lowerBound h.rep h.null_notMem ?_
  intro n A B hn hh hfst hcut
  cases B with
  | nil =>
    simp only [firstP_nil, if_true, wp_pure]
    exact hmiss n A [] hn (by omega) (by simp) hcut
  | cons b B =>
    have hne : b.1 ≠ hdr := h.node_ne_hdr (by simp [T.ptrs, hn])
    simp only [firstP_cons, hne, if_false, wp_bind]
    rw [wp_keyOf_mem (w := w.addCmp n) (k' := b.2) (by exact h) hn, wp_cmp]
    cases hl : lt k b.2
    · simp only [Bool.false_eq_true, if_false, wp_pure, World.addCmp_addCmp]
      exact hhit (n + 1) A b.1 b.2 B hn (by omega) (hfst b B rfl) hl hcut
    · simp only [if_true, wp_pure, World.addCmp_addCmp]
      exact hmiss (n + 1) A (b :: B) hn (by omega) (by rintro _ _ ⟨⟩; exact hl) hcut

end

/-! ### Height bound -/

theorem RB_size {t : T K} {n : Nat} (h : RB t n) : 2 ^ n ≤ t.nodes.length + 1 := by
  induction t generalizing n with
  | nil => simp only [RB] at h; subst h; simp
  | node p c l k r ihl ihr =>
    cases c with
    | red =>
      obtain ⟨-, -, h1, h2⟩ := h
      have := ihl h1; have := ihr h2
      simp only [T.nodes, List.length_append, List.length_cons]; omega
    | black =>
      obtain ⟨m, rfl, h1, h2⟩ := h
      have := ihl h1; have := ihr h2
      simp only [T.nodes, List.length_append, List.length_cons, Nat.pow_succ]; omega

theorem RB_height {t : T K} {n : Nat} (h : RB t n) : t.height ≤ 2 * n + (if t.color = .red then 1 else 0) := by
  induction t generalizing n with
  | nil => simp [T.height]
  | node p c l k r ihl ihr =>
    cases c with
    | red =>
      obtain ⟨h3, h4, h1, h2⟩ := h
      have := ihl h1; have := ihr h2
      simp only [h3, h4, reduceCtorEq, if_false] at *
      simp only [T.height, T.color, if_true]; omega
    | black =>
      obtain ⟨m, rfl, h1, h2⟩ := h
      have := ihl h1; have := ihr h2
      simp only [T.height, T.color, reduceCtorEq, if_false]
      have hb : ∀ c : Color, (if c = .red then 1 else 0) ≤ 1 := by intro c; split <;> omega
      have := hb l.color; have := hb r.color
      omega

/-- The height is at most `2 * log2 (size + 1)`. -/
theorem Tree.height_le {H : Ptr → Option (TNode K)} {hdr o} {t : T K} (h : Tree H hdr o t) :
    t.height ≤ 2 * Nat.log2 (t.nodes.length + 1) := by
  obtain ⟨n, hr⟩ := h.rb
  have h1 := RB_size hr
  have h2 := RB_height hr
  rw [h.black] at h2
  simp only [reduceCtorEq, if_false] at h2
  have : n ≤ Nat.log2 (t.nodes.length + 1) := (Nat.le_log2 (by omega)).2 h1
  omega

end Nestl.RB
