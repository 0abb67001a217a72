import Verif.RBTree.RotAll
import Verif.Multi.Value
set_option autoImplicit false
/-
Ranges of values inserted into a tree: comparisons, rotations and passes.
-/
namespace Nestl.RB
variable {K : Type} {lt : K → K → Bool} {hdr pos x p z : Ptr} {v k : K} {w : W K} {t : T K} {o : Nat}

theorem insertUniqueRangeN_sim (vs : List K) : Sim (fun _ => True) (insertUniqueRangeN lt hdr vs) (insertUniqueRange lt hdr vs) fun _ => () := by
  unfold insertUniqueRangeN
  induction vs with
  | nil => exact .pure rfl
  | cons v vs ih =>
    unfold insertRangeByN insertUniqueRange
    exact .bind (g := Prod.fst) (insertByN_sim (.at hdr)) fun _ => .same fun _ => .ite (fun _ => .pure rfl) fun _ =>
      .last (P' := fun _ => True) (f' := fun _ => ()) ih (fun _ _ => trivial) fun _ => rfl

theorem insertEqualRangeN_sim (vs : List K) : Sim (fun _ => True) (insertEqualRangeN lt hdr vs) (insertEqualRange lt hdr vs) fun _ => () := by
  unfold insertEqualRangeN
  induction vs with
  | nil => exact .pure rfl
  | cons v vs ih =>
    unfold insertRangeByN insertEqualRange
    exact .bind (g := Prod.fst) (insertByN_sim (.equalAt hdr)) fun _ => .same fun _ => .ite (fun _ => .pure rfl) fun _ =>
      .last (P' := fun _ => True) (f' := fun _ => ()) ih (fun _ _ => trivial) fun _ => rfl

/-- The way of the range insertions: `end()` is the hint (`eq`: equivalent elements are kept). -/
def endWay (eq : Bool) (hdr : Ptr) : Way := if eq then .equalAt hdr else .at hdr

/-- The order in which `b` may follow `a` in a sorted range (`eq`: equivalent values may repeat). -/
def follows (lt : K → K → Bool) (eq : Bool) (a b : K) : Prop := if eq then lt b a = false else lt a b = true

theorem endHole {eq : Bool} (has : ∀ a, lt a k = true → lt k a = false) {A : List (Ptr × K)} {a : Ptr × K} (h0 : t.nodes = A ++ [a])
    (hf : follows lt eq a.2 k) : ∃ ctx, plug ctx .nil = t ∧ pre ctx = t.nodes ∧ post ctx = [] ∧ par hdr ctx = a.1 ∧ HoleSide lt k ctx .null := by
  have hlt : lt k a.2 = false := by
    cases eq
    · exact has _ hf
    · exact hf
  obtain ⟨ctx, e1, e2, e3⟩ := exists_hole (t := t) (A := A ++ [a]) (B := []) (by rw [h0]; simp)
  have hL := isL_false_of_post_nil e3 (by rw [e2]; simp)
  have hp := (isL_par_false (hdr := hdr) hL).1
  rw [e2] at hp
  simp only [lastP_append_cons, lastP_nil] at hp
  exact ⟨ctx, e1, by rw [e2, h0], e3, hp, holeSide_right hL e2 hlt⟩

theorem nil_of_nodes (h : t.nodes = []) : t = .nil := by
  cases t with
  | nil => rfl
  | node => simp [T.nodes] at h

theorem wp_end_unique {Q : Ptr × Ptr → W K → Prop} (has : ∀ a, lt a k = true → lt k a = false) (h : Tree w.heap hdr o t)
    (hlast : ∀ A a, t.nodes = A ++ [a] → follows lt false a.2 k)
    (hQ : ∀ ctx x n, plug ctx .nil = t → HoleSide lt k ctx x → pre ctx = t.nodes → post ctx = [] → n ≤ 1 → Q (x, par hdr ctx) (w.addCmp n)) :
    wp (getInsertHintUniquePos lt hdr hdr k) w Q := by
  unfold getInsertHintUniquePos
  simp only [if_true, wp_bind, size]
  rw [wp_rd h.cell h.hdr_ne]
  simp only [hdCell, wp_pure]
  rcases List.eq_nil_or_concat t.nodes with h0 | ⟨A, a, h0⟩
  · simp only [h0, List.length_nil, Nat.lt_irrefl, if_false]
    obtain rfl := nil_of_nodes h0
    refine wp_unique_any h ⟨?_, ?_⟩
    · intro ctx x n hpl hside _ hn
      have := hole_nodes hpl
      rw [h0] at this
      have hpp := List.append_eq_nil_iff.1 this.symm
      exact hQ ctx x n hpl hside (by rw [hpp.1, h0]) hpp.2 hn
    · intro A p k' B n e
      rw [h0] at e
      exact absurd e.symm (by simp)
  · rw [List.concat_eq_append] at h0
    have hf := hlast A a h0
    have hlt : lt a.2 k = true := hf
    have hlen : 0 < t.nodes.length := by rw [h0]; simp
    simp only [hlen, if_true, wp_bind]
    rw [wp_rd h.cell h.hdr_ne]
    have hl : lastP hdr t.nodes = a.1 := by rw [h0]; simp
    simp only [hdCell, hl]
    rw [wp_keyOf_mem (A := A) (B := []) (k' := a.2) h h0]
    simp only [wp_cmp, wp_ite, wp_bind, hlt, if_true]
    rw [wp_rd (by exact h.cell) h.hdr_ne]
    simp only [hdCell, hl, wp_pure]
    obtain ⟨ctx, e1, e2, e3, hp, hside⟩ := endHole (hdr := hdr) has h0 hf
    rw [← hp]
    exact hQ ctx .null 1 e1 hside e2 e3 (by omega)

theorem wp_end_equal {Q : Ptr × Ptr → W K → Prop} (has : ∀ a, lt a k = true → lt k a = false) (h : Tree w.heap hdr o t)
    (hlast : ∀ A a, t.nodes = A ++ [a] → follows lt true a.2 k)
    (hQ : ∀ ctx x n, plug ctx .nil = t → HoleSide lt k ctx x → pre ctx = t.nodes → post ctx = [] → n ≤ 1 → Q (x, par hdr ctx) (w.addCmp n)) :
    wp (getInsertHintEqualPos lt hdr hdr k) w Q := by
  unfold getInsertHintEqualPos
  simp only [if_true, wp_bind, size]
  rw [wp_rd h.cell h.hdr_ne]
  simp only [hdCell, wp_pure]
  rcases List.eq_nil_or_concat t.nodes with h0 | ⟨A, a, h0⟩
  · simp only [h0, List.length_nil, Nat.lt_irrefl, if_false]
    obtain rfl := nil_of_nodes h0
    refine wp_getInsertEqualPos h ?_
    intro ctx n hpl hside _ hn
    have := hole_nodes hpl
    rw [h0] at this
    have hpp := List.append_eq_nil_iff.1 this.symm
    exact hQ ctx .null n hpl hside (by rw [hpp.1, h0]) hpp.2 (Nat.le_trans hn (Nat.zero_le 1))
  · rw [List.concat_eq_append] at h0
    have hf := hlast A a h0
    have hlt : lt k a.2 = false := hf
    have hlen : 0 < t.nodes.length := by rw [h0]; simp
    simp only [hlen, if_true, wp_bind]
    rw [wp_rd h.cell h.hdr_ne]
    have hl : lastP hdr t.nodes = a.1 := by rw [h0]; simp
    simp only [hdCell, hl]
    rw [wp_keyOf_mem (A := A) (B := []) (k' := a.2) h h0]
    simp only [wp_cmp, wp_ite, wp_bind, hlt, Bool.not_false, if_true]
    rw [wp_rd (by exact h.cell) h.hdr_ne]
    simp only [hdCell, hl, wp_pure]
    obtain ⟨ctx, e1, e2, e3, hp, hside⟩ := endHole (hdr := hdr) has h0 hf
    rw [← hp]
    exact hQ ctx .null 1 e1 hside e2 e3 (by omega)

/-- What one insertion at the end does. -/
def Appended (hdr : Ptr) (o : Nat) (t : T K) (k : K) (w w' : W K) : Prop :=
  ∃ t', Tree w'.heap hdr o t' ∧ w'.nCmp ≤ w.nCmp + 2 ∧
    ((w'.err ≠ none ∧ t'.nodes = t.nodes) ∨ (w'.err = none ∧ ∃ p, t'.nodes = t.nodes ++ [(p, k)]))

theorem wp_append_hole {ctx : Ctx K} {n : Nat} (h : Tree w.heap hdr o t) (herr : w.err = none) (hpl : plug ctx .nil = t)
    (hside : HoleSide lt k ctx x) (e1 : pre ctx = t.nodes) (e2 : post ctx = []) (hn : n ≤ 1) :
    wp (insert_ lt hdr x (par hdr ctx) k) (w.addCmp n) fun _ w' => Appended hdr o t k w w' := by
  refine wp_insert_side (w := w.addCmp n) (o := o) (by rw [hpl]; exact h) hside ?_
  intro m hm
  rw [World.addCmp_addCmp, finish_eq]
  refine wp_withNode (w := w.addCmp (n + m)) (b := 0) (C := fun A B _ => A = pre ctx ∧ B = post ctx) (t := t) (o := o) h herr ?_ ⟨?_, ?_⟩
  · intro w1 a c hT hz hv Q hk
    exact hk ctx 0 hpl (by omega) ⟨rfl, rfl⟩
  · intro w' e h1 h2 h3 h4 h5
    exact ⟨t, by rw [h3]; exact h, by simp at h5; omega, Or.inl ⟨by rw [h4]; simp, rfl⟩⟩
  · rintro w' a t' A B m' h1 h2 h3 h4 h5 h6 h7 h8 h9 ⟨rfl, rfl⟩ h11
    exact ⟨t', h7, by simp at h3; omega, Or.inr ⟨h5, _, by rw [h9, e1, e2]⟩⟩

theorem wp_append (eq : Bool) (has : ∀ a, lt a k = true → lt k a = false) (h : Tree w.heap hdr o t) (herr : w.err = none)
    (hlast : ∀ A a, t.nodes = A ++ [a] → follows lt eq a.2 k) :
    wp (insertBy lt hdr k (endWay eq hdr)) w fun _ w' => Appended hdr o t k w w' := by
  cases eq
  · simp only [endWay, insertBy, Bool.false_eq_true, if_false]
    unfold insertUniqueAt
    rw [wp_bind]
    refine wp_end_unique has h hlast ?_
    intro ctx x n hpl hside e1 e2 hn
    simp only [ne_eq, h.par_ne_null hpl, not_false_eq_true, if_true]
    exact wp_append_hole h herr hpl hside e1 e2 hn
  · simp only [endWay, insertBy, if_true]
    unfold insertEqualAt
    rw [wp_bind]
    refine wp_end_equal has h hlast ?_
    intro ctx x n hpl hside e1 e2 hn
    simp only [ne_eq, h.par_ne_null hpl, not_false_eq_true, if_true]
    exact wp_append_hole h herr hpl hside e1 e2 hn

/-- What one insertion with the hint `end()` does in any case: one element more at most. -/
theorem wp_endWay (eq : Bool) (has : ∀ a, lt a k = true → lt k a = false) (h : Tree w.heap hdr o t) (herr : w.err = none) :
    wp (insertBy lt hdr k (endWay eq hdr)) w fun _ w' => ∃ t', Tree w'.heap hdr o t' ∧ t'.nodes.length ≤ t.nodes.length + 1 ∧
      w'.nCmp ≤ w.nCmp + 2 * Nat.log2 (t.nodes.length + 1) + 5 := by
  have hh := h.height_le
  cases eq
  · refine wp_insertUniqueAt_any has h (Or.inl rfl) herr ⟨?_, ?_, ?_⟩
    · intro w' e _ _ hh _ hc
      exact ⟨t, by rw [hh]; exact h, by omega, by omega⟩
    · intro w' A p k' B _ _ _ _ hh _ hc
      exact ⟨t, by rw [hh]; exact h, by omega, by omega⟩
    · intro w' a t' A B _ _ hc _ _ ht' e1 e2 _ _
      exact ⟨t', ht', by rw [e1, e2]; simp; omega, by omega⟩
  · refine Multi.wp_insertEqualAt_any has h (Or.inl rfl) herr ⟨?_, ?_⟩
    · intro w' e _ _ hh _ hc
      exact ⟨t, by rw [hh]; exact h, by omega, by omega⟩
    · intro w' a t' A B c _ _ hc _ _ _ ht' e1 e2 _ _
      exact ⟨t', ht', by rw [e1, e2]; simp; omega, by omega⟩

end Nestl.RB
