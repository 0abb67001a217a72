import Verif.LinkedList.Merge
set_option autoImplicit false
/-
Pure facts about stable merging and the binary counter used by `nestl::list::sort`.
-/
namespace Nestl.LL
variable {V : Type} {lt : V → V → Bool}

/-- In order: no element is less than an earlier one. -/
def Ord (lt : V → V → Bool) (L : List (El V)) : Prop := L.Pairwise fun x y => lt y.v x.v = false

/-- The elements equivalent to `k`, in order. -/
def eqv (lt : V → V → Bool) (k : V) (e : El V) : Bool := !lt k e.v && !lt e.v k

/-- Same elements, equivalent elements in the same relative order (the latter for strict weak orderings). -/
structure SEq (lt : V → V → Bool) (X Y : List (El V)) : Prop where
  perm : X.Perm Y
  stable : SWO lt → ∀ k, X.filter (eqv lt k) = Y.filter (eqv lt k)

theorem SEq.refl (X : List (El V)) : SEq lt X X := ⟨List.Perm.refl _, fun _ _ => rfl⟩

theorem SEq.trans {X Y Z : List (El V)} (h : SEq lt X Y) (h' : SEq lt Y Z) : SEq lt X Z :=
  ⟨h.perm.trans h'.perm, fun hs k => (h.stable hs k).trans (h'.stable hs k)⟩

theorem SEq.append {X X' Y Y' : List (El V)} (h : SEq lt X X') (h' : SEq lt Y Y') : SEq lt (X ++ Y) (X' ++ Y') :=
  ⟨h.perm.append h'.perm, fun hs k => by rw [List.filter_append, List.filter_append, h.stable hs, h'.stable hs]⟩

theorem leE_trans (hs : SWO lt) : ∀ a b c : El V, leE lt a b = true → leE lt b c = true → leE lt a c = true := by
  intro a b c h1 h2
  simp only [leE, Bool.not_eq_true'] at *
  cases h : lt c.v a.v
  · rfl
  · rcases hs.cotrans _ b.v _ h with h3 | h3
    · rw [h2] at h3; cases h3
    · rw [h1] at h3; cases h3

theorem leE_total (hs : SWO lt) : ∀ a b : El V, (leE lt a b || leE lt b a) = true := by
  intro a b
  simp only [leE, Bool.or_eq_true, Bool.not_eq_true']
  cases h : lt b.v a.v
  · exact .inl rfl
  · exact .inr (hs.asymm h)

theorem ord_iff {L : List (El V)} : Ord lt L ↔ L.Pairwise fun x y => leE lt x y = true := by
  unfold Ord leE; simp

theorem Ord.merge (hs : SWO lt) {X Y : List (El V)} (hX : Ord lt X) (hY : Ord lt Y) :
    Ord lt (List.merge X Y (leE lt)) :=
  ord_iff.2 (List.pairwise_merge (leE_trans hs) (leE_total hs) _ _ (ord_iff.1 hX) (ord_iff.1 hY))

theorem filter_merge (hs : SWO lt) (k : V) {X : List (El V)} (hX : Ord lt X) (Y : List (El V)) :
    (List.merge X Y (leE lt)).filter (eqv lt k) = X.filter (eqv lt k) ++ Y.filter (eqv lt k) := by
  induction X generalizing Y with
  | nil => simp
  | cons x X ih =>
    induction Y with
    | nil => simp
    | cons y Y ih2 =>
      rw [List.cons_merge_cons]
      unfold Ord at hX
      rw [List.pairwise_cons] at hX
      split
      · next h =>
        rw [List.filter_cons, ih hX.2, List.filter_cons (x := x)]
        split <;> simp
      · next h =>
        rw [List.filter_cons, ih2]
        split
        · next hy =>
          have hlt : lt y.v x.v = true := by simpa [leE] using h
          have : (x :: X).filter (eqv lt k) = [] := by
            rw [List.filter_eq_nil_iff]
            intro z hz hzk
            simp only [eqv, Bool.and_eq_true, Bool.not_eq_true'] at hy hzk
            have hyz : lt y.v z.v = true := by
              rcases List.mem_cons.1 hz with rfl | hz
              · exact hlt
              · rcases hs.cotrans _ z.v _ hlt with h3 | h3
                · exact h3
                · rw [hX.1 z hz] at h3; cases h3
            rcases hs.cotrans _ k _ hyz with h3 | h3
            · rw [hy.2] at h3; cases h3
            · rw [hzk.1] at h3; cases h3
          rw [this]; simp only [List.nil_append]
          rw [List.filter_cons, if_pos hy]
        · next hy => rw [List.filter_cons (x := y), if_neg hy]

theorem SEq.merge {X Y : List (El V)} (hX : SWO lt → Ord lt X) : SEq lt (List.merge X Y (leE lt)) (X ++ Y) :=
  ⟨List.merge_perm_append _, fun hs k => by rw [filter_merge hs k (hX hs), List.filter_append]⟩

/-! ### The bins -/

/-- Replace bin `i`. -/
def setB (bins : Nat → List (El V)) (i : Nat) (l : List (El V)) : Nat → List (El V) := fun j => if j = i then l else bins j

@[simp] theorem setB_same (bins : Nat → List (El V)) (i l) : setB bins i l i = l := by simp [setB]
theorem setB_other (bins : Nat → List (El V)) {i j : Nat} (l) (h : j ≠ i) : setB bins i l j = bins j := by simp [setB, h]
theorem setB_self (bins : Nat → List (El V)) (i : Nat) : setB bins i (bins i) = bins := by
  funext j; unfold setB; split
  · next h => rw [h]
  · rfl
theorem setB_setB (bins : Nat → List (El V)) (i l l') : setB (setB bins i l) i l' = setB bins i l' := by
  funext j; unfold setB; split <;> rfl

/-- The contents of the first `n` bins, the latest elements last. -/
def cat (bins : Nat → List (El V)) : Nat → List (El V)
  | 0 => []
  | n + 1 => bins n ++ cat bins n

/-- Level-weighted size of the first `n` bins. -/
def phi (bins : Nat → List (El V)) : Nat → Nat
  | 0 => 0
  | n + 1 => n * (bins n).length + phi bins n

theorem cat_nil {bins : Nat → List (El V)} {n : Nat} (h : ∀ j < n, bins j = []) : cat bins n = [] := by
  induction n with
  | zero => rfl
  | succ n ih => rw [cat, h n (by omega), ih fun j hj => h j (by omega)]; rfl

theorem cat_congr {bins bins' : Nat → List (El V)} {n : Nat} (h : ∀ j < n, bins j = bins' j) : cat bins n = cat bins' n := by
  induction n with
  | zero => rfl
  | succ n ih => rw [cat, cat, h n (by omega), ih fun j hj => h j (by omega)]

theorem cat_setB {bins : Nat → List (El V)} {i n : Nat} (h : ∀ j < i, bins j = []) (hi : i < n) :
    ∃ H, ∀ l, cat (setB bins i l) n = H ++ l := by
  induction n with
  | zero => omega
  | succ n ih =>
    by_cases hin : i = n
    · subst hin
      refine ⟨[], fun l => ?_⟩
      rw [cat, setB_same, cat_nil]
      · simp
      · intro j hj; rw [setB_other _ _ (by omega), h j hj]
    · obtain ⟨H, hH⟩ := ih (by omega)
      refine ⟨bins n ++ H, fun l => ?_⟩
      rw [cat, setB_other _ _ (by omega), hH, List.append_assoc]

theorem phi_congr {bins bins' : Nat → List (El V)} {n : Nat} (h : ∀ j < n, bins j = bins' j) : phi bins n = phi bins' n := by
  induction n with
  | zero => rfl
  | succ n ih => rw [phi, phi, h n (by omega), ih fun j hj => h j (by omega)]

theorem phi_setB (bins : Nat → List (El V)) {i n : Nat} (hi : i < n) :
    ∃ R, ∀ l, phi (setB bins i l) n = R + i * l.length := by
  induction n with
  | zero => omega
  | succ n ih =>
    by_cases hin : i = n
    · subst hin
      refine ⟨phi bins i, fun l => ?_⟩
      rw [phi, setB_same, phi_congr (bins' := bins)]
      · omega
      · intro j hj; rw [setB_other _ _ (by omega)]
    · obtain ⟨R, hR⟩ := ih (by omega)
      refine ⟨n * (bins n).length + R, fun l => ?_⟩
      rw [phi, setB_other _ _ (by omega), hR]; omega

theorem phi_le (bins : Nat → List (El V)) (n : Nat) : phi bins (n + 1) ≤ n * (cat bins (n + 1)).length := by
  induction n with
  | zero => simp [phi]
  | succ n ih =>
    rw [phi, cat, List.length_append, Nat.mul_add]
    have : n * (cat bins (n + 1)).length ≤ (n + 1) * (cat bins (n + 1)).length := Nat.mul_le_mul_right _ (by omega)
    omega

theorem le_cat (bins : Nat → List (El V)) {i n : Nat} (hi : i < n) : (bins i).length ≤ (cat bins n).length := by
  induction n with
  | zero => omega
  | succ n ih =>
    rw [cat, List.length_append]
    by_cases h : i = n
    · subst h; omega
    · have := ih (by omega); omega

end Nestl.LL
