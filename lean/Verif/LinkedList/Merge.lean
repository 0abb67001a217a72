import Verif.LinkedList.Compose
set_option autoImplicit false
/-
Effect of `merge`, the three forms of `splice` and `operator==` of `nestl::list` on the abstract state.
-/
namespace Nestl.LL
variable {V : Type} {w : W V} {σ : Sg V} {s : Ptr} {ls : Lst V}

/-- The comparison used by a stable merge: `x` may precede `y` unless `y` is less than `x`. -/
def leE (lt : V → V → Bool) (x y : El V) : Bool := !lt y.v x.v

theorem Adv.addCmp (w : W V) (n : Nat) : Adv w (w.addCmp n) n :=
  ⟨rfl, Nat.le_refl _, Nat.le_refl _, Nat.le_refl _, by simp, by simp, fun _ h => .inl h⟩

theorem Inv.addCmp (h : Inv w σ) (n : Nat) : Inv (w.addCmp n) σ := ⟨h.st, h.sp⟩

theorem upd4 (σ : Sg V) {s t : Ptr} (hst : s ≠ t) {a b c d : Option (Lst V)} :
    upd (upd (upd (upd σ s a) t b) s c) t d = upd (upd σ s c) t d := by
  funext x; simp only [upd_apply]; grind

theorem wp_mergeLoop (lt : V → V → Bool) {t : Ptr} {A B D : List (El V)} {a b : Nat} (h : Inv w σ)
    (hs : σ s = some ⟨a, A ++ B⟩) (ht : σ t = some ⟨b, D⟩) (hst : s ≠ t) {Q : Ptr → W V → Prop}
    (hq : ∀ (w' : W V) (X D' : List (El V)), Adv w w' (B.length + D.length - 1) → w'.err = w.err → w'.sp = w.sp →
      X ++ D' = List.merge B D (leE lt) →
      Inv w' (upd (upd σ s (some ⟨a, A ++ X⟩)) t (some ⟨b, D'⟩)) → Q (posE t D') w') :
    wp (mergeLoop lt (posE s B) s (posE t D) t) w Q := by
  generalize hn : B.length + D.length = n
  induction n generalizing w σ A B D Q with
  | zero =>
    have hB : B = [] := List.length_eq_zero_iff.1 (by omega)
    subst hB
    rw [mergeLoop]; simp only [wp_bind]
    apply wp_itEq_true (h.st.on_hdr hs) rfl
    refine wp_if_pos rfl ?_
    have hD : D = [] := List.length_eq_zero_iff.1 (by omega)
    subst hD
    refine hq w [] [] (Adv.refl _ _) rfl rfl (by simp) ?_
    rw [upd_self σ s _ hs, upd_self σ t _ ht]; exact h
  | succ n ih =>
    rw [mergeLoop]; simp only [wp_bind]
    cases B with
    | nil =>
      apply wp_itEq_true (h.st.on_hdr hs) rfl
      refine wp_if_pos rfl ?_
      refine hq w [] D (Adv.refl _ _) rfl rfl (by simp) ?_
      rw [upd_self σ s _ hs, upd_self σ t _ ht]; exact h
    | cons x B =>
      apply wp_itEq_false (h.on_pos hs rfl) (h.st.on_hdr hs) (h.pos_ne_end hs (by simp))
      refine wp_if_neg (by simp) ?_
      simp only [wp_bind]
      cases D with
      | nil =>
        apply wp_itEq_true (h.st.on_hdr ht) rfl
        refine wp_if_pos rfl ?_
        refine hq w (x :: B) [] (Adv.refl _ _) rfl rfl (by simp) ?_
        rw [upd_self σ s _ hs, upd_self σ t _ ht]; exact h
      | cons y D =>
        apply wp_itEq_false (h.on_pos ht (A := []) rfl) (h.st.on_hdr ht) (h.pos_ne_end ht (by simp))
        refine wp_if_neg (by simp) ?_
        simp only [wp_bind]
        apply wp_deref h ht (e := y) (by simp)
        apply wp_deref h hs (e := x) (by simp)
        rw [wp_cmp]
        have hmg := List.cons_merge_cons (leE lt) x y B D
        have hadv0 := Adv.addCmp w 1
        have h0 := h.addCmp 1
        revert hadv0 h0
        generalize hw0 : w.addCmp 1 = w0
        intro hadv0 h0
        have he0 : w0.err = w.err := by rw [← hw0]; rfl
        have hsp0 : w0.sp = w.sp := by rw [← hw0]; rfl
        by_cases hc : lt y.v x.v = true
        · refine wp_if_pos hc ?_
          simp only [wp_bind]
          rw [if_neg (by simp [leE, hc])] at hmg
          apply wp_incr h0 ht (A := []) (e := y) (B := D) rfl
          apply wp_transfer2 h0 hs ht hst (A := A) (P := x :: B) (C := []) (m := y) (M := []) (D := D) rfl rfl
          intro w1 hadv1 he1 hsp1 hi1
          simp only [List.nil_append, List.cons_append] at hi1
          have hs1 : upd (upd σ s (some ⟨a, A ++ y :: x :: B⟩)) t (some ⟨b, D⟩) s =
              some ⟨a, (A ++ [y]) ++ x :: B⟩ := by
            rw [upd_other _ _ hst, upd_same]; simp
          apply ih hi1 hs1 (upd_same _ _ _)
          · intro w' X D' hadv he hsp hm hi
            refine hq w' (y :: X) D' ((hadv0.trans' hadv1 (Nat.le_refl _)).trans' hadv ?_) (by rw [he, he1, he0])
              (by rw [hsp, hsp1, hsp0]) ?_ ?_
            · simp only [List.length_cons] at hn ⊢; omega
            · rw [hmg, List.cons_append, hm]
            · rw [upd4 σ hst, List.append_assoc] at hi; exact hi
          · simp only [List.length_cons] at hn ⊢; omega
        · refine wp_if_neg hc ?_
          simp only [wp_bind]
          rw [if_pos (by simp [leE, hc])] at hmg
          apply wp_incr h0 hs (A := A) (e := x) (B := B) rfl
          apply ih h0 (A := A ++ [x]) (B := B) (D := y :: D) (by rw [hs]; simp) ht
          · intro w' X D' hadv he hsp hm hi
            refine hq w' (x :: X) D' (hadv0.trans' hadv ?_) (by rw [he, he0]) (by rw [hsp, hsp0]) ?_ ?_
            · simp only [List.length_cons] at hn ⊢; omega
            · rw [hmg, List.cons_append, hm]
            · simpa using hi
          · simp only [List.length_cons] at hn ⊢; omega

theorem wp_merge (lt : V → V → Bool) (h : Inv w σ) (hs : σ s = some ls) {t : Ptr} {l2 : Lst V} (ht : σ t = some l2)
    (hst : s ≠ t) {Q : Unit → W V → Prop}
    (hq : ∀ w' : W V, Adv w w' (ls.els.length + l2.els.length - 1) → w'.err = w.err → w'.sp = w.sp →
      Inv w' (upd (upd σ s (some ⟨ls.alloc, List.merge ls.els l2.els (leE lt)⟩)) t (some ⟨l2.alloc, []⟩)) → Q () w') :
    wp (merge lt s t) w Q := by
  unfold merge
  simp only [wp_bind, wp_assertM]
  refine ⟨by simp [hst], ?_⟩
  apply wp_begin h hs
  apply wp_end h hs
  apply wp_begin h ht
  apply wp_end h ht
  apply wp_mergeLoop lt h (A := []) (a := ls.alloc) (b := l2.alloc) hs ht hst
  intro w1 X D hadv he hsp hm hi
  simp only [List.nil_append] at hi
  have hs1 : upd (upd σ s (some ⟨ls.alloc, X⟩)) t (some ⟨l2.alloc, D⟩) s = some ⟨ls.alloc, X⟩ := by
    rw [upd_other _ _ hst, upd_same]
  have ht1 : upd (upd σ s (some ⟨ls.alloc, X⟩)) t (some ⟨l2.alloc, D⟩) t = some ⟨l2.alloc, D⟩ := upd_same _ _ _
  cases D with
  | nil =>
    apply wp_itEq_true (hi.st.on_hdr ht1) rfl
    refine wp_if_pos rfl (hq w1 hadv he hsp ?_)
    rw [← hm]; simpa using hi
  | cons d D =>
    apply wp_itEq_false (hi.on_pos ht1 (A := []) rfl) (hi.st.on_hdr ht1) (hi.pos_ne_end ht1 (by simp))
    refine wp_if_neg (by simp) ?_
    apply wp_transfer2 hi hs1 ht1 hst (A := X) (P := []) (C := []) (m := d) (M := D) (D := []) (by simp) (by simp)
    intro w2 hadv2 he2 hsp2 hi2
    refine hq w2 (hadv.trans' hadv2 (Nat.le_refl _)) (by rw [he2, he]) (by rw [hsp2, hsp]) ?_
    simp only [List.append_nil, List.nil_append, hm] at hi2
    rw [upd4 σ hst] at hi2
    exact hi2

/-! ### splice -/

theorem wp_spliceAll (h : Inv w σ) (hs : σ s = some ls) {t : Ptr} {lt : Lst V} (ht : σ t = some lt) (hst : s ≠ t)
    {A P : List (El V)} (hA : ls.els = A ++ P) {Q : Unit → W V → Prop}
    (hq : ∀ w' : W V, Adv w w' 0 → w'.err = w.err → w'.sp = w.sp →
      Inv w' (upd (upd σ s (some ⟨ls.alloc, A ++ (lt.els ++ P)⟩)) t (some ⟨lt.alloc, []⟩)) → Q () w') :
    wp (spliceAll (posE s P) t) w Q := by
  unfold spliceAll
  simp only [wp_bind]
  apply wp_empty h ht
  cases hl : lt.els with
  | nil =>
    refine wp_if_pos rfl (hq w (Adv.refl _ _) rfl rfl ?_)
    rw [hl, List.nil_append, upd_els_self hs hA, upd_els_self ht hl]; exact h
  | cons m M =>
    refine wp_if_neg (by simp) ?_
    simp only [wp_bind]
    apply wp_begin h ht
    apply wp_end h ht
    rw [hl, posE_cons]
    apply wp_transfer2 h hs ht hst (A := A) (P := P) (C := []) (m := m) (M := M) (D := []) hA (by simp [hl])
    rw [hl] at hq
    simpa using hq

/-- `splice(pos, other, it)`, two lists. -/
theorem wp_spliceOne2 (h : Inv w σ) (hs : σ s = some ls) {t : Ptr} {lt : Lst V} (ht : σ t = some lt) (hst : s ≠ t)
    {A P C D : List (El V)} {m : El V} (hA : ls.els = A ++ P) (hC : lt.els = C ++ m :: D) {Q : Unit → W V → Prop}
    (hq : ∀ w' : W V, Adv w w' 0 → w'.err = w.err → w'.sp = w.sp →
      Inv w' (upd (upd σ s (some ⟨ls.alloc, A ++ m :: P⟩)) t (some ⟨lt.alloc, C ++ D⟩)) → Q () w') :
    wp (spliceOne (posE s P) m.p) w Q := by
  have hC2 : lt.els = (C ++ [m]) ++ D := by simp [hC]
  have n1 := h.st.nodup2 hs ht hst
  rw [hA, hC] at n1
  simp only [ptrs_append, ptrs_cons] at n1
  have hne : posE s P ≠ m.p ∧ posE s P ≠ posE t D := by
    have := sep2 (s := s) (t := t) (m := m.p) (A := ptrs A) (P := ptrs P) (C := ptrs C) (M := []) (D := ptrs D)
      (by simpa using n1)
    exact ⟨this.1, this.2.1⟩
  unfold spliceOne
  simp only [wp_bind]
  apply wp_incr h ht hC
  apply wp_itEq_false (h.on_pos hs hA) (h.on_pos ht hC) hne.1
  refine wp_if_neg (by simp) ?_
  simp only [wp_bind]
  apply wp_itEq_false (h.on_pos hs hA) (h.on_pos ht hC2) hne.2
  refine wp_if_neg (by simp) ?_
  apply wp_transfer2 h hs ht hst (A := A) (P := P) (C := C) (m := m) (M := []) (D := D) hA (by simpa using hC)
  simpa using hq

/-- `splice(pos, other, it)` with `pos == it`. -/
theorem wp_spliceOne_self (h : Inv w σ) (hs : σ s = some ls) {A P : List (El V)} {m : El V} (hA : ls.els = A ++ m :: P)
    {Q : Unit → W V → Prop} (hq : Q () w) : wp (spliceOne m.p m.p) w Q := by
  unfold spliceOne
  simp only [wp_bind]
  apply wp_incr h hs hA
  apply wp_itEq_true (h.on_pos hs hA) rfl
  exact wp_if_pos rfl hq

/-- `splice(pos, other, it)` with `pos == std::next(it)`. -/
theorem wp_spliceOne_next (h : Inv w σ) (hs : σ s = some ls) {A P : List (El V)} {m : El V} (hA : ls.els = A ++ m :: P)
    {Q : Unit → W V → Prop} (hq : Q () w) : wp (spliceOne (posE s P) m.p) w Q := by
  have hA2 : ls.els = (A ++ [m]) ++ P := by simp [hA]
  unfold spliceOne
  simp only [wp_bind]
  apply wp_incr h hs hA
  apply wp_itEq_false (h.on_pos hs hA2) (h.on_pos hs hA) (Ne.symm (h.pos_ne hs hA))
  refine wp_if_neg (by simp) ?_
  simp only [wp_bind]
  apply wp_itEq_true (h.on_pos hs hA2) rfl
  exact wp_if_pos rfl hq

/-- `splice(pos, *this, it)` to a later position. -/
theorem wp_spliceOne_later (h : Inv w σ) (hs : σ s = some ls) {A Y P : List (El V)} {m y : El V}
    (hA : ls.els = A ++ (m :: y :: Y ++ P)) {Q : Unit → W V → Prop}
    (hq : ∀ w' : W V, Adv w w' 0 → w'.err = w.err → w'.sp = w.sp →
      Inv w' (upd σ s (some ⟨ls.alloc, A ++ (y :: Y ++ m :: P)⟩)) → Q () w') :
    wp (spliceOne (posE s P) m.p) w Q := by
  have hA1 : ls.els = A ++ m :: (y :: Y ++ P) := by simp [hA]
  have hA2 : ls.els = (A ++ m :: y :: Y) ++ P := by simp [hA]
  have hA3 : ls.els = (A ++ [m]) ++ (y :: Y ++ P) := by simp [hA]
  have n1 := h.st.ring_nodup hs
  rw [hA] at n1
  have hsep := sep1 (s := s) (x := m.p) (y := y.p) (A := ptrs A) (X := []) (Y := ptrs Y) (B := ptrs P)
    (by simpa using n1)
  unfold spliceOne
  simp only [wp_bind]
  apply wp_incr h hs hA1
  apply wp_itEq_false (h.on_pos hs hA2) (h.on_pos hs hA1) (Ne.symm hsep.2.1)
  refine wp_if_neg (by simp) ?_
  simp only [wp_bind]
  apply wp_itEq_false (h.on_pos hs hA2) (h.on_pos hs hA3) (Ne.symm hsep.2.2.1)
  refine wp_if_neg (by simp) ?_
  apply wp_transfer_later h hs (A := A) (X := []) (x := m) (y := y) (Y := Y) (B := P) (by simpa using hA)
  simpa using hq

/-- `splice(pos, *this, it)` to an earlier position. -/
theorem wp_spliceOne_earlier (h : Inv w σ) (hs : σ s = some ls) {A X P : List (El V)} {m x : El V}
    (hA : ls.els = A ++ (x :: X ++ m :: P)) {Q : Unit → W V → Prop}
    (hq : ∀ w' : W V, Adv w w' 0 → w'.err = w.err → w'.sp = w.sp →
      Inv w' (upd σ s (some ⟨ls.alloc, A ++ m :: (x :: X ++ P)⟩)) → Q () w') :
    wp (spliceOne x.p m.p) w Q := by
  have hA1 : ls.els = A ++ x :: (X ++ m :: P) := by simp [hA]
  have hA2 : ls.els = (A ++ x :: X) ++ m :: P := by simp [hA]
  have hA3 : ls.els = (A ++ x :: X ++ [m]) ++ P := by simp [hA]
  have n1 := h.st.ring_nodup hs
  rw [hA] at n1
  have hsep := sep1 (s := s) (x := x.p) (y := m.p) (A := ptrs A) (X := ptrs X) (Y := []) (B := ptrs P)
    (by simpa using n1)
  unfold spliceOne
  simp only [wp_bind]
  apply wp_incr h hs hA2
  apply wp_itEq_false (h.on_pos hs hA1) (h.on_pos hs hA2) hsep.1
  refine wp_if_neg (by simp) ?_
  simp only [wp_bind]
  apply wp_itEq_false (h.on_pos hs hA1) (h.on_pos hs hA3) hsep.2.1
  refine wp_if_neg (by simp) ?_
  apply wp_transfer_earlier h hs (A := A) (X := X) (x := x) (y := m) (Y := []) (B := P) (by simpa using hA)
  simpa using hq

/-- `splice(pos, other, first, last)`, two lists. -/
theorem wp_spliceRange2 (h : Inv w σ) (hs : σ s = some ls) {t : Ptr} {lt : Lst V} (ht : σ t = some lt) (hst : s ≠ t)
    {A P C M D : List (El V)} (hA : ls.els = A ++ P) (hC : lt.els = C ++ (M ++ D)) {Q : Unit → W V → Prop}
    (hq : ∀ w' : W V, Adv w w' 0 → w'.err = w.err → w'.sp = w.sp →
      Inv w' (upd (upd σ s (some ⟨ls.alloc, A ++ (M ++ P)⟩)) t (some ⟨lt.alloc, C ++ D⟩)) → Q () w') :
    wp (spliceRange (posE s P) (posE t (M ++ D)) (posE t D)) w Q := by
  unfold spliceRange
  simp only [wp_bind]
  cases M with
  | nil =>
    apply wp_itEq_true (h.on_pos ht hC) rfl
    refine wp_if_pos rfl (hq w (Adv.refl _ _) rfl rfl ?_)
    simp only [List.nil_append] at hC ⊢
    rw [upd_els_self hs hA, upd_els_self ht hC]; exact h
  | cons m M =>
    have hC2 : lt.els = (C ++ m :: M) ++ D := by simp [hC]
    have n1 := h.st.ring_nodup ht
    rw [hC2] at n1
    apply wp_itEq_false (h.on_pos ht hC) (h.on_pos ht hC2)
    · have f1 := firstP_mem t (ptrs D)
      intro heq
      have heq : m.p = firstP t (ptrs D) := heq
      rw [← heq] at f1
      simp only [ptrs_append, ptrs_cons] at n1
      grind
    refine wp_if_neg (by simp) ?_
    exact wp_transfer2 h hs ht hst hA hC hq

/-- `splice(pos, *this, first, last)` to a position after the range. -/
theorem wp_spliceRange_later (h : Inv w σ) (hs : σ s = some ls) {A M Y P : List (El V)} {y : El V}
    (hA : ls.els = A ++ (M ++ (y :: Y ++ P))) {Q : Unit → W V → Prop}
    (hq : ∀ w' : W V, Adv w w' 0 → w'.err = w.err → w'.sp = w.sp →
      Inv w' (upd σ s (some ⟨ls.alloc, A ++ (y :: Y ++ (M ++ P))⟩)) → Q () w') :
    wp (spliceRange (posE s P) (posE s (M ++ (y :: Y ++ P))) y.p) w Q := by
  unfold spliceRange
  simp only [wp_bind]
  cases M with
  | nil =>
    apply wp_itEq_true (h.on_pos hs hA) rfl
    refine wp_if_pos rfl (hq w (Adv.refl _ _) rfl rfl ?_)
    simp only [List.nil_append] at hA ⊢
    rw [upd_els_self hs hA]; exact h
  | cons m M =>
    have hA3 : ls.els = (A ++ m :: M) ++ (y :: Y ++ P) := by simp [hA]
    have n1 := h.st.ring_nodup hs
    rw [hA] at n1
    have hsep := sep1 (s := s) (x := m.p) (y := y.p) (A := ptrs A) (X := ptrs M) (Y := ptrs Y) (B := ptrs P)
      (by simpa using n1)
    apply wp_itEq_false (h.on_pos hs hA) (h.on_pos hs hA3) hsep.1
    refine wp_if_neg (by simp) ?_
    exact wp_transfer_later h hs hA hq

/-- `splice(pos, *this, first, last)` to a position before the range. -/
theorem wp_spliceRange_earlier (h : Inv w σ) (hs : σ s = some ls) {A X M P : List (El V)} {x : El V}
    (hA : ls.els = A ++ (x :: X ++ (M ++ P))) {Q : Unit → W V → Prop}
    (hq : ∀ w' : W V, Adv w w' 0 → w'.err = w.err → w'.sp = w.sp →
      Inv w' (upd σ s (some ⟨ls.alloc, A ++ (M ++ (x :: X ++ P))⟩)) → Q () w') :
    wp (spliceRange x.p (posE s (M ++ P)) (posE s P)) w Q := by
  unfold spliceRange
  simp only [wp_bind]
  have hA2 : ls.els = (A ++ x :: X) ++ (M ++ P) := by simp [hA]
  have hA3 : ls.els = (A ++ x :: X ++ M) ++ P := by simp [hA]
  cases M with
  | nil =>
    apply wp_itEq_true (h.on_pos hs hA2) rfl
    refine wp_if_pos rfl (hq w (Adv.refl _ _) rfl rfl ?_)
    simp only [List.nil_append] at hA ⊢
    rw [upd_els_self hs hA]; exact h
  | cons m M =>
    have n1 := h.st.ring_nodup hs
    rw [hA] at n1
    have hsep := sep1 (s := s) (x := x.p) (y := m.p) (A := ptrs A) (X := ptrs X) (Y := ptrs M) (B := ptrs P)
      (by simpa using n1)
    apply wp_itEq_false (h.on_pos hs hA2) (h.on_pos hs hA3) hsep.2.2.1
    refine wp_if_neg (by simp) ?_
    exact wp_transfer_earlier h hs hA hq

theorem wp_spliceRange_nil (h : Inv w σ) (hs : σ s = some ls) {A P : List (El V)} (hA : ls.els = A ++ P) (pos : Ptr)
    {Q : Unit → W V → Prop} (hq : Q () w) : wp (spliceRange pos (posE s P) (posE s P)) w Q := by
  unfold spliceRange
  simp only [wp_bind]
  refine wp_itEq_true (h.on_pos hs hA) rfl ?_
  exact wp_if_pos rfl hq

/-! ### operator== -/

/-- Pointwise comparison of two sequences of the same length. -/
def allEq (eq : V → V → Bool) : List V → List V → Bool
  | [], [] => true
  | x :: l, y :: m => eq x y && allEq eq l m
  | _, _ => false

theorem wp_eqLoop (eq : V → V → Bool) (h : Inv w σ) (hs : σ s = some ls) {t : Ptr} {lt : Lst V} (ht : σ t = some lt)
    {A B C D : List (El V)} (hA : ls.els = A ++ B) (hC : lt.els = C ++ D) (hl : B.length = D.length)
    {Q : Bool → W V → Prop} (hq : Q (allEq eq (B.map El.v) (D.map El.v)) w) :
    wp (eqLoop eq (posE s B) s (posE t D)) w Q := by
  induction B generalizing A C D with
  | nil =>
    rw [eqLoop]; simp only [wp_bind]
    cases D with
    | cons d D => simp at hl
    | nil =>
      apply wp_itEq_true (h.st.on_hdr hs) rfl
      exact wp_if_pos rfl (by simpa [allEq] using hq)
  | cons x B ih =>
    cases D with
    | nil => simp at hl
    | cons y D =>
      rw [eqLoop]; simp only [wp_bind]
      apply wp_itEq_false (h.on_pos hs hA) (h.st.on_hdr hs) (h.pos_ne_end hs (by simp [hA]))
      refine wp_if_neg (by simp) ?_
      simp only [wp_bind]
      apply wp_deref h hs (e := x) (by simp [hA])
      apply wp_deref h ht (e := y) (by simp [hC])
      cases hc : eq x.v y.v with
      | false =>
        refine wp_if_pos (by simp) ?_
        simpa [allEq, hc] using hq
      | true =>
        refine wp_if_neg (by simp) ?_
        simp only [wp_bind]
        apply wp_incr h hs hA
        apply wp_incr h ht hC
        apply ih (A := A ++ [x]) (C := C ++ [y]) (by simp [hA]) (by simp [hC]) (by simpa using hl)
        simpa [allEq, hc] using hq

theorem allEq_length (eq : V → V → Bool) : ∀ {l m : List V}, allEq eq l m = true → l.length = m.length
  | [], [], _ => rfl
  | x :: l, y :: m, h => by simp [allEq] at h; simp [allEq_length eq h.2]
  | [], y :: m, h => by simp [allEq] at h
  | x :: l, [], h => by simp [allEq] at h

theorem wp_equal (eq : V → V → Bool) (h : Inv w σ) (hs : σ s = some ls) {t : Ptr} {lt : Lst V} (ht : σ t = some lt)
    {Q : Bool → W V → Prop} (hq : Q (allEq eq (ls.els.map El.v) (lt.els.map El.v)) w) :
    wp (equal eq s t) w Q := by
  unfold equal
  simp only [wp_bind]
  apply wp_size h hs
  apply wp_size h ht
  by_cases hl : ls.els.length = lt.els.length
  · refine wp_if_neg (by simpa using hl) ?_
    simp only [wp_bind]
    apply wp_begin h hs
    apply wp_end h hs
    apply wp_begin h ht
    exact wp_eqLoop eq h hs ht (A := []) (C := []) rfl rfl hl hq
  · refine wp_if_pos hl ?_
    have : allEq eq (ls.els.map El.v) (lt.els.map El.v) = false := by
      apply Bool.eq_false_iff.2
      intro hc; exact hl (by simpa using allEq_length eq hc)
    rw [this] at hq; exact hq

end Nestl.LL
