import Verif.LinkedList.SortSpec
set_option autoImplicit false
/-
Effect of `nestl::list::sort` on the abstract state.
-/
namespace Nestl.LL
variable {V : Type} {w : W V} {σ σ0 : Sg V} {s : Ptr} {ls : Lst V} {lt : V → V → Bool}

/-- The local objects of `sort` are different objects. -/
structure Dist (s carry : Ptr) (tmp : List Ptr) : Prop where
  sc : s ≠ carry
  st : s ∉ tmp
  ct : carry ∉ tmp
  nd : tmp.Nodup
  len : tmp.length = 64

/-- Contents of the list `s`, of `carry` and of the array `tmp`; all other lists are as in `σ0`. -/
structure SortSt (σ0 : Sg V) (s : Ptr) (a : Nat) (carry : Ptr) (tmp : List Ptr) (rest cl : List (El V))
    (bins : Nat → List (El V)) (σ : Sg V) : Prop where
  hs : σ s = some ⟨a, rest⟩
  hc : σ carry = some ⟨defaultAlloc, cl⟩
  hb : ∀ (i : Nat) p, tmp[i]? = some p → σ p = some ⟨defaultAlloc, bins i⟩
  ho : ∀ x, x ≠ s → x ≠ carry → x ∉ tmp → σ x = σ0 x

section
variable {a : Nat} {carry : Ptr} {tmp : List Ptr} {rest cl : List (El V)} {bins : Nat → List (El V)}

theorem getElem?_inj {tmp : List Ptr} (hn : tmp.Nodup) {i j : Nat} {p : Ptr} (h1 : tmp[i]? = some p)
    (h2 : tmp[j]? = some p) : i = j := by
  obtain ⟨hi, e1⟩ := List.getElem?_eq_some_iff.1 h1
  obtain ⟨hj, e2⟩ := List.getElem?_eq_some_iff.1 h2
  exact (List.getElem?_inj hi hn).1 (h1.trans h2.symm)

theorem Dist.at (D : Dist s carry tmp) {i : Nat} (hi : i < 64) : ∃ p, tmp[i]? = some p ∧ p ∈ tmp ∧ p ≠ s ∧ p ≠ carry := by
  have h : i < tmp.length := by rw [D.len]; exact hi
  refine ⟨tmp[i], List.getElem?_eq_getElem h, List.getElem_mem h, ?_, ?_⟩
  · rintro he; exact D.st (he ▸ List.getElem_mem h)
  · rintro he; exact D.ct (he ▸ List.getElem_mem h)

theorem wp_arrAt {i : Nat} {p : Ptr} (h : tmp[i]? = some p) {Q : Ptr → W V → Prop} (hq : Q p w) :
    wp (arrAt tmp i) w Q := by
  unfold arrAt; rw [h]; exact hq

/-- Updating bin `i` and `carry`. -/
theorem SortSt.one (S : SortSt σ0 s a carry tmp rest cl bins σ) (D : Dist s carry tmp) {i : Nat} {p : Ptr}
    (hp : tmp[i]? = some p) (l c' : List (El V)) :
    SortSt σ0 s a carry tmp rest c' (setB bins i l)
      (upd (upd σ p (some ⟨defaultAlloc, l⟩)) carry (some ⟨defaultAlloc, c'⟩)) := by
  have hm := List.mem_of_getElem? hp
  have hpc : p ≠ carry := by rintro rfl; exact D.ct hm
  have hps : s ≠ p := by rintro rfl; exact D.st hm
  refine ⟨?_, upd_same _ _ _, ?_, ?_⟩
  · rw [upd_other _ _ D.sc, upd_other _ _ hps]; exact S.hs
  · intro j q hq
    have hm2 := List.mem_of_getElem? hq
    have hqc : q ≠ carry := by rintro rfl; exact D.ct hm2
    rw [upd_other _ _ hqc]
    by_cases hqp : q = p
    · subst hqp
      rw [getElem?_inj D.nd hq hp, upd_same, setB_same]
    · rw [upd_other _ _ hqp, setB_other _ _ (by rintro rfl; rw [hp] at hq; cases hq; exact hqp rfl)]
      exact S.hb j q hq
  · intro x h1 h2 h3
    rw [upd_other _ _ h2, upd_other _ _ (by rintro rfl; exact h3 hm)]
    exact S.ho x h1 h2 h3

/-- Updating two bins. -/
theorem SortSt.two (S : SortSt σ0 s a carry tmp rest cl bins σ) (D : Dist s carry tmp) {i j : Nat} {p q : Ptr}
    (hp : tmp[i]? = some p) (hq : tmp[j]? = some q) (l m : List (El V)) :
    SortSt σ0 s a carry tmp rest cl (setB (setB bins i l) j m)
      (upd (upd σ p (some ⟨defaultAlloc, l⟩)) q (some ⟨defaultAlloc, m⟩)) := by
  have hm := List.mem_of_getElem? hp
  have hmq := List.mem_of_getElem? hq
  have ne : ∀ {x}, x ∉ tmp → x ≠ p ∧ x ≠ q := fun hx => ⟨by rintro rfl; exact hx hm, by rintro rfl; exact hx hmq⟩
  refine ⟨?_, ?_, ?_, ?_⟩
  · rw [upd_other _ _ (ne D.st).2, upd_other _ _ (ne D.st).1]; exact S.hs
  · rw [upd_other _ _ (ne D.ct).2, upd_other _ _ (ne D.ct).1]; exact S.hc
  · intro k r hr
    by_cases h1 : r = q
    · subst h1; rw [getElem?_inj D.nd hr hq, upd_same, setB_same]
    · rw [upd_other _ _ h1, setB_other _ _ (by rintro rfl; rw [hq] at hr; cases hr; exact h1 rfl)]
      by_cases h2 : r = p
      · subst h2; rw [getElem?_inj D.nd hr hp, upd_same, setB_same]
      · rw [upd_other _ _ h2, setB_other _ _ (by rintro rfl; rw [hp] at hr; cases hr; exact h2 rfl)]
        exact S.hb k r hr
  · intro x h1 h2 h3
    rw [upd_other _ _ (ne h3).2, upd_other _ _ (ne h3).1]
    exact S.ho x h1 h2 h3

theorem wp_sortCarry (D : Dist s carry tmp) {fill i : Nat} {c : List (El V)} (h : Inv w σ)
    (S : SortSt σ0 s a carry tmp rest c bins σ) (hi : i ≤ fill) (hf : fill ≤ 64) (hz : ∀ j < i, bins j = [])
    (hc : c.length = 2 ^ i) (hb : ∀ j < fill, bins j = [] ∨ (bins j).length = 2 ^ j)
    (ho : SWO lt → Ord lt c ∧ ∀ j, Ord lt (bins j)) {Q : Nat → W V → Prop}
    (hq : ∀ (w' : W V) (i' : Nat) (c' : List (El V)) (bins' : Nat → List (El V)) (σ' : Sg V) (k : Nat),
      i ≤ i' → i' ≤ fill → Adv w w' k → w'.err = w.err → w'.sp = w.sp → Inv w' σ' →
      SortSt σ0 s a carry tmp rest c' bins' σ' → (∀ j < i', bins' j = []) → (∀ j, i' ≤ j → bins' j = bins j) →
      (i' < fill → bins i' = []) → c'.length = 2 ^ i' → SEq lt (cat bins' fill ++ c') (cat bins fill ++ c) →
      (SWO lt → Ord lt c' ∧ ∀ j, Ord lt (bins' j)) →
      k + (phi bins fill + i * c.length) ≤ phi bins' fill + i' * c'.length → Q i' w') :
    wp (sortCarry lt carry tmp fill i) w Q := by
  generalize hn : fill - i = n
  induction n generalizing w σ i c bins Q with
  | zero =>
    have : i = fill := by omega
    subst this
    rw [sortCarry]
    refine wp_if_neg (by simp) ?_
    exact hq w i c bins σ 0 (Nat.le_refl _) (Nat.le_refl _) (Adv.refl _ _) rfl rfl h S hz (fun _ _ => rfl) (fun h => by omega) hc
      (SEq.refl _) ho (by omega)
  | succ n ih =>
    rw [sortCarry]
    refine wp_if_pos (by omega) ?_
    simp only [wp_bind]
    obtain ⟨p, hp, hpm, hps, hpc⟩ := D.at (i := i) (by omega)
    apply wp_arrAt hp
    apply wp_empty h (S.hb i p hp)
    cases hbi : bins i with
    | nil =>
      refine wp_if_pos rfl ?_
      exact hq w i c bins σ 0 (Nat.le_refl _) hi (Adv.refl _ _) rfl rfl h S hz (fun _ _ => rfl) (fun _ => hbi) hc
        (SEq.refl _) ho (by omega)
    | cons x X =>
      refine wp_if_neg (by simp) ?_
      simp only [wp_bind]
      have hlen : (bins i).length = 2 ^ i := by
        rcases hb i (by omega) with h1 | h1
        · rw [hbi] at h1; cases h1
        · exact h1
      apply wp_merge lt h (S.hb i p hp) S.hc hpc
      intro w1 hadv1 he1 hsp1 hi1
      have S1 := S.one D hp (List.merge (bins i) c (leE lt)) []
      simp only at hi1 hadv1
      apply wp_swap hi1 S1.hc (S1.hb i p hp)
      intro w2 hadv2 he2 hsp2 hi2
      simp only [setB_same] at hi2
      rw [upd_comm _ _ _ hpc.symm] at hi2
      have S2 := S1.one D hp [] (List.merge (bins i) c (leE lt))
      rw [setB_setB] at S2
      have hlen2 : (List.merge (bins i) c (leE lt)).length = 2 ^ (i + 1) := by
        rw [List.length_merge, hlen, hc, Nat.pow_succ]; omega
      obtain ⟨H, hH⟩ := cat_setB (bins := bins) (n := fill) hz (by omega)
      have hcat : cat bins fill = H ++ bins i := by rw [← hH, setB_self]
      have hcat2 : cat (setB bins i []) fill = H := by rw [hH, List.append_nil]
      obtain ⟨R, hR⟩ := phi_setB bins (i := i) (n := fill) (by omega)
      have hphi : phi bins fill = R + i * (bins i).length := by rw [← hR, setB_self]
      have hphi2 : phi (setB bins i []) fill = R := by rw [hR]; simp
      apply ih hi2 S2
      · omega
      · intro j hj
        by_cases hji : j = i
        · rw [hji, setB_same]
        · rw [setB_other _ _ hji]; exact hz j (by omega)
      · exact hlen2
      · intro j hj
        by_cases hji : j = i
        · rw [hji, setB_same]; exact .inl rfl
        · rw [setB_other _ _ hji]; exact hb j hj
      · intro hs
        refine ⟨((ho hs).2 i).merge hs (ho hs).1, fun j => ?_⟩
        by_cases hji : j = i
        · rw [hji, setB_same]; exact List.Pairwise.nil
        · rw [setB_other _ _ hji]; exact (ho hs).2 j
      · intro w' i' c' bins' σ' k h0 h1 h2 h3 h4 h5 h6 h7 h8 h9 h10 h11 h12 h13
        refine hq w' i' c' bins' σ' (((bins i).length + c.length - 1) + k) (by omega) h1
          ((hadv1.trans' hadv2 (Nat.le_refl _)).trans h2) (by rw [h3, he2, he1]) (by rw [h4, hsp2, hsp1]) h5 h6 h7 ?_ ?_ h10 ?_
          h12 ?_
        · intro j hj
          rw [h8 j hj, setB_other _ _ (by omega)]
        · intro h
          rw [← h9 h, setB_other _ _ (by omega)]
        · refine h11.trans ?_
          rw [hcat2, hcat, List.append_assoc]
          exact (SEq.refl H).append (SEq.merge fun hs => (ho hs).2 i)
        · rw [hphi2, List.length_merge] at h13
          rw [hphi]
          have : (i + 1) * ((bins i).length + c.length) = i * (bins i).length + i * c.length + ((bins i).length + c.length) := by
            rw [Nat.add_mul, Nat.mul_add]; omega
          omega
      · omega

/-- The state of the binary counter after the elements `seen` have been consumed. -/
structure BInv (lt : V → V → Bool) (fill : Nat) (bins : Nat → List (El V)) (seen : List (El V)) : Prop where
  le : fill ≤ 64
  zero : ∀ j, fill ≤ j → bins j = []
  pow : ∀ j < fill, bins j = [] ∨ (bins j).length = 2 ^ j
  top : 0 < fill → bins (fill - 1) ≠ []
  seq : SEq lt (cat bins fill) seen
  ord : SWO lt → ∀ j, Ord lt (bins j)

/-- Updating `s` and `carry`. -/
theorem SortSt.take (S : SortSt σ0 s a carry tmp rest cl bins σ) (D : Dist s carry tmp) (r c' : List (El V)) :
    SortSt σ0 s a carry tmp r c' bins (upd (upd σ carry (some ⟨defaultAlloc, c'⟩)) s (some ⟨a, r⟩)) := by
  refine ⟨upd_same _ _ _, ?_, ?_, ?_⟩
  · rw [upd_other _ _ D.sc.symm, upd_same]
  · intro j q hq
    have hm := List.mem_of_getElem? hq
    rw [upd_other, upd_other]
    · exact S.hb j q hq
    · rintro rfl; exact D.ct hm
    · rintro rfl; exact D.st hm
  · intro x h1 h2 h3
    rw [upd_other _ _ h1, upd_other _ _ h2]; exact S.ho x h1 h2 h3

theorem wp_sortLoop (D : Dist s carry tmp) {fill : Nat} {seen : List (El V)} (h : Inv w σ)
    (S : SortSt σ0 s a carry tmp rest [] bins σ) (B : BInv lt fill bins seen) (hne : rest ≠ [])
    (hlen : (seen ++ rest).length < 2 ^ 64) {Q : Nat → W V → Prop}
    (hq : ∀ (w' : W V) (fill' : Nat) (bins' : Nat → List (El V)) (σ' : Sg V) (k : Nat),
      0 < fill' → Adv w w' k → w'.err = w.err → w'.sp = w.sp → Inv w' σ' → SortSt σ0 s a carry tmp [] [] bins' σ' →
      BInv lt fill' bins' (seen ++ rest) → k + phi bins fill ≤ phi bins' fill' → Q fill' w') :
    wp (sortLoop lt s carry tmp fill) w Q := by
  induction rest generalizing w σ bins fill seen Q with
  | nil => exact absurd rfl hne
  | cons e r ih =>
    rw [sortLoop]
    simp only [wp_bind]
    apply wp_begin h S.hc
    apply wp_begin h S.hs
    simp only [posE_cons]
    apply wp_spliceOne2 h S.hc S.hs D.sc.symm (A := []) (P := []) (C := []) (m := e) (D := r) rfl rfl
    intro w1 hadv1 he1 hsp1 hi1
    have S1 := S.take D r [e]
    apply wp_sortCarry D hi1 S1 (Nat.zero_le _) B.le (by intro j hj; omega) (by simp) B.pow
      (fun hs => ⟨List.pairwise_singleton _ _, B.ord hs⟩)
    intro w2 i c bins2 σ2 k _ hif hadv2 he2 hsp2 hi2 S2 hz hsame hnil hclen hseq hord hphi
    have hcpos : 0 < 2 ^ i := Nat.pow_pos (by omega)
    have hcne : c ≠ [] := by rintro rfl; simp at hclen; omega
    have hseen : SEq lt (cat bins2 fill ++ c) (seen ++ [e]) := hseq.trans (B.seq.append (SEq.refl _))
    have hi64 : i < 64 := by
      by_cases hlt : i < fill
      · have := B.le; omega
      · have h1 := hseen.perm.length_eq
        simp only [List.length_append, List.length_cons, List.length_nil] at h1 hlen
        have : 2 ^ i < 2 ^ 64 := by omega
        exact (Nat.pow_lt_pow_iff_right (by omega)).1 this
    have hbi : bins2 i = [] := by
      rw [hsame i (Nat.le_refl _)]
      by_cases hlt : i < fill
      · exact hnil hlt
      · exact B.zero i (by omega)
    obtain ⟨p, hp, hpm, hps, hpc⟩ := D.at hi64
    apply wp_arrAt hp
    apply wp_swap hi2 S2.hc (S2.hb i p hp)
    intro w3 hadv3 he3 hsp3 hi3
    simp only [hbi] at hi3
    rw [upd_comm _ _ _ hpc.symm] at hi3
    have S3 := S2.one D hp c []
    have hB : ∀ fill', fill' = (if i = fill then fill + 1 else fill) →
        BInv lt fill' (setB bins2 i c) (seen ++ [e]) ∧ k + phi bins fill ≤ phi (setB bins2 i c) fill' ∧ 0 < fill' := by
      rintro fill' rfl
      have key : cat (setB bins2 i c) (if i = fill then fill + 1 else fill) = cat bins2 fill ++ c ∧
          phi (setB bins2 i c) (if i = fill then fill + 1 else fill) = phi bins2 fill + i * c.length := by
        split
        · next hif =>
          subst hif
          have e1 : ∀ j < i, setB bins2 i c j = bins2 j := fun j hj => setB_other _ _ (by omega)
          rw [cat, phi, setB_same, cat_congr e1, phi_congr e1, cat_nil hz]
          simp; omega
        · next hif =>
          obtain ⟨H, hH⟩ := cat_setB (bins := bins2) (n := fill) hz (by omega)
          obtain ⟨R, hR⟩ := phi_setB bins2 (i := i) (n := fill) (by omega)
          have e1 : cat bins2 fill = H := by
            have := hH []; rw [← hbi, setB_self] at this; rw [this, hbi]; simp
          have e2 : phi bins2 fill = R := by
            have := hR []; rw [← hbi, setB_self] at this; rw [this, hbi]; simp
          rw [hH, hR, e1, e2]; exact ⟨rfl, rfl⟩
      refine ⟨⟨?_, ?_, ?_, ?_, ?_, ?_⟩, ?_, ?_⟩
      · have := B.le; split <;> omega
      · intro j hj
        have : j ≠ i ∧ fill ≤ j := by split at hj <;> omega
        rw [setB_other _ _ this.1, hsame j (by omega)]; exact B.zero j this.2
      · intro j hj
        by_cases hji : j = i
        · rw [hji, setB_same]; exact .inr hclen
        · rw [setB_other _ _ hji]
          by_cases hlt : j < i
          · exact .inl (hz j hlt)
          · rw [hsame j (by omega)]
            exact B.pow j (by split at hj <;> omega)
      · intro _
        split
        · next hif => subst hif; simpa using hcne
        · next hif =>
          by_cases h3 : i = fill - 1
          · rw [← h3, setB_same]; exact hcne
          · rw [setB_other _ _ (Ne.symm h3), hsame _ (by omega)]; exact B.top (by omega)
      · rw [key.1]; exact hseen
      · intro hs j
        by_cases hji : j = i
        · rw [hji, setB_same]; exact (hord hs).1
        · rw [setB_other _ _ hji]; exact (hord hs).2 j
      · rw [key.2]; omega
      · split <;> omega
    generalize hf' : (if i = fill then fill + 1 else fill) = fill' at *
    obtain ⟨B3, hphi3, hpos⟩ := hB fill' rfl
    have hadv : Adv w w3 k := (hadv1.trans' hadv2 (by omega)).trans' hadv3 (Nat.le_refl _)
    apply wp_empty hi3 S3.hs
    cases r with
    | nil =>
      refine wp_if_pos rfl ?_
      exact hq w3 fill' _ _ k hpos hadv (by rw [he3, he2, he1]) (by rw [hsp3, hsp2, hsp1]) hi3 S3 B3 hphi3
    | cons e2 r =>
      refine wp_if_neg (by simp) ?_
      apply ih hi3 S3 B3 (by simp) (by simpa using hlen)
      intro w4 fill4 bins4 σ4 k4 h1 h2 h3 h4 h5 h6 h7 h8
      refine hq w4 fill4 bins4 σ4 (k + k4) h1 (hadv.trans h2) (by rw [h3, he3, he2, he1])
        (by rw [h4, hsp3, hsp2, hsp1]) h5 h6 ?_ (by omega)
      simpa using h7

theorem wp_sortMerge (D : Dist s carry tmp) {fill i : Nat} (h : Inv w σ)
    (S : SortSt σ0 s a carry tmp rest cl bins σ) (h0 : 0 < i) (hi : i ≤ fill) (hf : fill ≤ 64)
    (hz : ∀ j, j + 1 < i → bins j = []) (ho : SWO lt → ∀ j, Ord lt (bins j)) {Q : Unit → W V → Prop}
    (hq : ∀ (w' : W V) (bins' : Nat → List (El V)) (σ' : Sg V),
      Adv w w' ((fill - i) * (cat bins fill).length) → w'.err = w.err → w'.sp = w.sp → Inv w' σ' →
      SortSt σ0 s a carry tmp rest cl bins' σ' → (∀ j, j + 1 < fill → bins' j = []) → (∀ j, fill ≤ j → bins' j = bins j) →
      SEq lt (bins' (fill - 1)) (cat bins fill) → (SWO lt → Ord lt (bins' (fill - 1))) → Q () w') :
    wp (sortMerge lt tmp fill i) w Q := by
  generalize hn : fill - i = n
  induction n generalizing w σ i bins Q with
  | zero =>
    have : i = fill := by omega
    subst this
    rw [sortMerge]
    refine wp_if_neg (by simp) ?_
    refine hq w bins σ (Adv.refl _ _) rfl rfl h S hz (fun _ _ => rfl) ?_ (fun hs => ho hs _)
    obtain ⟨m, rfl⟩ : ∃ m, i = m + 1 := ⟨i - 1, by omega⟩
    rw [cat, cat_nil fun j hj => hz j (by omega)]
    simp [SEq.refl]
  | succ n ih =>
    rw [sortMerge]
    refine wp_if_pos (by omega) ?_
    simp only [wp_bind]
    obtain ⟨m, rfl⟩ : ∃ m, i = m + 1 := ⟨i - 1, by omega⟩
    obtain ⟨p, hp, hpm, hps, hpc⟩ := D.at (i := m + 1) (by omega)
    obtain ⟨q, hq', hqm, hqs, hqc⟩ := D.at (i := m) (by omega)
    have hpq : p ≠ q := by rintro rfl; have := getElem?_inj D.nd hp hq'; omega
    apply wp_arrAt hp
    apply wp_arrAt hq'
    apply wp_merge lt h (S.hb _ p hp) (S.hb _ q hq') hpq
    intro w1 hadv1 he1 hsp1 hi1
    simp only at hi1 hadv1
    have S1 := S.two D hp hq' (List.merge (bins (m + 1)) (bins m) (leE lt)) []
    obtain ⟨H1, hH1⟩ := cat_setB (bins := bins) (i := m) (n := fill) (fun j hj => hz j (by omega)) (by omega)
    have hz1 : ∀ j < m + 1, setB bins m [] j = [] := by
      intro j hj
      by_cases hjm : j = m
      · rw [hjm, setB_same]
      · rw [setB_other _ _ hjm]; exact hz j (by omega)
    obtain ⟨H2, hH2⟩ := cat_setB (bins := setB bins m []) (i := m + 1) (n := fill) hz1 (by omega)
    have e1 : cat bins fill = H2 ++ (bins (m + 1) ++ bins m) := by
      have k1 := hH1 (bins m); rw [setB_self] at k1
      have k2 := hH1 []
      have k3 := hH2 (bins (m + 1))
      rw [show setB (setB bins m []) (m + 1) (bins (m + 1)) = setB bins m [] by
        rw [← setB_other bins [] (show m + 1 ≠ m by omega), setB_self]] at k3
      rw [k3, List.append_nil] at k2
      rw [k1, ← k2, List.append_assoc]
    have ecomm : setB (setB bins (m + 1) (List.merge (bins (m + 1)) (bins m) (leE lt))) m [] =
        setB (setB bins m []) (m + 1) (List.merge (bins (m + 1)) (bins m) (leE lt)) := by
      funext j; unfold setB; grind
    rw [ecomm] at S1
    have hseq : SEq lt (cat (setB (setB bins m []) (m + 1) (List.merge (bins (m + 1)) (bins m) (leE lt))) fill)
        (cat bins fill) := by
      rw [hH2, e1]; exact (SEq.refl H2).append (SEq.merge fun hs => ho hs _)
    have hlen := hseq.perm.length_eq
    have hle : (bins (m + 1)).length + (bins m).length - 1 ≤ (cat bins fill).length := by
      rw [e1]; simp only [List.length_append]; omega
    apply ih hi1 S1 (by omega) (by omega)
    · intro j hj
      rw [setB_other _ _ (by omega)]; exact hz1 j (by omega)
    · intro hs j
      unfold setB
      split
      · exact (ho hs _).merge hs (ho hs _)
      · split
        · exact List.Pairwise.nil
        · exact ho hs j
    · intro w2 bins2 σ2 h1 h2 h3 h4 h5 h6 h7 h8 h9
      rw [hlen] at h1
      refine hq w2 bins2 σ2 (hadv1.trans' h1 ?_) (by rw [h2, he1]) (by rw [h3, hsp1]) h4 h5 h6 ?_ (h8.trans hseq) h9
      · have : (fill - (m + 1)) * (cat bins fill).length =
            (fill - (m + 1 + 1)) * (cat bins fill).length + (cat bins fill).length := by
          rw [show fill - (m + 1) = (fill - (m + 1 + 1)) + 1 by omega, Nat.add_mul, Nat.one_mul]
        omega
      · intro j hj
        rw [h7 j hj, setB_other _ _ (by omega), setB_other _ _ (by omega)]
    · omega

end

theorem wp_newLists (h : Inv w σ) (n : Nat) {Q : List Ptr → W V → Prop}
    (hq : ∀ (w' : W V) (ps : List Ptr) (σ' : Sg V), Adv w w' 0 → w'.err = w.err → Inv w' σ' → ps.length = n →
      ps.Nodup → (∀ p ∈ ps, σ p = none ∧ σ' p = some ⟨defaultAlloc, []⟩) → (∀ x, x ∉ ps → σ' x = σ x) → Q ps w') :
    wp (newLists n) w Q := by
  induction n generalizing w σ Q with
  | zero => exact hq w [] σ (Adv.refl _ _) rfl h rfl List.nodup_nil (by simp) (fun _ _ => rfl)
  | succ n ih =>
    unfold newLists
    simp only [wp_bind]
    apply wp_newList h
    intro w1 hadv1 he1 _ hnone hi1
    generalize Ptr.stk w.sp = p at *
    apply ih hi1
    intro w2 ps σ2 hadv2 he2 hi2 hlen hnd hps hx
    have hpp : p ∉ ps := fun hm => by have := (hps p hm).1; rw [upd_same] at this; cases this
    rw [wp_pure]
    refine hq w2 (p :: ps) σ2 (hadv1.trans' hadv2 (Nat.le_refl _)) (he2.trans he1) hi2 (by simp [hlen])
      (List.nodup_cons.2 ⟨hpp, hnd⟩) ?_ ?_
    · intro q hq
      rcases List.mem_cons.1 hq with rfl | hq'
      · exact ⟨hnone, by rw [hx _ hpp, upd_same]⟩
      · have := hps q hq'
        rw [upd_other _ _ (by rintro rfl; exact hpp hq')] at this; exact this
    · intro x hxx
      rw [hx x (fun hm => hxx (List.mem_cons_of_mem _ hm)), upd_other _ _ (by rintro rfl; exact hxx (by simp))]

theorem wp_destroyLists {ps : List Ptr} (h : Inv w σ) (hnd : ps.Nodup)
    (hps : ∀ p ∈ ps, σ p = some ⟨defaultAlloc, []⟩) {Q : Unit → W V → Prop}
    (hq : ∀ (w' : W V) (σ' : Sg V), Adv w w' 0 → w'.err = w.err → Inv w' σ' →
      (∀ p ∈ ps, σ' p = none) → (∀ x, x ∉ ps → σ' x = σ x) → Q () w') :
    wp (destroyLists ps) w Q := by
  induction ps generalizing w σ Q with
  | nil => exact hq w σ (Adv.refl _ _) rfl h (by simp) (fun _ _ => rfl)
  | cons p ps ih =>
    unfold destroyLists
    simp only [wp_bind]
    rw [List.nodup_cons] at hnd
    apply ih h hnd.2 (fun q hq => hps q (List.mem_cons_of_mem _ hq))
    intro w1 σ1 hadv1 he1 hi1 h1 h2
    apply wp_destroyList hi1 (s := p) (ls := ⟨defaultAlloc, []⟩)
      (by rw [h2 p hnd.1]; exact hps p (by simp)) (by simp)
    intro w2 hadv2 he2 _ hi2 _
    refine hq w2 _ (hadv1.trans' hadv2 (Nat.le_refl _)) (he2.trans he1) hi2 ?_ ?_
    · intro q hq
      rw [upd_apply]; split
      · rfl
      · rcases List.mem_cons.1 hq with rfl | hq
        · contradiction
        · exact h1 q hq
    · intro x hx
      rw [upd_other _ _ (by rintro rfl; exact hx (by simp)), h2 x (fun hm => hx (List.mem_cons_of_mem _ hm))]

/-- `sort`: a stable sort, without allocation and with at most `2 n log2 n` comparisons. -/
theorem wp_sort (lt : V → V → Bool) (h : Inv w σ) (hs : σ s = some ls) (hlen : ls.els.length < 2 ^ 64)
    {Q : Unit → W V → Prop}
    (hq : ∀ (w' : W V) (L : List (El V)), Adv w w' (2 * ls.els.length * Nat.log2 ls.els.length) → w'.err = w.err →
      SEq lt L ls.els → (SWO lt → Ord lt L) → Inv w' (upd σ s (some ⟨ls.alloc, L⟩)) → Q () w') :
    wp (sort lt s) w Q := by
  have triv : (SWO lt → Ord lt ls.els) → Q () w := fun ho =>
    hq w ls.els (Adv.refl _ _) rfl (SEq.refl _) ho (by rw [upd_els_self hs rfl]; exact h)
  unfold sort
  simp only [wp_bind]
  have hl : Lk w.heap s (posE s ls.els) := h.link hs (A := []) rfl
  rw [wp_getNext hl.1]
  cases hc : ls.els with
  | nil =>
    refine wp_if_neg (by simp) (triv fun _ => ?_)
    rw [hc]; exact List.Pairwise.nil
  | cons x X =>
    refine wp_if_pos (by rw [posE_cons]; exact h.pos_ne_end hs (by simp [hc])) ?_
    simp only [wp_bind]
    rw [wp_getNext (a := posE s (x :: X)) (by rw [← hc]; exact hl.1)]
    have hl2 := h.link hs (A := [x]) (B := X) (by simp [hc])
    simp [lastP] at hl2
    rw [posE_cons, wp_getNext hl2.1]
    cases hX : X with
    | nil =>
      refine wp_if_neg (by simp) (triv fun _ => ?_)
      rw [hc, hX]; exact List.pairwise_singleton _ _
    | cons y Y =>
      refine wp_if_pos (by rw [posE_cons]; exact h.pos_ne_end hs (by simp [hc, hX])) ?_
      simp only [wp_bind]
      apply wp_newList h
      intro w1 hadv1 he1 _ hnone hi1
      generalize Ptr.stk w.sp = carry at *
      have hsc : s ≠ carry := by rintro rfl; rw [hnone] at hs; cases hs
      apply wp_newLists hi1
      intro w2 tmp σ2 hadv2 he2 hi2 hlen2 hnd htmp hoth
      have D : Dist s carry tmp := by
        refine ⟨hsc, ?_, ?_, hnd, hlen2⟩
        · intro hm; have := (htmp s hm).1; rw [upd_other _ _ hsc, hs] at this; cases this
        · intro hm; have := (htmp carry hm).1; rw [upd_same] at this; cases this
      have S2 : SortSt σ s ls.alloc carry tmp ls.els [] (fun _ => []) σ2 := by
        refine ⟨?_, ?_, ?_, ?_⟩
        · rw [hoth s D.st, upd_other _ _ hsc]; exact hs
        · rw [hoth _ D.ct, upd_same]
        · intro i p hp; exact (htmp p (List.mem_of_getElem? hp)).2
        · intro x h1 h2 h3; rw [hoth x h3, upd_other _ _ h2]
      have B2 : BInv lt 0 (fun _ => ([] : List (El V))) [] :=
        ⟨by omega, fun _ _ => rfl, fun _ _ => .inl rfl, fun h => by omega, SEq.refl _, fun _ _ => List.Pairwise.nil⟩
      apply wp_sortLoop D hi2 S2 B2 (by simp [hc]) (by simpa using hlen)
      intro w3 fill bins σ3 k hpos hadv3 he3 _ hi3 S3 B3 hphi
      simp only [List.nil_append] at B3
      have hn := B3.seq.perm.length_eq
      apply wp_sortMerge (lt := lt) D hi3 S3 (i := 1) (by omega) (by omega) B3.le (fun j hj => by omega) B3.ord
      intro w4 bins4 σ4 hadv4 he4 _ hi4 S4 hz4 hsame4 hseq4 hord4
      obtain ⟨p, hp, hpm, hps, hpc⟩ := D.at (i := fill - 1) (by have := B3.le; omega)
      apply wp_arrAt hp
      apply wp_swap hi4 S4.hs (S4.hb _ p hp)
      intro w5 hadv5 he5 _ hi5
      simp only at hi5
      generalize hσ5 : upd (upd σ4 s (some ⟨ls.alloc, bins4 (fill - 1)⟩)) p (some ⟨defaultAlloc, []⟩) = σ5 at hi5
      have hempty : ∀ q ∈ tmp, σ5 q = some ⟨defaultAlloc, []⟩ := by
        intro q hqm
        rw [← hσ5, upd_apply]
        split
        · rfl
        · next hqp =>
          obtain ⟨j, hj, hjq⟩ := List.mem_iff_getElem.1 hqm
          have hj' : tmp[j]? = some q := by rw [List.getElem?_eq_getElem hj, hjq]
          rw [upd_other _ _ (by rintro rfl; exact D.st hqm), S4.hb j q hj']
          have : j ≠ fill - 1 := by rintro rfl; rw [hp] at hj'; cases hj'; exact hqp rfl
          by_cases hjf : j + 1 < fill
          · rw [hz4 j hjf]
          · rw [hsame4 j (by omega), B3.zero j (by omega)]
      apply wp_destroyLists hi5 hnd hempty
      intro w6 σ6 hadv6 he6 hi6 hn6 ho6
      have hc6 : σ6 carry = some ⟨defaultAlloc, []⟩ := by
        rw [ho6 _ D.ct, ← hσ5, upd_other _ _ hpc.symm, upd_other _ _ hsc.symm]; exact S4.hc
      apply wp_destroyList hi6 hc6 (by simp)
      intro w7 hadv7 he7 _ hi7 _
      have hfin : upd σ6 carry none = upd σ s (some ⟨ls.alloc, bins4 (fill - 1)⟩) := by
        funext x
        by_cases h1 : x = carry
        · subst h1; rw [upd_same, upd_other _ _ hsc.symm, hnone]
        · rw [upd_other _ _ h1]
          by_cases h2 : x ∈ tmp
          · rw [hn6 x h2, upd_other]
            · have := (htmp x h2).1; rw [upd_other _ _ h1] at this; exact this.symm
            · rintro rfl; exact D.st h2
          · rw [ho6 x h2, ← hσ5, upd_other _ _ (by rintro rfl; exact h2 hpm)]
            by_cases h3 : x = s
            · subst h3; rw [upd_same, upd_same]
            · rw [upd_other _ _ h3, upd_other _ _ h3]; exact S4.ho x h3 h1 h2
      rw [hfin] at hi7
      refine hq w7 (bins4 (fill - 1)) ?_ (by rw [he7, he6, he5, he4, he3, he2, he1]) (hseq4.trans B3.seq) hord4 hi7
      have hlog : fill - 1 ≤ Nat.log2 ls.els.length := by
        rw [Nat.le_log2 (by simp [hc])]
        rcases B3.pow (fill - 1) (by omega) with h1 | h1
        · exact absurd h1 (B3.top hpos)
        · rw [← h1, ← hn]; exact le_cat _ (by omega)
      have c1 : Adv w w3 ((fill - 1) * ls.els.length) := by
        refine ((hadv1.trans' hadv2 (Nat.le_refl _)).trans' hadv3 (Nat.le_refl _)).mono ?_
        obtain ⟨m, rfl⟩ : ∃ m, fill = m + 1 := ⟨fill - 1, by omega⟩
        have := phi_le bins m
        rw [hn] at this
        simp only [Nat.add_sub_cancel]
        have e0 : phi (fun _ => ([] : List (El V))) 0 = 0 := rfl
        omega
      rw [hn] at hadv4
      have c2 : Adv w w4 (2 * ls.els.length * Nat.log2 ls.els.length) := by
        refine (c1.trans' hadv4 (Nat.le_refl _)).mono ?_
        have := Nat.mul_le_mul_right ls.els.length hlog
        have e : 2 * ls.els.length * Nat.log2 ls.els.length = Nat.log2 ls.els.length * ls.els.length +
            Nat.log2 ls.els.length * ls.els.length := by
          rw [Nat.mul_assoc, Nat.mul_comm ls.els.length, Nat.two_mul]
        omega
      exact ((c2.trans' hadv5 (Nat.le_refl _)).trans' hadv6 (Nat.le_refl _)).trans' hadv7 (Nat.le_refl _)

end Nestl.LL
