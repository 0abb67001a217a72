import Verif.LinkedList.Ops2
set_option autoImplicit false
/-
Effect of insertion and removal of single elements on the abstract state.
-/
namespace Nestl.LL
variable {V : Type} {w : W V} {σ : Sg V} {s : Ptr} {ls : Lst V}

theorem wp_createNode {v : V} {o : Nat} {vv : Option V} (hsn : s ≠ .null) (hs : dat w.heap s = some (vv, o))
    (he : w.err = none) {Q : Ptr → W V → Prop}
    (hfail : ∀ w' : W V, Adv w w' 0 → w'.heap = w.heap → w'.sp = w.sp → w'.err.isSome → Refused w → Q .null w')
    (hok : ∀ (w' : W V) (a : Nat) (c : LNode V), Adv w w' 0 → w.heap (.dyn a) = none →
      w'.heap = upd w.heap (.dyn a) (some c) → c.val = some v → c.owner = o → w'.sp = w.sp → w'.err = none →
      w.nAlloc < w'.nAlloc → ¬ Refused w → Q (.dyn a) w') :
    wp (createNode s v) w Q := by
  obtain ⟨ch, hch, -, ho⟩ := dat_cell hs
  unfold createNode
  simp only [wp_bind]
  rw [wp_rd hch hsn]
  apply wp_allocCell
  · intro hr
    rw [wp_hasErr]
    refine wp_if_pos rfl ?_
    rw [wp_pure]
    refine hfail _ ?_ rfl rfl rfl (.inl hr)
    exact ⟨rfl, Nat.le_refl _, Nat.le_succ _, Nat.le_refl _, Nat.le_refl _, Nat.le_refl _, fun a ha => .inl ha⟩
  · intro a ha hadr
    have hsa : s ≠ .dyn a := by rintro rfl; rw [hch] at ha; cases ha
    generalize hw1 : ({ w with nAlloc := w.nAlloc + 1, heap := _ } : W V) = w1
    have hw1h : w1.heap = upd w.heap (.dyn a) (some { w.env.junk w.nAlloc with val := none, owner := ch.owner }) := by
      rw [← hw1]
    have hw1e : w1.err = none := by rw [← hw1]; exact he
    have hadv1 : Adv w w1 0 := by
      rw [← hw1]
      refine ⟨rfl, Nat.le_refl _, Nat.le_succ _, Nat.le_refl _, Nat.le_refl _, Nat.le_refl _, fun b hb => ?_⟩
      by_cases hab : b = a
      · subst hab; exact .inr ⟨ha, _, b, rfl, Nat.le_refl _, Nat.lt_succ_self _, hadr⟩
      · left; simpa [upd_other _ _ (show Ptr.dyn b ≠ .dyn a by simpa using hab)] using hb
    simp only [wp_hasErr, hw1e]
    refine wp_if_neg (by simp) ?_
    simp only [wp_bind]
    apply wp_tryCtor
    · intro hct
      refine wp_if_pos rfl ?_
      simp only [wp_bind]
      rw [wp_rd (c := { w.env.junk w.nAlloc with val := none, owner := ch.owner })
        (by simp only; rw [hw1h]; exact upd_same _ _ _) (by simp)]
      simp only [wp_bind]
      rw [wp_modCell (c := { w.env.junk w.nAlloc with val := none, owner := ch.owner })
        (by simp only; rw [hw1h]; exact upd_same _ _ _) (by simp)]
      simp only [wp_hasErr, World.setHeap_err, hw1e]
      refine wp_if_neg (by simp) ?_
      rw [wp_pure]
      refine hok _ a { w.env.junk w.nAlloc with val := some v, owner := ch.owner } ?_ ha ?_ rfl ho ?_ ?_ ?_ ?_
      · refine hadv1.trans' (j := 0) (k := 0) ?_ (Nat.le_refl _)
        refine ⟨rfl, Nat.le_refl _, Nat.le_refl _, Nat.le_succ _, Nat.le_refl _, Nat.le_refl _, fun b hb => .inl ?_⟩
        simp only [World.setHeap_heap] at hb
        by_cases hab : b = a
        · subst hab; rw [hw1h]; simp
        · rw [upd_other _ _ (by simpa using hab)] at hb; exact hb
      · simp only [World.setHeap_heap]; rw [hw1h]; simp
      · rw [← hw1]; rfl
      · rfl
      · rw [← hw1]; exact Nat.lt_succ_self _
      · rintro (h1 | h1)
        · exact h1 a hadr ha
        · rw [← hw1] at hct; rw [h1] at hct; cases hct
    · intro hct
      refine wp_if_neg (by simp) ?_
      simp only [wp_bind]
      rw [wp_hasErr]
      refine wp_if_pos rfl ?_
      simp only [wp_bind]
      apply wp_putNode hsn (vv := vv) (o := o)
      · simp only; rw [hw1h, dat_upd, upd_other _ _ hsa]; exact hs
      · simp only; rw [hw1h, dat_upd, upd_same]; simp [ho]
      rw [wp_pure]
      have hh : upd w1.heap (.dyn a) none = w.heap := by rw [hw1h, upd_upd]; exact upd_self _ _ _ ha
      apply hfail
      · refine hadv1.trans' (j := 0) (k := 0) ?_ (Nat.le_refl _)
        refine ⟨rfl, Nat.le_refl _, Nat.le_refl _, Nat.le_succ _, Nat.le_refl _, Nat.le_refl _, fun b hb => .inl ?_⟩
        simp only [World.setHeap_heap] at hb
        by_cases hab : b = a
        · subst hab; simp at hb
        · rw [upd_other _ _ (by simpa using hab)] at hb; exact hb
      · exact hh
      · rw [← hw1]; rfl
      · rfl
      · right; rw [← hw1] at hct; exact hct

/-- A new element. -/
theorem St.addEl {H H' : Heap V} (h : St H σ) (hs : σ s = some ls) {A B : List (El V)} (hA : ls.els = A ++ B)
    {n : El V} (hdyn : ∃ a, n.p = .dyn a) (hnone : H n.p = none)
    (hd : dat H' = upd (dat H) n.p (some (some n.v, n.own)))
    (l1 : Lk H' (lastP s (ptrs A)) n.p) (l2 : Lk H' n.p (posE s B))
    (fr : ∀ x y, Lk H x y → y ≠ posE s B → Lk H' x y) : St H' (upd σ s (some ⟨ls.alloc, A ++ n :: B⟩)) := by
  have e1 : ptrs ls.els = ptrs A ++ ptrs B := by simp [hA]
  have hnm := h.not_mem_of hnone hs
  have hns : ∀ t lt, σ t = some lt → t ≠ n.p := by
    intro t lt ht htn
    obtain ⟨i, hi⟩ := (h.hdr t lt ht).1
    obtain ⟨a, ha⟩ := hdyn
    rw [htn, ha] at hi; cases hi
  have key : ∀ t lt, upd σ s (some ⟨ls.alloc, A ++ n :: B⟩) t = some lt →
      (t = s ∧ lt = ⟨ls.alloc, A ++ n :: B⟩) ∨ (t ≠ s ∧ σ t = some lt) := by
    intro t lt ht
    by_cases hts : t = s
    · subst hts; rw [upd_same] at ht; cases ht; exact .inl ⟨rfl, rfl⟩
    · rw [upd_other _ _ hts] at ht; exact .inr ⟨hts, ht⟩
  have hel : ∀ t lt, σ t = some lt → ∀ e ∈ lt.els, (∃ a, e.p = .dyn a) ∧ dat H' e.p = some (some e.v, e.own) := by
    intro t lt ht e he
    rw [hd, upd_other]
    · exact h.el t lt ht e he
    · intro h2; exact h.not_mem_of hnone ht (h2 ▸ mem_ptrs_of he)
  refine ⟨?_, ?_, ?_, ?_, ?_, ?_⟩
  · intro t lt ht
    rw [hd]
    rcases key t lt ht with ⟨rfl, rfl⟩ | ⟨h1, h2⟩
    · rw [upd_other _ _ (hns _ _ hs)]; exact h.hdr _ ls hs
    · rw [upd_other _ _ (hns _ _ h2)]; exact h.hdr t lt h2
  · intro t lt ht
    rcases key t lt ht with ⟨rfl, rfl⟩ | ⟨h1, h2⟩
    · have hr := h.ring _ ls hs
      have hn := h.ring_nodup hs
      rw [e1] at hr hn
      rw [Ring.split] at hr
      simp only [ptrs_append, ptrs_cons]
      rw [← List.singleton_append, ← List.append_assoc, List.append_assoc, Ring.split3 (M := [])]
      have hsep : ∀ z, z ∈ ptrs A ∨ z ∈ tailP t (ptrs B) → z ≠ posE t B := by
        have k1 := fun y => @tail_facts t y (ptrs B) (by grind)
        have f1 := firstP_mem t (ptrs B)
        unfold posE
        generalize firstP t (ptrs B) = pos at *
        generalize tailP t (ptrs B) = T1 at *
        simp only [List.nodup_cons, List.nodup_append, List.mem_append, not_or] at hn
        rintro z (h1 | h1)
        · grind
        · exact (k1 z h1).2
      exact ⟨hr.1.frame fun a b hab hb => fr a b hab (hsep b (.inl hb)), l1, trivial, l2,
        hr.2.2.frame fun a b hab hb => fr a b hab (hsep b (.inr hb))⟩
    · apply h.ring_other h2
      intro a b hab hb
      have d1 := h.other hs h2 h1 hb
      rw [e1] at d1
      refine fr _ _ hab ?_
      rintro rfl; rcases firstP_mem s (ptrs B) with h3 | h3
      · exact d1.1 h3
      · exact d1.2 (List.mem_append_right _ h3)
  · intro t lt ht e he
    rcases key t lt ht with ⟨rfl, rfl⟩ | ⟨h1, h2⟩
    · simp only [List.mem_append, List.mem_cons] at he
      by_cases hen : e = n
      · subst hen; rw [hd, upd_same]; exact ⟨hdyn, rfl⟩
      · apply hel _ ls hs e; rw [hA, List.mem_append]
        rcases he with h1 | h1 | h1
        · exact .inl h1
        · exact absurd h1 hen
        · exact .inr h1
    · exact hel t lt h2 e he
  · intro t lt ht
    rcases key t lt ht with ⟨rfl, rfl⟩ | ⟨h1, h2⟩
    · have hn := h.nodup _ ls hs
      rw [e1] at hn hnm
      simp only [ptrs_append, ptrs_cons]
      grind
    · exact h.nodup t lt h2
  · have aux : ∀ t lt, σ t = some lt → t ≠ s → ∀ p ∈ ptrs lt.els, p ∉ ptrs (A ++ n :: B) := by
      intro t lt ht hts p hp hp2
      have h1 := h.disj t s lt ls ht hs hts p hp
      rw [e1] at h1
      simp only [ptrs_append, ptrs_cons, List.mem_append, List.mem_cons] at hp2 h1
      rcases hp2 with h2 | h2 | h2
      · exact h1 (.inl h2)
      · subst h2; exact h.not_mem_of hnone ht hp
      · exact h1 (.inr h2)
    intro t u lt lu ht hu hne p hp hp2
    rcases key t lt ht with ⟨rfl, rfl⟩ | ⟨h1, h2⟩ <;> rcases key u lu hu with ⟨rfl, rfl⟩ | ⟨g1, g2⟩
    · exact hne rfl
    · exact aux u lu g2 g1 p hp2 hp
    · exact aux t lt h2 h1 p hp hp2
    · exact h.disj t u lt lu h2 g2 hne p hp hp2
  · intro q hq
    by_cases hqn : q = n.p
    · right; exact ⟨s, _, upd_same _ _ _, by simp [hqn]⟩
    · rw [hd, upd_other _ _ hqn] at hq
      rcases h.cover q hq with h1 | ⟨t, lt, ht, h1⟩
      · left; rw [upd_apply]; split
        · simp
        · exact h1
      · right
        by_cases hts : t = s
        · subst hts; rw [hs] at ht; cases ht
          refine ⟨t, _, upd_same _ _ _, ?_⟩
          rw [e1] at h1; simp only [ptrs_append, ptrs_cons, List.mem_append, List.mem_cons] at h1 ⊢
          rcases h1 with h1 | h1
          · exact .inl h1
          · exact .inr (.inr h1)
        · exact ⟨t, lt, by rw [upd_other _ _ hts]; exact ht, h1⟩

theorem wp_emplace (h : Inv w σ) (hs : σ s = some ls) {A B : List (El V)} (hA : ls.els = A ++ B) {v : V}
    (he : w.err = none) {Q : Ptr → W V → Prop}
    (hfail : ∀ w' : W V, Adv w w' 0 → w'.sp = w.sp → w'.err.isSome → Refused w → Inv w' σ → w'.heap = w.heap → Q s w')
    (hok : ∀ (w' : W V) (n : Ptr), Adv w w' 0 → w'.sp = w.sp → w'.err = none → ¬ Refused w → w.heap n = none →
      Inv w' (upd σ s (some ⟨ls.alloc, A ++ ⟨n, v, ls.alloc⟩ :: B⟩)) → Q n w') :
    wp (emplace s (posE s B) v) w Q := by
  unfold emplace
  simp only [wp_bind]
  apply wp_createNode (h.st.null_ne hs) (h.st.hdr s ls hs).2 he
  · intro w' hadv hh hsp herr href
    have hi : Inv w' σ := ⟨by rw [hh]; exact h.st, fun i hi => by rw [hsp]; rw [hh] at hi; exact h.sp i hi⟩
    simp only [wp_hasErr, herr]
    refine wp_if_pos trivial ?_
    exact wp_end hi hs (hfail w' hadv hsp herr href hi hh)
  · intro w1 a c hadv hnone hh hcv hco hsp herr _ href
    simp only [wp_hasErr, herr]
    refine wp_if_neg (by simp) ?_
    simp only [wp_bind]
    have hd1 : dat w1.heap (.dyn a) = some (some v, ls.alloc) := by rw [hh, dat_upd, upd_same]; simp [hcv, hco]
    apply wp_initEmpty (p := .dyn a) hd1 (by simp)
    intro H2 n2 p2 d2
    rw [hh] at n2 p2 d2
    rw [nxt_upd (by simp), upd_upd] at n2
    rw [prv_upd (by simp), upd_upd] at p2
    rw [dat_upd] at d2
    simp only [Option.map_some, hcv, hco] at d2
    have fr2 : ∀ x y, Lk w.heap x y → Lk H2 x y := by
      intro x y hxy
      obtain ⟨h1, h2⟩ := hxy.of_none hnone
      unfold Lk; rw [n2, p2, upd_other _ _ h1, upd_other _ _ h2]; exact hxy
    have hon : ∀ x, On w.heap x → On H2 x := fun x ⟨a, b, h1, h2⟩ => ⟨a, b, fr2 _ _ h1, fr2 _ _ h2⟩
    have hnn : Lk H2 (.dyn a) (.dyn a) := by unfold Lk; rw [n2, p2]; simp
    have hpos := hon _ (h.on_pos hs hA)
    have hlk := fr2 _ _ (h.link hs hA)
    have hnp : Ptr.dyn a ≠ posE s B := ((h.link hs hA).of_none hnone).2.symm
    apply wp_checkNode hpos
    apply wp_inject hnn hlk hpos hnp
    intro H3 l1 l2 fr3 d3
    simp only [World.setHeap_heap] at d3 fr3
    rw [d2] at d3
    simp only [World.setHeap_setHeap]
    have hst : St H3 (upd σ s (some ⟨ls.alloc, A ++ ⟨.dyn a, v, ls.alloc⟩ :: B⟩)) :=
      h.st.addEl hs hA (n := ⟨.dyn a, v, ls.alloc⟩) ⟨a, rfl⟩ hnone d3 l1 l2
        (fun x y hxy hy => fr3 x y (fr2 x y hxy) (hxy.of_none hnone).2 hy)
    have hstk : ∀ i, H3 (.stk i) ≠ none → w.heap (.stk i) ≠ none := by
      intro i hi; rw [Ne, ← dat_none, d3, upd_other _ _ (by simp), dat_none] at hi; exact hi
    have hinv : Inv (w1.setHeap H3) (upd σ s (some ⟨ls.alloc, A ++ ⟨.dyn a, v, ls.alloc⟩ :: B⟩)) :=
      ⟨hst, fun i hi => by rw [World.setHeap_sp, hsp]; exact h.sp i (hstk i hi)⟩
    apply wp_checkNode
    · exact hinv.on_pos (upd_same _ _ _) (A := A) (B := ⟨.dyn a, v, ls.alloc⟩ :: B) rfl
    rw [wp_pure]
    refine hok _ (.dyn a) ?_ hsp herr href hnone hinv
    refine hadv.trans' (j := 0) (k := 0) (Adv.setHeap fun b hb => ?_) (Nat.le_refl _)
    rw [Ne, ← dat_none, d3] at hb
    rw [hh]
    by_cases hab : b = a
    · subst hab; simp
    · rw [upd_other _ _ (by simpa using hab)] at hb ⊢
      rw [dat_none] at hb; exact hb

/-- Removal of an element. -/
theorem St.removeEl {H H' : Heap V} (h : St H σ) (hs : σ s = some ls) {A B : List (El V)} {e : El V}
    (hA : ls.els = A ++ e :: B) (hd : dat H' = upd (dat H) e.p none)
    (l1 : Lk H' (lastP s (ptrs A)) (posE s B))
    (fr : ∀ x y, Lk H x y → y ≠ posE s B → y ≠ e.p → Lk H' x y) :
    St H' (upd σ s (some ⟨ls.alloc, A ++ B⟩)) := by
  have e1 : ptrs ls.els = ptrs A ++ e.p :: ptrs B := by simp [hA]
  have hn := h.ring_nodup hs
  have hem : e ∈ ls.els := by simp [hA]
  rw [e1] at hn
  have key : ∀ t lt, upd σ s (some ⟨ls.alloc, A ++ B⟩) t = some lt →
      (t = s ∧ lt = ⟨ls.alloc, A ++ B⟩) ∨ (t ≠ s ∧ σ t = some lt) := by
    intro t lt ht
    by_cases hts : t = s
    · subst hts; rw [upd_same] at ht; cases ht; exact .inl ⟨rfl, rfl⟩
    · rw [upd_other _ _ hts] at ht; exact .inr ⟨hts, ht⟩
  have hsub : ∀ p, p ∈ ptrs (A ++ B) → p ∈ ptrs ls.els ∧ p ≠ e.p := by
    intro p hp
    rw [e1]; rw [ptrs_append] at hp
    simp only [List.nodup_cons, List.nodup_append, List.mem_append, List.mem_cons, not_or] at *
    constructor
    · rcases hp with hp | hp
      · exact .inl hp
      · exact .inr (.inr hp)
    · rintro rfl
      grind
  refine ⟨?_, ?_, ?_, ?_, ?_, ?_⟩
  · intro t lt ht
    rw [hd]
    rcases key t lt ht with ⟨rfl, rfl⟩ | ⟨h1, h2⟩
    · rw [upd_other _ _ (Ne.symm (h.hdr_ne hs hs hem))]; exact h.hdr _ ls hs
    · rw [upd_other _ _ (Ne.symm (h.hdr_ne h2 hs hem))]; exact h.hdr t lt h2
  · intro t lt ht
    rcases key t lt ht with ⟨rfl, rfl⟩ | ⟨h1, h2⟩
    · have hr := h.ring _ ls hs
      rw [e1] at hr
      rw [show ptrs A ++ e.p :: ptrs B = ptrs A ++ (e.p :: [] ++ ptrs B) by simp, Ring.split3] at hr
      simp only [ptrs_append]
      rw [Ring.split]
      have hsep : ∀ z, z ∈ ptrs A ∨ z ∈ tailP t (ptrs B) → z ≠ posE t B ∧ z ≠ e.p := by
        have k1 := fun y => @tail_facts t y (ptrs B) (by grind)
        have f1 := firstP_mem t (ptrs B)
        unfold posE
        generalize firstP t (ptrs B) = pos at *
        generalize tailP t (ptrs B) = T1 at *
        simp only [List.nodup_cons, List.nodup_append, List.mem_append, List.mem_cons, not_or] at hn
        rintro z (h1 | h1)
        · grind
        · have := k1 z h1; grind
      exact ⟨hr.1.frame fun a b hab hb => fr a b hab (hsep b (.inl hb)).1 (hsep b (.inl hb)).2, l1,
        hr.2.2.2.2.frame fun a b hab hb => fr a b hab (hsep b (.inr hb)).1 (hsep b (.inr hb)).2⟩
    · apply h.ring_other h2
      intro a b hab hb
      have d1 := h.other hs h2 h1 hb
      rw [e1] at d1
      refine fr _ _ hab ?_ ?_
      · rintro rfl; rcases firstP_mem s (ptrs B) with h3 | h3
        · exact d1.1 h3
        · exact d1.2 (List.mem_append_right _ (List.mem_cons_of_mem _ h3))
      · rintro rfl; exact d1.2 (by simp)
  · intro t lt ht f hf
    rw [hd]
    rcases key t lt ht with ⟨rfl, rfl⟩ | ⟨h1, h2⟩
    · have := hsub f.p (mem_ptrs_of hf)
      rw [upd_other _ _ this.2]
      apply h.el _ ls hs f
      rw [hA]; simp only [List.mem_append, List.mem_cons] at hf ⊢
      rcases hf with hf | hf
      · exact .inl hf
      · exact .inr (.inr hf)
    · rw [upd_other]
      · exact h.el t lt h2 f hf
      · intro h3; exact h.disj t s lt ls h2 hs h1 f.p (mem_ptrs_of hf) (h3 ▸ mem_ptrs_of hem)
  · intro t lt ht
    rcases key t lt ht with ⟨rfl, rfl⟩ | ⟨h1, h2⟩
    · have hn := h.nodup _ ls hs
      rw [e1] at hn
      simp only [ptrs_append]
      grind
    · exact h.nodup t lt h2
  · intro t u lt lu ht hu hne p hp hp2
    rcases key t lt ht with ⟨rfl, rfl⟩ | ⟨h1, h2⟩ <;> rcases key u lu hu with ⟨rfl, rfl⟩ | ⟨g1, g2⟩
    · exact hne rfl
    · exact h.disj _ u ls lu hs g2 hne p (hsub p hp).1 hp2
    · exact h.disj t _ lt ls h2 hs hne p hp (hsub p hp2).1
    · exact h.disj t u lt lu h2 g2 hne p hp hp2
  · intro q hq
    rw [hd] at hq
    by_cases hqe : q = e.p
    · subst hqe; simp at hq
    · rw [upd_other _ _ hqe] at hq
      rcases h.cover q hq with h1 | ⟨t, lt, ht, h1⟩
      · left; rw [upd_apply]; split
        · simp
        · exact h1
      · right
        by_cases hts : t = s
        · subst hts; rw [hs] at ht; cases ht
          refine ⟨t, _, upd_same _ _ _, ?_⟩
          rw [e1] at h1; simp only [ptrs_append, List.mem_append, List.mem_cons] at h1 ⊢
          rcases h1 with h1 | h1 | h1
          · exact .inl h1
          · exact absurd h1 hqe
          · exact .inr h1
        · exact ⟨t, lt, by rw [upd_other _ _ hts]; exact ht, h1⟩

theorem wp_erase (h : Inv w σ) (hs : σ s = some ls) {A B : List (El V)} {e : El V} (hA : ls.els = A ++ e :: B)
    (ho : e.own = ls.alloc) {Q : Ptr → W V → Prop}
    (hq : ∀ w' : W V, Adv w w' 0 → w'.err = w.err → w'.sp = w.sp → Inv w' (upd σ s (some ⟨ls.alloc, A ++ B⟩)) →
      (∀ q, w'.heap q ≠ none → w.heap q ≠ none) → w'.heap e.p = none → Q (posE s B) w') :
    wp (erase s e.p) w Q := by
  have hem : e ∈ ls.els := by simp [hA]
  have hA2 : ls.els = (A ++ [e]) ++ B := by simp [hA]
  have hl1 := h.link hs hA
  have hl2 := h.link hs hA2
  have o1 := h.on_pos hs hA
  have o2 := h.on_pos hs hA2
  simp only [ptrs_append, ptrs_cons, ptrs_nil, lastP_append, lastP] at hl2
  simp only [posE_cons] at hl1 o1
  obtain ⟨⟨a, ha⟩, hd⟩ := h.st.el s ls hs e hem
  have hse := h.st.hdr_ne hs hs hem
  have hon : On w.heap (lastP s (ptrs A)) := by
    rcases lastP_mem s (ptrs A) with h1 | h1
    · rw [h1]; exact h.st.on_hdr hs
    · exact (h.st.ring s ls hs).on (by rw [hA, ptrs_append]; simp [h1])
  have hne : lastP s (ptrs A) ≠ e.p := by
    have hn := h.st.ring_nodup hs
    rw [hA, ptrs_append] at hn
    apply lastP_ne (Ne.symm hse)
    simp only [ptrs_cons, List.nodup_cons, List.nodup_append, List.mem_cons] at hn
    intro hc; exact hn.2.2.2 _ hc _ (.inl rfl) rfl
  unfold erase
  simp only [wp_bind]
  apply wp_checkNode o1
  rw [wp_getNext hl2.1]
  apply wp_checkNode o2
  apply wp_removeNode hl1 hl2 hne hon o2
  intro H1 l1 fr d1
  apply wp_destroyVal (v := e.v) (o := e.own) (by rw [ha]; simp) (by simp only [World.setHeap_heap]; rw [d1]; exact hd)
  intro H2 n2 p2 d2 u2
  simp only [World.setHeap_heap] at n2 p2 d2 u2
  rw [ha]
  apply wp_putNode (h.st.null_ne hs) (vv := none) (o := ls.alloc)
  · simp only [World.setHeap_heap]; rw [d2, upd_other _ _ (Ne.symm hse), d1]; exact (h.st.hdr s ls hs).2
  · simp only [World.setHeap_heap]; rw [← ha, d2, upd_same, ho]
  simp only [World.setHeap_heap, World.setHeap_setHeap, wp_pure]
  rw [← ha]
  have hen : e.p ≠ .null := by rw [ha]; simp
  have hsub : ∀ q, upd H2 e.p none q ≠ none → w.heap q ≠ none := by
    intro q hq
    by_cases hqe : q = e.p
    · rw [hqe, upd_same] at hq; exact absurd rfl hq
    · rw [upd_other _ _ hqe, u2 q hqe] at hq; exact heap_of_dat d1 hq
  apply hq _ (Adv.setHeap fun b hb => hsub _ hb) rfl rfl _ hsub (upd_same _ _ _)
  apply h.setHeap _ fun i hi => hsub _ hi
  have hpe : posE s B ≠ e.p := Ne.symm (h.pos_ne hs hA)
  apply h.st.removeEl hs hA
  · rw [dat_upd, d2, d1]; simp
  · unfold Lk; rw [nxt_upd hen, prv_upd hen, n2, p2, upd_other _ _ hne, upd_other _ _ hpe]; exact l1
  · intro x y hxy h1 h2
    have hx : x ≠ e.p := by rintro rfl; exact h1 (hxy.inj_right hl2)
    unfold Lk; rw [nxt_upd hen, prv_upd hen, n2, p2, upd_other _ _ hx, upd_other _ _ h2]
    exact fr x y hxy h2 h1

end Nestl.LL
