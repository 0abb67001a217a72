import Verif.LinkedList.Ops3
set_option autoImplicit false
/-
Effect of the composite `nestl::list` operations on the abstract state.
-/
namespace Nestl.LL
variable {V : Type} {w : W V} {σ : Sg V} {s : Ptr} {ls : Lst V}

/-- Effect of a loop inserting the values `vs` one by one: the first `k` of them were inserted, `N` are the new
elements; all of them were inserted if there was no error. -/
structure Added (w w' : W V) (vs : List V) (k : Nat) (a : Nat) (N : List (El V)) : Prop where
  len : N.length = k
  le : k ≤ vs.length
  fresh : ∀ e ∈ N, w.heap e.p = none
  own : ∀ e ∈ N, e.own = a
  ok : w'.err = none → k = vs.length
  fail : w'.err ≠ none → k < vs.length
  good : Good w → w'.err = none

theorem Inv.heap_el (h : Inv w σ) (hs : σ s = some ls) {e : El V} (he : e ∈ ls.els) : w.heap e.p ≠ none := by
  have := (h.st.el s ls hs e he).2
  obtain ⟨c, hc, -⟩ := dat_cell this
  rw [hc]; simp

theorem Inv.heap_mono' (h : Inv w σ) {w1 : W V} {σ1 : Sg V} (h1 : Inv w1 σ1)
    (hσ : ∀ t lt, σ t = some lt → σ1 t ≠ none)
    (hσ2 : ∀ t lt e, σ t = some lt → e ∈ lt.els → ∃ t' lt', σ1 t' = some lt' ∧ e ∈ lt'.els) (q : Ptr)
    (hq : w.heap q ≠ none) : w1.heap q ≠ none := by
  rw [Ne, ← dat_none] at hq ⊢
  rcases h.st.cover q hq with h2 | ⟨t, lt, ht, h2⟩
  · cases hs : σ q with
    | none => exact absurd hs h2
    | some lq =>
      cases h3 : σ1 q with
      | none => exact absurd h3 (hσ q lq hs)
      | some lq' => rw [(h1.st.hdr q lq' h3).2]; simp
  · obtain ⟨f, hf, rfl⟩ := mem_ptrs.1 h2
    obtain ⟨t', lt', h3, h4⟩ := hσ2 t lt f ht hf
    rw [(h1.st.el t' lt' h3 f h4).2]; simp

theorem Inv.heap_mono (h : Inv w σ) {w1 : W V} {σ1 : Sg V} (h1 : Inv w1 σ1)
    (hσ : ∀ t lt, σ t = some lt → ∃ lt', σ1 t = some lt' ∧ ∀ e ∈ lt.els, e ∈ lt'.els) (q : Ptr)
    (hq : w.heap q ≠ none) : w1.heap q ≠ none := by
  refine h.heap_mono' h1 (fun t lt ht => ?_) (fun t lt e ht he => ?_) q hq
  · obtain ⟨lt', h3, -⟩ := hσ t lt ht; rw [h3]; simp
  · obtain ⟨lt', h3, h4⟩ := hσ t lt ht; exact ⟨t, lt', h3, h4 e he⟩

theorem wp_insertRange (h : Inv w σ) (hs : σ s = some ls) {A B : List (El V)} (hA : ls.els = A ++ B) {vs : List V}
    (he : w.err = none) {Q : Unit → W V → Prop}
    (hq : ∀ (w' : W V) (k : Nat) (N : List (El V)), Adv w w' 0 → w'.sp = w.sp → Added w w' vs k ls.alloc N →
      N.map El.v = (vs.take k).reverse → Inv w' (upd σ s (some ⟨ls.alloc, A ++ (N ++ B)⟩)) → Q () w') :
    wp (insertRange s (posE s B) vs) w Q := by
  induction vs generalizing w σ ls B Q with
  | nil =>
    refine hq w 0 [] (Adv.refl _ _) rfl ⟨rfl, Nat.le_refl _, by simp, by simp, fun _ => rfl, fun h => absurd he h,
      fun _ => he⟩ rfl ?_
    have : upd σ s (some ⟨ls.alloc, A ++ ([] ++ B)⟩) = σ := by
      apply upd_self; rw [hs]; cases ls; simp at hA ⊢; exact hA
    rw [this]; exact h
  | cons v vs ih =>
    unfold insertRange
    simp only [wp_bind]
    apply wp_emplace h hs hA he
    · intro w' hadv hsp herr href hi hh
      simp only [wp_hasErr, herr]
      refine wp_if_pos trivial ?_
      refine hq w' 0 [] hadv hsp ⟨rfl, Nat.zero_le _, by simp, by simp, fun h => by simp [h] at herr,
        fun _ => Nat.succ_pos _, fun hg => absurd href hg.not_refused⟩ rfl ?_
      have : upd σ s (some ⟨ls.alloc, A ++ ([] ++ B)⟩) = σ := by
        apply upd_self; rw [hs]; cases ls; simp at hA ⊢; exact hA
      rw [this]; exact hi
    · intro w1 n hadv hsp herr href hn hi
      simp only [wp_hasErr, herr]
      refine wp_if_neg (by simp) ?_
      have hpos : n = posE s (⟨n, v, ls.alloc⟩ :: B) := rfl
      rw [hpos]
      apply ih hi (upd_same _ _ _) (ls := ⟨ls.alloc, A ++ ⟨n, v, ls.alloc⟩ :: B⟩) rfl herr
      intro w' k N hadv' hsp' hadd hv hi'
      rw [upd_upd] at hi'
      have hnN : ∀ e ∈ N, w.heap e.p = none := by
        intro e he
        have h1 := hadd.fresh e he
        apply Classical.byContradiction
        intro hc
        have hA' : ∀ (q : Ptr), w.heap q ≠ none → w1.heap q ≠ none := by
          apply h.heap_mono hi
          intro t lt ht
          by_cases hts : t = s
          · subst hts; rw [hs] at ht; cases ht
            refine ⟨_, upd_same _ _ _, fun f hf => ?_⟩
            rw [hA] at hf; simp only [List.mem_append, List.mem_cons] at hf ⊢
            rcases hf with hf | hf
            · exact .inl hf
            · exact .inr (.inr hf)
          · exact ⟨lt, by rw [upd_other _ _ hts]; exact ht, fun f hf => hf⟩
        exact hA' _ hc h1
      refine hq w' (k + 1) (N ++ [⟨n, v, ls.alloc⟩]) (hadv.trans' hadv' (Nat.le_refl _)) (hsp'.trans hsp) ?_ ?_ ?_
      · refine ⟨by simp [hadd.len], by simpa using hadd.le, ?_, ?_, ?_, ?_, ?_⟩
        · intro e he; rw [List.mem_append, List.mem_singleton] at he
          rcases he with he | rfl
          · exact hnN e he
          · exact hn
        · intro e he; rw [List.mem_append, List.mem_singleton] at he
          rcases he with he | rfl
          · exact hadd.own e he
          · rfl
        · intro h2; simp [hadd.ok h2]
        · intro h2; have := hadd.fail h2; simp; exact this
        · intro hg; exact hadd.good (hadv.good hg)
      · simp [hv]
      · have e1 : A ++ (N ++ [⟨n, v, ls.alloc⟩] ++ B) = A ++ (N ++ ⟨n, v, ls.alloc⟩ :: B) := by simp
        rw [e1]; exact hi'

theorem insertN_eq (pos : Ptr) (v : V) (n : Nat) : insertN s pos v n = insertRange s pos (List.replicate n v) := by
  induction n generalizing pos with
  | zero => rfl
  | succ n ih =>
    rw [List.replicate_succ]; unfold insertN insertRange
    congr 1; funext p; congr 1; funext b
    rw [ih]

theorem assignLoop_eq (v : V) (n : Nat) : assignLoop s v n = assignValsLoop s (List.replicate n v) := by
  induction n with
  | zero => rfl
  | succ n ih =>
    rw [List.replicate_succ]; unfold assignLoop assignValsLoop
    rw [ih]

theorem assignN_eq (v : V) (n : Nat) : assignN s n v = assignVals s (List.replicate n v) := by
  unfold assignN assignVals; simp only [assignLoop_eq]

/-! ### Single element operations -/

theorem wp_pushBack (h : Inv w σ) (hs : σ s = some ls) {v : V} (he : w.err = none) {Q : Unit → W V → Prop}
    (hfail : ∀ w' : W V, Adv w w' 0 → w'.sp = w.sp → w'.err.isSome → Refused w → Inv w' σ → w'.heap = w.heap →
      Q () w')
    (hok : ∀ (w' : W V) (n : Ptr), Adv w w' 0 → w'.sp = w.sp → w'.err = none → ¬ Refused w → w.heap n = none →
      Inv w' (upd σ s (some ⟨ls.alloc, ls.els ++ [⟨n, v, ls.alloc⟩]⟩)) → Q () w') :
    wp (pushBack s v) w Q := by
  unfold pushBack
  simp only [wp_bind, wp_pure]
  apply wp_end h hs
  exact wp_emplace h hs (A := ls.els) (B := []) (by simp) he hfail hok

theorem wp_pushFront (h : Inv w σ) (hs : σ s = some ls) {v : V} (he : w.err = none) {Q : Unit → W V → Prop}
    (hfail : ∀ w' : W V, Adv w w' 0 → w'.sp = w.sp → w'.err.isSome → Refused w → Inv w' σ → w'.heap = w.heap →
      Q () w')
    (hok : ∀ (w' : W V) (n : Ptr), Adv w w' 0 → w'.sp = w.sp → w'.err = none → ¬ Refused w → w.heap n = none →
      Inv w' (upd σ s (some ⟨ls.alloc, ⟨n, v, ls.alloc⟩ :: ls.els⟩)) → Q () w') :
    wp (pushFront s v) w Q := by
  unfold pushFront
  simp only [wp_bind, wp_pure]
  apply wp_begin h hs
  exact wp_emplace h hs (A := []) (B := ls.els) rfl he hfail hok

theorem wp_popBack (h : Inv w σ) (hs : σ s = some ls) {A : List (El V)} {e : El V} (hA : ls.els = A ++ [e])
    (ho : e.own = ls.alloc) {Q : Unit → W V → Prop}
    (hq : ∀ w' : W V, Adv w w' 0 → w'.err = w.err → w'.sp = w.sp → Inv w' (upd σ s (some ⟨ls.alloc, A⟩)) →
      (∀ q, w'.heap q ≠ none → w.heap q ≠ none) → w'.heap e.p = none → Q () w') :
    wp (popBack s) w Q := by
  unfold popBack
  simp only [wp_bind, wp_pure]
  have hl := h.link hs (A := ls.els) (B := []) (by simp)
  rw [hA] at hl
  simp only [ptrs_append, ptrs_cons, ptrs_nil, lastP_append, lastP, posE_nil] at hl
  rw [wp_getPrev hl.2]
  apply wp_checkNode (h.st.on_el hs (by simp [hA]))
  apply wp_erase h hs hA ho
  intro w' h1 h2 h3 h4 h5 h6
  rw [List.append_nil] at h4
  exact hq w' h1 h2 h3 h4 h5 h6

theorem wp_popFront (h : Inv w σ) (hs : σ s = some ls) {B : List (El V)} {e : El V} (hA : ls.els = e :: B)
    (ho : e.own = ls.alloc) {Q : Unit → W V → Prop}
    (hq : ∀ w' : W V, Adv w w' 0 → w'.err = w.err → w'.sp = w.sp → Inv w' (upd σ s (some ⟨ls.alloc, B⟩)) →
      (∀ q, w'.heap q ≠ none → w.heap q ≠ none) → w'.heap e.p = none → Q () w') :
    wp (popFront s) w Q := by
  unfold popFront
  simp only [wp_bind, wp_pure]
  apply wp_begin h hs
  rw [hA, posE_cons]
  exact wp_erase h hs (A := []) hA ho hq

/-! ### Assignment, copy, move -/

/-- Loops appending values: the values come from `next`. -/
theorem Added.cons {w w1 w' : W V} {v : V} {vs : List V} {k a : Nat} {N : List (El V)} {n : Ptr}
    (hadd : Added w1 w' vs k a N) (hn : w.heap n = none) (hadv : Adv w w1 0)
    (hmono : ∀ q, w.heap q ≠ none → w1.heap q ≠ none) : Added w w' (v :: vs) (k + 1) a (⟨n, v, a⟩ :: N) := by
  refine ⟨by simp [hadd.len], by simpa using hadd.le, ?_, ?_, ?_, ?_, ?_⟩
  · intro e he; rw [List.mem_cons] at he
    rcases he with rfl | he
    · exact hn
    · apply Classical.byContradiction; intro hc; exact hmono _ hc (hadd.fresh e he)
  · intro e he; rw [List.mem_cons] at he
    rcases he with rfl | he
    · rfl
    · exact hadd.own e he
  · intro h2; simp [hadd.ok h2]
  · intro h2; have := hadd.fail h2; simp; exact this
  · intro hg; exact hadd.good (hadv.good hg)

theorem Added.nil_ok {w : W V} {a : Nat} (he : w.err = none) : Added w w [] 0 a [] :=
  ⟨rfl, Nat.le_refl _, by simp, by simp, fun _ => rfl, fun h => absurd he h, fun _ => he⟩

theorem Added.failed {w w' : W V} {a : Nat} {v : V} {vs : List V} (he : w'.err.isSome) (hr : Refused w) :
    Added w w' (v :: vs) 0 a [] :=
  ⟨rfl, Nat.zero_le _, by simp, by simp, fun h => by simp [h] at he, fun _ => Nat.succ_pos _,
    fun hg => absurd hr hg.not_refused⟩

theorem upd_els_self {σ : Sg V} (hs : σ s = some ls) {l : List (El V)} (hl : ls.els = l) :
    upd σ s (some ⟨ls.alloc, l⟩) = σ := by
  apply upd_self; rw [hs, ← hl]

theorem wp_assignValsLoop (h : Inv w σ) (hs : σ s = some ls) {vs : List V} (he : w.err = none)
    {Q : Unit → W V → Prop}
    (hq : ∀ (w' : W V) (k : Nat) (N : List (El V)), Adv w w' 0 → w'.sp = w.sp → Added w w' vs k ls.alloc N →
      N.map El.v = vs.take k → Inv w' (upd σ s (some ⟨ls.alloc, ls.els ++ N⟩)) → Q () w') :
    wp (assignValsLoop s vs) w Q := by
  induction vs generalizing w σ ls Q with
  | nil =>
    refine hq w 0 [] (Adv.refl _ _) rfl (Added.nil_ok he) rfl ?_
    rw [upd_els_self hs (by simp)]; exact h
  | cons v vs ih =>
    unfold assignValsLoop
    simp only [wp_bind]
    apply wp_pushBack h hs he
    · intro w' hadv hsp herr href hi hh
      simp only [wp_hasErr, herr]
      refine wp_if_pos trivial ?_
      refine hq w' 0 [] hadv hsp (Added.failed herr href) rfl ?_
      rw [upd_els_self hs (by simp)]; exact hi
    · intro w1 n hadv hsp herr href hn hi
      simp only [wp_hasErr, herr]
      refine wp_if_neg (by simp) ?_
      apply ih hi (upd_same _ _ _) herr
      intro w' k N hadv' hsp' hadd hv hi'
      rw [upd_upd] at hi'
      refine hq w' (k + 1) (⟨n, v, ls.alloc⟩ :: N) (hadv.trans' hadv' (Nat.le_refl _)) (hsp'.trans hsp) ?_ ?_ ?_
      · refine hadd.cons hn hadv ?_
        apply h.heap_mono hi
        intro t lt ht
        by_cases hts : t = s
        · subst hts; rw [hs] at ht; cases ht
          exact ⟨_, upd_same _ _ _, fun f hf => List.mem_append_left _ hf⟩
        · exact ⟨lt, by rw [upd_other _ _ hts]; exact ht, fun f hf => hf⟩
      · simp [hv]
      · simpa using hi'

/-- The source of the values is (part of) another list. -/
theorem wp_assignItLoop (h : Inv w σ) (hs : σ s = some ls) {t : Ptr} {lt : Lst V} (ht : σ t = some lt) (hst : s ≠ t)
    {X M Y : List (El V)} (hX : lt.els = X ++ (M ++ Y)) (he : w.err = none)
    {Q : Unit → W V → Prop}
    (hq : ∀ (w' : W V) (k : Nat) (N : List (El V)), Adv w w' 0 → w'.sp = w.sp → Added w w' (M.map El.v) k ls.alloc N →
      N.map El.v = (M.map El.v).take k → Inv w' (upd σ s (some ⟨ls.alloc, ls.els ++ N⟩)) → Q () w') :
    wp (assignItLoop s (posE t (M ++ Y)) (posE t Y)) w Q := by
  induction M generalizing w σ ls X Q with
  | nil =>
    rw [assignItLoop]
    simp only [wp_bind]
    apply wp_itEq_true (h.on_pos ht hX) rfl
    refine wp_if_pos rfl ?_
    refine hq w 0 [] (Adv.refl _ _) rfl (Added.nil_ok he) rfl ?_
    rw [upd_els_self hs (by simp)]; exact h
  | cons e M ih =>
    rw [assignItLoop]
    simp only [wp_bind]
    have hX2 : lt.els = (X ++ e :: M) ++ Y := by simp [hX]
    have hne : posE t (e :: M ++ Y) ≠ posE t Y := by
      have hn := h.st.ring_nodup ht
      rw [hX, ptrs_append, ptrs_append] at hn
      simp only [List.cons_append, posE_cons]
      rcases firstP_mem t (ptrs Y) with h3 | h3
      · unfold posE; rw [h3]; exact h.pos_ne_end ht (by simp [hX])
      · intro h2; unfold posE at h2; rw [← h2] at h3
        simp only [ptrs_cons, List.nodup_cons, List.nodup_append, List.mem_cons] at hn
        exact hn.2.2.1.2.2 _ (.inl rfl) _ h3 rfl
    apply wp_itEq_false (h.on_pos ht hX) (h.on_pos ht hX2) hne
    refine wp_if_neg (by simp) ?_
    simp only [wp_bind, List.cons_append, posE_cons]
    apply wp_deref h ht (by simp [hX])
    apply wp_pushBack h hs he
    · intro w' hadv hsp herr href hi hh
      simp only [wp_hasErr, herr]
      refine wp_if_pos trivial ?_
      refine hq w' 0 [] hadv hsp (Added.failed herr href) rfl ?_
      rw [upd_els_self hs (by simp)]; exact hi
    · intro w1 n hadv hsp herr href hn hi
      simp only [wp_hasErr, herr]
      refine wp_if_neg (by simp) ?_
      simp only [wp_bind]
      have ht' : upd σ s (some ⟨ls.alloc, ls.els ++ [⟨n, e.v, ls.alloc⟩]⟩) t = some lt := by
        rw [upd_other _ _ (Ne.symm hst)]; exact ht
      apply wp_incr hi ht' (A := X) (B := M ++ Y) (by simp [hX])
      apply ih hi (upd_same _ _ _) ht' (X := X ++ [e]) (by simp [hX]) herr
      intro w' k N hadv' hsp' hadd hv hi'
      rw [upd_upd] at hi'
      refine hq w' (k + 1) (⟨n, e.v, ls.alloc⟩ :: N) (hadv.trans' hadv' (Nat.le_refl _)) (hsp'.trans hsp) ?_ ?_ ?_
      · refine hadd.cons hn hadv ?_
        apply h.heap_mono hi
        intro u lu hu
        by_cases hus : u = s
        · subst hus; rw [hs] at hu; cases hu
          exact ⟨_, upd_same _ _ _, fun f hf => List.mem_append_left _ hf⟩
        · exact ⟨lu, by rw [upd_other _ _ hus]; exact hu, fun f hf => hf⟩
      · simp [hv]
      · simpa using hi'

/-- `list tmp; tmp.swap(*this);` followed by the loop `body` and the destruction of `tmp`. -/
theorem wp_viaTmp (h : Inv w σ) (hs : σ s = some ls) (ho : ∀ e ∈ ls.els, e.own = defaultAlloc) {body : M (W V) Unit}
    {vs : List V} (he : w.err = none)
    (hbody : ∀ (w2 : W V) (tmp : Ptr) (Q2 : Unit → W V → Prop), σ tmp = none → tmp ≠ s → w2.err = none →
      Inv w2 (upd (upd σ tmp (some ⟨defaultAlloc, ls.els⟩)) s (some ⟨ls.alloc, []⟩)) →
      (∀ (w3 : W V) (k : Nat) (N : List (El V)), Adv w2 w3 0 → w3.sp = w2.sp → Added w2 w3 vs k ls.alloc N →
        N.map El.v = vs.take k →
        Inv w3 (upd (upd σ tmp (some ⟨defaultAlloc, ls.els⟩)) s (some ⟨ls.alloc, N⟩)) → Q2 () w3) →
      wp body w2 Q2)
    {Q : Unit → W V → Prop}
    (hq : ∀ (w' : W V) (k : Nat) (N : List (El V)), Adv w w' 0 → Added w w' vs k ls.alloc N →
      N.map El.v = vs.take k → Inv w' (upd σ s (some ⟨ls.alloc, N⟩)) → Q () w') :
    wp (do
      let tmp ← newList defaultAlloc
      swap tmp s
      body
      destroyList tmp) w Q := by
  simp only [wp_bind]
  apply wp_newList h
  intro w1 hadv1 herr1 hsp1 hnone hi1
  generalize hp : Ptr.stk w.sp = p at *
  have hps : p ≠ s := by rintro rfl; rw [hnone] at hs; cases hs
  unfold swap
  have hs1 : upd σ p (some ⟨defaultAlloc, []⟩) s = some ls := by rw [upd_other _ _ (Ne.symm hps)]; exact hs
  apply wp_swapNodes2 hi1 hs1 (upd_same _ _ _) (Ne.symm hps)
  intro w2 hadv2 herr2 hsp2 hi2
  simp only at hi2
  have e1 : upd (upd (upd σ p (some ⟨defaultAlloc, []⟩)) s (some ⟨ls.alloc, []⟩)) p (some ⟨defaultAlloc, ls.els⟩) =
      upd (upd σ p (some ⟨defaultAlloc, ls.els⟩)) s (some ⟨ls.alloc, []⟩) := by
    rw [upd_comm _ _ _ (Ne.symm hps), upd_upd]
  rw [e1] at hi2
  apply hbody w2 p _ hnone hps (by rw [herr2, herr1, he]) hi2
  intro w3 k N hadv3 hsp3 hadd hv hi3
  apply wp_destroyList hi3 (s := p) (ls := ⟨defaultAlloc, ls.els⟩) (by rw [upd_other _ _ hps, upd_same]) ho
  intro w4 hadv4 herr4 hsp4 hi4 _
  have e2 : upd (upd (upd σ p (some ⟨defaultAlloc, ls.els⟩)) s (some ⟨ls.alloc, N⟩)) p none =
      upd σ s (some ⟨ls.alloc, N⟩) := by
    rw [upd_comm _ _ _ (Ne.symm hps), upd_upd, upd_self _ _ _ hnone]
  rw [e2] at hi4
  have hadv : Adv w w2 0 := hadv1.trans' hadv2 (Nat.le_refl _)
  refine hq w4 k N ((hadv.trans' hadv3 (Nat.le_refl _)).trans' hadv4 (Nat.le_refl _)) ?_ hv hi4
  refine ⟨hadd.len, hadd.le, ?_, hadd.own, ?_, ?_, ?_⟩
  · intro e he'
    apply Classical.byContradiction; intro hc
    refine h.heap_mono' hi2 ?_ ?_ _ hc (hadd.fresh e he')
    · intro t lt ht
      rw [upd_apply]; split
      · simp
      · rw [upd_apply]; split
        · simp
        · rw [ht]; simp
    · intro t lt f ht hf
      by_cases hts : t = s
      · subst hts; rw [hs] at ht; cases ht
        exact ⟨p, ⟨defaultAlloc, ls.els⟩, by rw [upd_other _ _ hps, upd_same], hf⟩
      · refine ⟨t, lt, ?_, hf⟩
        rw [upd_other _ _ hts, upd_other]
        · exact ht
        · rintro rfl; rw [hnone] at ht; cases ht
  · rw [herr4]; exact hadd.ok
  · rw [herr4]; exact hadd.fail
  · intro hg; rw [herr4]; exact hadd.good (hadv.good hg)

theorem wp_assignVals (h : Inv w σ) (hs : σ s = some ls) (ho : ∀ e ∈ ls.els, e.own = defaultAlloc) {vs : List V}
    (he : w.err = none) {Q : Unit → W V → Prop}
    (hq : ∀ (w' : W V) (k : Nat) (N : List (El V)), Adv w w' 0 → Added w w' vs k ls.alloc N →
      N.map El.v = vs.take k → Inv w' (upd σ s (some ⟨ls.alloc, N⟩)) → Q () w') :
    wp (assignVals s vs) w Q := by
  unfold assignVals
  apply wp_viaTmp h hs ho he _ hq
  intro w2 tmp Q2 htmp hne herr hi hq2
  apply wp_assignValsLoop hi (upd_same _ _ _) herr
  intro w3 k N h1 h2 h3 h4 h5
  rw [upd_upd] at h5
  exact hq2 w3 k N h1 h2 h3 h4 h5

theorem wp_assignIt (h : Inv w σ) (hs : σ s = some ls) (ho : ∀ e ∈ ls.els, e.own = defaultAlloc)
    {t : Ptr} {lt : Lst V} (ht : σ t = some lt) (hst : s ≠ t)
    {X M Y : List (El V)} (hX : lt.els = X ++ (M ++ Y))
    (he : w.err = none) {Q : Unit → W V → Prop}
    (hq : ∀ (w' : W V) (k : Nat) (N : List (El V)), Adv w w' 0 → Added w w' (M.map El.v) k ls.alloc N →
      N.map El.v = (M.map El.v).take k → Inv w' (upd σ s (some ⟨ls.alloc, N⟩)) → Q () w') :
    wp (assignIt s (posE t (M ++ Y)) (posE t Y)) w Q := by
  unfold assignIt
  apply wp_viaTmp h hs ho he _ hq
  intro w2 tmp Q2 htmp hne herr hi hq2
  apply wp_assignItLoop hi (upd_same _ _ _) (t := t) (lt := lt) _ hst hX herr
  · intro w3 k N h1 h2 h3 h4 h5
    rw [upd_upd] at h5
    exact hq2 w3 k N h1 h2 h3 h4 h5
  · rw [upd_other _ _ (Ne.symm hst), upd_other]
    · exact ht
    · rintro rfl; rw [htmp] at ht; cases ht

/-- Assignment from a part of the list itself that does not extend to its end. -/
theorem wp_assignIt_self (h : Inv w σ) (hs : σ s = some ls) (ho : ∀ e ∈ ls.els, e.own = defaultAlloc)
    {X M Y : List (El V)} {y : El V} (hX : ls.els = X ++ (M ++ y :: Y))
    (he : w.err = none) {Q : Unit → W V → Prop}
    (hq : ∀ (w' : W V) (k : Nat) (N : List (El V)), Adv w w' 0 → Added w w' (M.map El.v) k ls.alloc N →
      N.map El.v = (M.map El.v).take k → Inv w' (upd σ s (some ⟨ls.alloc, N⟩)) → Q () w') :
    wp (assignIt s (posE s (M ++ y :: Y)) y.p) w Q := by
  unfold assignIt
  apply wp_viaTmp h hs ho he _ hq
  intro w2 tmp Q2 htmp hne herr hi hq2
  have e1 : posE s (M ++ y :: Y) = posE tmp (M ++ y :: Y) := by cases M <;> rfl
  rw [e1, show y.p = posE tmp (y :: Y) from rfl]
  apply wp_assignItLoop hi (upd_same _ _ _) (t := tmp) (lt := ⟨defaultAlloc, ls.els⟩) _ (Ne.symm hne) hX herr
  · intro w3 k N h1 h2 h3 h4 h5
    rw [upd_upd] at h5
    exact hq2 w3 k N h1 h2 h3 h4 h5
  · rw [upd_other _ _ hne, upd_same]

theorem wp_copyNothrow (h : Inv w σ) (hs : σ s = some ls) (ho : ∀ e ∈ ls.els, e.own = defaultAlloc)
    {t : Ptr} {lt : Lst V} (ht : σ t = some lt) (hst : s ≠ t)
    (he : w.err = none) {Q : Unit → W V → Prop}
    (hq : ∀ (w' : W V) (k : Nat) (N : List (El V)), Adv w w' 0 → Added w w' (lt.els.map El.v) k ls.alloc N →
      N.map El.v = (lt.els.map El.v).take k → Inv w' (upd σ s (some ⟨ls.alloc, N⟩)) → Q () w') :
    wp (copyNothrow s t) w Q := by
  unfold copyNothrow
  simp only [wp_bind]
  apply wp_begin h ht
  apply wp_end h ht
  have := wp_assignIt h hs ho ht hst (X := []) (M := lt.els) (Y := []) (by simp) he hq
  simpa using this

theorem wp_moveCtor (h : Inv w σ) (hs : σ s = some ls) {Q : Ptr → W V → Prop}
    (hq : ∀ w' : W V, Adv w w' 0 → w'.err = w.err → w'.sp = w.sp + 1 → σ (.stk w.sp) = none → s ≠ .stk w.sp →
      Inv w' (upd (upd σ s (some ⟨ls.alloc, []⟩)) (.stk w.sp) (some ⟨ls.alloc, ls.els⟩)) → Q (.stk w.sp) w') :
    wp (moveCtor s) w Q := by
  unfold moveCtor
  simp only [wp_bind]
  obtain ⟨c, hc, -, ho⟩ := dat_cell (h.st.hdr s ls hs).2
  rw [wp_rd hc (h.st.null_ne hs), ho]
  apply wp_newList h
  intro w1 hadv1 herr1 hsp1 hnone hi1
  generalize hp : Ptr.stk w.sp = p at *
  have hps : p ≠ s := by rintro rfl; rw [hnone] at hs; cases hs
  have hs1 : upd σ p (some ⟨ls.alloc, []⟩) s = some ls := by rw [upd_other _ _ (Ne.symm hps)]; exact hs
  apply wp_swapNodes2 hi1 hs1 (upd_same _ _ _) (Ne.symm hps)
  intro w2 hadv2 herr2 hsp2 hi2
  rw [wp_pure]
  refine hq w2 (hadv1.trans' hadv2 (Nat.le_refl _)) (herr2.trans herr1) (hsp2.trans hsp1) hnone (Ne.symm hps) ?_
  have e1 : upd (upd (upd σ p (some ⟨ls.alloc, []⟩)) s (some ⟨ls.alloc, []⟩)) p (some ⟨ls.alloc, ls.els⟩) =
      upd (upd σ s (some ⟨ls.alloc, []⟩)) p (some ⟨ls.alloc, ls.els⟩) := by
    rw [upd_comm σ _ _ hps, upd_upd]
  rw [← e1]; exact hi2

theorem wp_swap (h : Inv w σ) (hs : σ s = some ls) {t : Ptr} {lt : Lst V} (ht : σ t = some lt) {Q : Unit → W V → Prop}
    (hq : ∀ w' : W V, Adv w w' 0 → w'.err = w.err → w'.sp = w.sp →
      Inv w' (upd (upd σ s (some ⟨ls.alloc, lt.els⟩)) t (some ⟨lt.alloc, ls.els⟩)) → Q () w') :
    wp (swap s t) w Q := by
  unfold swap
  by_cases hst : s = t
  · subst hst
    rw [hs] at ht; cases ht
    apply wp_swapNodes1 h hs
    intro w' h1 h2 h3 h4
    apply hq w' h1 h2 h3
    rw [upd_upd, upd_els_self hs rfl]; exact h4
  · apply wp_swapNodes2 h ht hs (Ne.symm hst)
    intro w' h1 h2 h3 h4
    apply hq w' h1 h2 h3
    rw [upd_comm _ _ _ hst]; exact h4

/-- Move assignment: the elements of the source, whatever allocator they come from, become elements of the target. -/
theorem wp_moveAssign (h : Inv w σ) (hs : σ s = some ls) {t : Ptr} {lt : Lst V} (ht : σ t = some lt)
    (ho : ∀ e ∈ ls.els, e.own = ls.alloc) {Q : Unit → W V → Prop}
    (hq : ∀ w' : W V, Adv w w' 0 → w'.err = w.err →
      Inv w' (if s = t then upd σ s (some ⟨ls.alloc, []⟩)
        else upd (upd σ s (some ⟨ls.alloc, lt.els⟩)) t (some ⟨lt.alloc, []⟩)) → Q () w') :
    wp (moveAssign s t) w Q := by
  unfold moveAssign
  simp only [wp_bind]
  refine wp_moveCtor h hs ?_
  intro w1 hadv1 herr1 hsp1 hn hne hi1
  generalize hp : Ptr.stk w.sp = p at *
  have htp : t ≠ p := by rintro rfl; rw [hn] at ht; cases ht
  have hs1 : upd (upd σ s (some ⟨ls.alloc, []⟩)) p (some ⟨ls.alloc, ls.els⟩) s = some ⟨ls.alloc, []⟩ := by
    rw [upd_other _ _ hne, upd_same]
  by_cases hst : s = t
  · subst hst
    refine wp_swap hi1 hs1 hs1 ?_
    intro w2 hadv2 herr2 hsp2 hi2
    rw [upd_upd, upd_els_self hs1 rfl] at hi2
    refine wp_destroyList hi2 (upd_same _ _ _) ho ?_
    intro w3 hadv3 herr3 hsp3 hi3 _
    refine hq w3 ((hadv1.trans' hadv2 (Nat.le_refl _)).trans' hadv3 (Nat.le_refl _)) (herr3.trans (herr2.trans herr1)) ?_
    rw [if_pos rfl]
    rw [upd_upd, upd_self _ _ none (by rw [upd_other _ _ (Ne.symm hne)]; exact hn)] at hi3
    exact hi3
  · have ht1 : upd (upd σ s (some ⟨ls.alloc, []⟩)) p (some ⟨ls.alloc, ls.els⟩) t = some lt := by
      rw [upd_other _ _ htp, upd_other _ _ (Ne.symm hst)]; exact ht
    refine wp_swap hi1 hs1 ht1 ?_
    intro w2 hadv2 herr2 hsp2 hi2
    have e1 : upd (upd (upd (upd σ s (some ⟨ls.alloc, []⟩)) p (some ⟨ls.alloc, ls.els⟩)) s (some ⟨ls.alloc, lt.els⟩)) t
        (some ⟨lt.alloc, []⟩) = upd (upd (upd σ s (some ⟨ls.alloc, lt.els⟩)) t (some ⟨lt.alloc, []⟩)) p
          (some ⟨ls.alloc, ls.els⟩) := by
      funext u; simp only [upd_apply]
      by_cases h1 : u = t
      · subst h1; simp [htp]
      · by_cases h2 : u = s
        · subst h2; simp [h1, hne]
        · simp [h1, h2]
    rw [e1] at hi2
    refine wp_destroyList hi2 (upd_same _ _ _) ho ?_
    intro w3 hadv3 herr3 hsp3 hi3 _
    refine hq w3 ((hadv1.trans' hadv2 (Nat.le_refl _)).trans' hadv3 (Nat.le_refl _)) (herr3.trans (herr2.trans herr1)) ?_
    rw [if_neg hst]
    rw [upd_upd, upd_self _ _ none (by rw [upd_other _ _ (Ne.symm htp), upd_other _ _ (Ne.symm hne)]; exact hn)] at hi3
    exact hi3

theorem wp_eraseRange (h : Inv w σ) (hs : σ s = some ls) {A M B : List (El V)} (hA : ls.els = A ++ (M ++ B))
    (ho : ∀ e ∈ M, e.own = ls.alloc) {Q : Ptr → W V → Prop}
    (hq : ∀ w' : W V, Adv w w' 0 → w'.err = w.err → w'.sp = w.sp → Inv w' (upd σ s (some ⟨ls.alloc, A ++ B⟩)) →
      (∀ q, w'.heap q ≠ none → w.heap q ≠ none) → Q (posE s B) w') :
    wp (eraseRange s (posE s (M ++ B)) (posE s B)) w Q := by
  induction M generalizing w σ ls with
  | nil =>
    unfold eraseRange
    simp only [wp_bind]
    refine wp_itEq_true (h.on_pos hs hA) rfl ?_
    refine wp_if_pos rfl ?_
    refine hq w (Adv.refl _ _) rfl rfl ?_ (fun _ h => h)
    rw [List.nil_append] at hA
    rw [upd_els_self hs hA]; exact h
  | cons m M ih =>
    have hA1 : ls.els = A ++ m :: (M ++ B) := by simpa using hA
    have hA2 : ls.els = (A ++ m :: M) ++ B := by simpa using hA
    unfold eraseRange
    simp only [wp_bind]
    refine wp_itEq_false (h.on_pos hs hA) (h.on_pos hs hA2) ?_ ?_
    · cases B with
      | nil => exact h.pos_ne_end hs (by rw [hA1]; simp)
      | cons b B =>
        have hn := h.st.ring_nodup hs
        rw [hA1] at hn
        simp only [ptrs_append, ptrs_cons, List.nodup_cons, List.nodup_append] at hn
        simp only [posE_cons, List.cons_append]
        intro h0
        exact hn.2.2.1.1 (by rw [h0]; simp)
    refine wp_if_neg (by simp) ?_
    simp only [wp_bind]
    refine wp_erase h hs hA1 (ho m (by simp)) ?_
    intro w1 hadv1 herr1 hsp1 hi1 hm1 _
    refine ih hi1 (upd_same _ _ _) rfl (fun e he => ho e (by simp [he])) ?_
    intro w2 hadv2 herr2 hsp2 hi2 hm2
    rw [upd_upd] at hi2
    exact hq w2 (hadv1.trans' hadv2 (Nat.le_refl _)) (herr2.trans herr1) (hsp2.trans hsp1) hi2 (fun q hq => hm1 q (hm2 q hq))

end Nestl.LL
