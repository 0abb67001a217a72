import Verif.RBTree.Bounds
set_option autoImplicit false
/-
Correctness of the rebalancing loop of erasure.
-/
namespace Nestl.RB
variable {K : Type}

/-- Colour the root black. -/
def T.blacken : T K → T K
  | .nil => .nil
  | .node p _ l k r => .node p .black l k r

@[simp] theorem blacken_mk (s : Side) (p c) (a : T K) (k b) : (mk s p c a k b).blacken = mk s p .black a k b := by
  cases s <;> rfl
@[simp] theorem blacken_nodes (t : T K) : t.blacken.nodes = t.nodes := by cases t <;> rfl
@[simp] theorem blacken_color (t : T K) : t.blacken.color = .black := by cases t <;> rfl
@[simp] theorem blacken_ptr (t : T K) : t.blacken.ptr = t.ptr := by cases t <;> rfl
theorem blacken_of_black {t : T K} (h : t.color = .black) : t.blacken = t := by
  cases t with
  | nil => rfl
  | node p c l k r => simp only [T.color] at h; subst h; rfl

/-- The part of the loop body after both inspections of the sibling's children. -/
def eraFinish (s : Side) (hdr x xParent w : Ptr) : M (W K) Ptr := do
  setColor w (← rd xParent).color
  setColor xParent .black
  if (← rd w).child s.other ≠ .null then
    setColor ((← rd w).child s.other) .black
  rotG s hdr xParent
  pure x

/-- The part of the loop body after the sibling has become black. -/
def eraRest (s : Side) (hdr x xParent w : Ptr) (rec : Ptr → Ptr → M (W K) Ptr) : M (W K) Ptr := do
  let b1 ← blackOrNull ((← rd w).child s)
  let both ← (if b1 then do blackOrNull ((← rd w).child s.other) else pure false)
  if both then
    setColor w .red
    rec xParent (← rd xParent).parent
  else
    let b2 ← blackOrNull ((← rd w).child s.other)
    let w ← (if b2 then do
        setColor ((← rd w).child s) .black
        setColor w .red
        rotG s.other hdr w
        pure ((← rd xParent).child s.other)
      else pure w)
    eraFinish s hdr x xParent w

/-- One arm of the loop body (`s` = side of `x` under its parent). -/
def eraBody (s : Side) (hdr x xParent : Ptr) (rec : Ptr → Ptr → M (W K) Ptr) : M (W K) Ptr := do
  let w := (← rd xParent).child s.other
  let w ← (if (← rd w).color = .red then do
      setColor w .black
      setColor xParent .red
      rotG s hdr xParent
      pure ((← rd xParent).child s.other)
    else pure w)
  eraRest s hdr x xParent w rec

theorem eraseFix_eq (hdr x xParent : Ptr) : (eraseFix hdr x xParent : M (W K) Ptr) = (do
    let root := (← rd hdr).parent
    if x = root then pure x else do
    if (← blackOrNull x) then
      if x = (← rd xParent).left then eraBody .L hdr x xParent (eraseFix hdr)
      else eraBody .R hdr x xParent (eraseFix hdr)
    else pure x) := by
  rw [eraseFix]; rfl

section
variable {H0 : Ptr → Option (TNode K)} {hdr : Ptr} {hi : Hd} {w : W K}

/-- What the loop guarantees about its final focus. -/
def EraDone (ctx : Ctx K) (t : T K) : Prop :=
  ∃ m, RB (plug ctx t.blacken) m ∧ (plug ctx t.blacken).color = .black

theorem Z.sibRep {H f} {fs : Ctx K} {t : T K} (h : Z H0 hdr hi (f :: fs) t H) :
    Rep H hi.own f.p f.sib ∧ Ptr.null ∉ f.sib.ptrs :=
  ⟨h.crep.2.1, fun hh => h.ne_null (p := .null)
    (mem_plug_ptrs.2 (Or.inl (mem_ctxPtrs_cons.2 (Or.inr (Or.inl hh))))) rfl⟩

theorem wp_eraFinish {fs : Ctx K} {n : Nat} {Q : Ptr → W K → Prop} {s : Side} {fp wp_ bp : Ptr} {fc : Color}
    {fk wk bk : K} {wa ba bb t : T K}
    (h : Z H0 hdr hi (⟨s, fp, fc, fk, mk s wp_ .black wa wk (mk s bp .red ba bk bb)⟩ :: fs) t w.heap)
    (ht : t.color = .black) (hrt : RB t n) (hwa : RB wa n) (hba : RB ba n) (hbb : RB bb n)
    (hfs : if fc = .red then topBlack fs ∧ CRB fs (n + 1) else CRB fs (n + 2))
    (hQ : ∀ H' ctx', Z H0 hdr hi ctx' t H' → EraDone ctx' t →
      (plug ctx' t).nodes = (plug (⟨s, fp, fc, fk, mk s wp_ .black wa wk (mk s bp .red ba bk bb)⟩ :: fs) t).nodes →
      Q t.ptr (w.setHeap H')) :
    wp (eraFinish s hdr t.ptr fp wp_) w Q := by
  have hfc := h.parCell
  have hfn := h.par_ne_null
  simp only at hfc hfn
  unfold eraFinish
  simp only [wp_bind]
  rw [wp_rd hfc hfn]
  simp only [cellS_color]
  refine wp_setColor_sib (f := ⟨s, fp, fc, fk, .nil⟩) (c' := fc) (by exact h) (fun H1 h1 => ?_)
  refine wp_setColor_par (f := ⟨s, fp, fc, fk, _⟩) (c' := .black) (by exact h1) (fun H2 h2 => ?_)
  simp only [World.setHeap_setHeap]
  have hsib := h2.sibRep
  simp only at hsib
  have hw2 := (Rep_mk.1 hsib.1).1
  have hwn : wp_ ≠ .null := fun e => hsib.2 (e ▸ mem_ptrs_mk.2 (Or.inl rfl))
  have hbn : bp ≠ .null := fun e => hsib.2 (e ▸ mem_ptrs_mk.2 (Or.inr (Or.inr (mem_ptrs_mk.2 (Or.inl rfl)))))
  rw [wp_rd (by exact hw2) hwn]
  simp only [cellS_child_other, mk_ptr, ne_eq, hbn, not_false_eq_true, if_true, wp_bind]
  rw [wp_rd (by exact hw2) hwn]
  simp only [cellS_child_other, mk_ptr]
  -- focus the far nephew
  have h3 := h2.up
  simp only at h3
  rw [← mk_other, ← mk_other s wp_] at h3
  have h4 := h3.down.down
  refine wp_setColor_focus (c' := .black) (by exact h4) (fun H5 h5 => ?_)
  have h6 := h5.up.up
  simp only at h6
  rw [mk_other, mk_other] at h6
  refine wp_rotG (by exact h6) (fun H7 h7 => ?_)
  simp only [World.setHeap_setHeap, wp_pure]
  refine hQ H7 _ h7.down.down ?_ ?_
  · unfold EraDone
    rw [blacken_of_black ht]
    by_cases hc : fc = .red
    · subst hc
      simp only [if_true] at hfs
      refine plug_RB (n := n) ?_ hrt (fun e => by rw [ht] at e; cases e)
      refine ⟨hwa, by simp, ?_, hfs.1, hfs.2⟩
      exact RB_black.2 ⟨hba, hbb⟩
    · have : fc = .black := by cases fc <;> simp_all
      subst this
      simp only [reduceCtorEq, if_false] at hfs
      refine plug_RB (n := n) ?_ hrt (fun e => by rw [ht] at e; cases e)
      refine ⟨hwa, RB_black.2 ⟨hba, hbb⟩, hfs⟩
  · simp only [plug, plug_nodes]
    cases s <;> simp [mk, T.nodes]

theorem wp_eraRest {fs : Ctx K} {n : Nat} {Q : Ptr → W K → Prop} {s : Side} {fp wp_ : Ptr} {fc : Color}
    {fk wk : K} {wa wb t : T K} {rec : Ptr → Ptr → M (W K) Ptr}
    (h : Z H0 hdr hi (⟨s, fp, fc, fk, mk s wp_ .black wa wk wb⟩ :: fs) t w.heap)
    (ht : t.color = .black) (hrt : RB t n) (hwa : RB wa n) (hwb : RB wb n)
    (hfs : if fc = .red then topBlack fs ∧ CRB fs (n + 1) else CRB fs (n + 2))
    (hrec : ∀ H', Z H0 hdr hi fs (mk s fp fc t fk (mk s wp_ .red wa wk wb)) H' →
      RB (mk s fp .black t fk (mk s wp_ .red wa wk wb)) (n + 1) →
      wp (rec fp (par hdr fs)) (w.setHeap H') Q)
    (hQ : ∀ H' ctx', Z H0 hdr hi ctx' t H' → EraDone ctx' t →
      (plug ctx' t).nodes = (plug (⟨s, fp, fc, fk, mk s wp_ .black wa wk wb⟩ :: fs) t).nodes →
      Q t.ptr (w.setHeap H')) :
    wp (eraRest s hdr t.ptr fp wp_ rec) w Q := by
  have hsib := h.sibRep
  simp only at hsib
  obtain ⟨hw, hra, hrb⟩ := Rep_mk.1 hsib.1
  have hwn : wp_ ≠ .null := fun e => hsib.2 (e ▸ mem_ptrs_mk.2 (Or.inl rfl))
  have h0a : Ptr.null ∉ wa.ptrs := fun e => hsib.2 (mem_ptrs_mk.2 (Or.inr (Or.inl e)))
  have h0b : Ptr.null ∉ wb.ptrs := fun e => hsib.2 (mem_ptrs_mk.2 (Or.inr (Or.inr e)))
  unfold eraRest
  simp only [wp_bind]
  rw [wp_rd hw hwn]
  simp only [cellS_child]
  refine wp_blackOrNull hra h0a ?_
  have hboth : wp (if (decide (wa.color = .black)) = true then (do
        let a ← rd wp_; blackOrNull (a.child s.other)) else pure false) w
      (fun b w' => b = decide (wa.color = .black ∧ wb.color = .black) ∧ w' = w) := by
    by_cases ha : wa.color = .black
    · simp only [ha, decide_true, if_true, wp_bind, true_and]
      rw [wp_rd hw hwn, cellS_child_other]
      exact wp_blackOrNull hrb h0b (by simp)
    · simp [ha]
  refine wp_mono (by simpa only [wp_bind] using hboth) ?_
  rintro b w' ⟨rfl, rfl⟩
  by_cases hbb : wa.color = .black ∧ wb.color = .black
  · simp only [hbb, and_self, decide_true, if_true, wp_bind]
    refine wp_setColor_sib (f := ⟨s, fp, fc, fk, .nil⟩) (c' := .red) (by exact h) (fun H1 h1 => ?_)
    have hp1 := h1.parCell
    simp only at hp1
    rw [wp_rd (by exact hp1) h1.par_ne_null]
    simp only [cellS_parent]
    refine hrec H1 h1.up ?_
    rw [RB_black]
    exact ⟨hrt, RB_red.2 ⟨hbb.1, hbb.2, hwa, hwb⟩⟩
  · simp only [hbb, decide_false, Bool.false_eq_true, if_false, wp_bind]
    rw [wp_rd hw hwn]
    simp only [cellS_child_other]
    refine wp_blackOrNull hrb h0b ?_
    by_cases hb : wb.color = .black
    · have ha : wa.color = .red := by cases hh : wa.color <;> simp_all
      obtain ⟨ap, ac, aa, ak, ab, rfl⟩ := exists_mk s (ne_nil_of_red ha)
      simp only [mk_color] at ha
      subst ha
      simp only [hb, decide_true, if_true, wp_bind]
      rw [wp_rd hw hwn]
      simp only [cellS_child, mk_ptr]
      rw [RB_red] at hwa
      -- focus the near nephew
      have h2 := h.up
      simp only at h2
      rw [← mk_other] at h2
      have h3 := h2.down.down
      refine wp_setColor_focus (c' := .black) (by exact h3) (fun H4 h4 => ?_)
      refine wp_setColor_par (f := ⟨s, wp_, .black, wk, wb⟩) (c' := .red) (by exact h4) (fun H5 h5 => ?_)
      have h6 := h5.up
      simp only at h6
      rw [← mk_other, ← mk_other s ap] at h6
      refine wp_rotG (by exact h6) (fun H7 h7 => ?_)
      simp only [wp_pure, World.setHeap_setHeap]
      have h8 := h7.up
      simp only at h8
      rw [mk_other, mk_other, mk_other] at h8
      have h9 := h8.down
      have hp9 := h9.parCell
      simp only at hp9
      rw [wp_rd (by exact hp9) h9.par_ne_null]
      simp only [cellS_child_other, mk_ptr]
      refine wp_eraFinish (n := n) (by exact h9) ht hrt hwa.2.2.1 hwa.2.2.2 hwb hfs ?_
      intro H' ctx' hz hd hnod
      rw [World.setHeap_setHeap]
      refine hQ H' ctx' hz hd ?_
      rw [hnod]
      simp only [plug, plug_nodes]
      cases s <;> simp [mk, T.nodes]
    · have hbr : wb.color = .red := by cases hh : wb.color <;> simp_all
      obtain ⟨bp, bc, ba, bk, bb, rfl⟩ := exists_mk s (ne_nil_of_red hbr)
      simp only [mk_color] at hbr
      subst hbr
      simp only [hb, decide_false, Bool.false_eq_true, if_false, wp_pure]
      rw [RB_red] at hwb
      exact wp_eraFinish (n := n) h ht hrt hwa hwb.2.2.1 hwb.2.2.2 hfs hQ

/-- Loop invariant: the focus is one black node short (or red). -/
def Short (ctx : Ctx K) (t : T K) : Prop :=
  ∃ n, RB t.blacken (if t.color = .red then n + 1 else n) ∧ CRB ctx (n + 1)

theorem Short.done {ctx : Ctx K} {t : T K} (h : Short ctx t) (hr : ctx = [] ∨ t.color = .red) : EraDone ctx t := by
  obtain ⟨n, h1, h2⟩ := h
  rcases hr with rfl | hr
  · exact ⟨_, h1, blacken_color t⟩
  · rw [if_pos hr] at h1
    exact plug_RB h2 h1 (fun e => by simp at e)

/-- The loop stops at a red focus. -/
theorem wp_eraseFix_red {ctx : Ctx K} {t : T K} {Q : Ptr → W K → Prop} (h : Z H0 hdr hi ctx t w.heap)
    (hr : t.color = .red) (hQ : Q t.ptr w) {xp : Ptr} : wp (eraseFix hdr t.ptr xp) w Q := by
  rw [eraseFix_eq]
  simp only [wp_bind, wp_rd h.hdrCell h.hdr_ne, wp_ite]
  split
  · exact hQ
  · refine wp_blackOrNull h.rep h.null_notMem_focus ?_
    simpa [hr] using hQ

theorem wp_eraseFix (m : Nat) : ∀ {ctx : Ctx K} {t : T K} {w : W K} {Q : Ptr → W K → Prop},
    ctx.length ≤ m → Z H0 hdr hi ctx t w.heap → Short ctx t →
    (∀ H' ctx' t', Z H0 hdr hi ctx' t' H' → (plug ctx' t').nodes = (plug ctx t).nodes → EraDone ctx' t' →
      Q t'.ptr (w.setHeap H')) →
    wp (eraseFix hdr t.ptr (par hdr ctx)) w Q := by
  induction m with
  | zero =>
    intro ctx t w Q hlen h hs hQ
    have : ctx = [] := by cases ctx <;> simp_all
    subst this
    rw [eraseFix_eq]
    simp only [wp_bind, wp_rd h.hdrCell h.hdr_ne, wp_ite]
    simp only [hdCell, plug, if_true, wp_pure]
    have := hQ _ _ _ h rfl (hs.done (Or.inl rfl))
    simpa using this
  | succ m ih =>
    intro ctx t w Q hlen h hs hQ
    cases ctx with
    | nil =>
      rw [eraseFix_eq]
      simp only [wp_bind, wp_rd h.hdrCell h.hdr_ne, wp_ite]
      simp only [hdCell, plug, if_true, wp_pure]
      have := hQ _ _ _ h rfl (hs.done (Or.inl rfl))
      simpa using this
    | cons f fs =>
      rcases f with ⟨s, fp, fc, fk, fsib⟩
      have hroot : ¬ t.ptr = (plug (⟨s, fp, fc, fk, fsib⟩ :: fs) t).ptr := by
        rw [h.eq_root_iff]; simp
      rw [eraseFix_eq]
      simp only [wp_bind, wp_rd h.hdrCell h.hdr_ne]
      simp only [hdCell]
      refine wp_if_neg hroot ?_
      simp only [wp_bind, par_cons]
      refine wp_blackOrNull h.rep h.null_notMem_focus ?_
      by_cases htc : t.color = .black
      · simp only [htc, decide_true, if_true, wp_bind]
        obtain ⟨n, hrt, hcrb⟩ := hs
        rw [blacken_of_black htc] at hrt
        simp only [htc, reduceCtorEq, if_false] at hrt
        -- the sibling is not empty
        have hsn : fsib ≠ .nil := by
          rintro rfl
          cases fc with
          | red => have := hcrb.2.1; simp only [RB] at this; omega
          | black => have := hcrb.1; simp only [RB] at this; omega
        have hfc := h.parCell
        have hfn := h.par_ne_null
        simp only at hfc hfn
        rw [wp_rd hfc hfn]
        have body : wp (eraBody s hdr t.ptr fp (eraseFix hdr)) w Q := by
          obtain ⟨wp_, wc, wa, wk, wb, rfl⟩ := exists_mk s hsn
          have hsib := h.sibRep
          simp only at hsib
          have hw := (Rep_mk.1 hsib.1).1
          have hwn : wp_ ≠ .null := fun e => hsib.2 (e ▸ mem_ptrs_mk.2 (Or.inl rfl))
          unfold eraBody
          simp only [wp_bind]
          rw [wp_rd hfc hfn]
          simp only [cellS_child_other, mk_ptr]
          rw [wp_rd hw hwn]
          simp only [cellS_color]
          cases wc with
          | red =>
            have hfb : fc = .black := by
              cases fc with
              | red => have := hcrb.1; simp at this
              | black => rfl
            subst hfb
            obtain ⟨h1, h2⟩ := hcrb
            rw [RB_red] at h1
            obtain ⟨ha, hb, hra, hrb⟩ := h1
            have han : wa ≠ .nil := by rintro rfl; simp only [RB] at hra; omega
            obtain ⟨ap, ac, aa, ak, ab, rfl⟩ := exists_mk s han
            simp only [mk_color] at ha
            subst ha
            rw [RB_black] at hra
            simp only [if_true, wp_bind]
            refine wp_setColor_sib (f := ⟨s, fp, .black, fk, .nil⟩) (c' := .black) (by exact h) (fun H1 h1 => ?_)
            refine wp_setColor_par (f := ⟨s, fp, .black, fk, _⟩) (c' := .red) (by exact h1) (fun H2 h2' => ?_)
            have h3 := h2'.up
            refine wp_rotG (by exact h3) (fun H4 h4 => ?_)
            have h5 := h4.down.down
            have hp5 := h5.parCell
            simp only at hp5
            rw [wp_rd (by exact hp5) h5.par_ne_null]
            simp only [wp_pure, cellS_child_other, mk_ptr, World.setHeap_setHeap]
            refine wp_eraRest (n := n) (by exact h5) htc hrt hra.1 hra.2 ?_ ?_ ?_
            · simp only [if_true]
              exact ⟨rfl, hrb, h2⟩
            · intro H' hz hrb'
              rw [World.setHeap_setHeap]
              have hsh : Short (⟨s, wp_, .black, wk, wb⟩ :: fs) (mk s fp .red t fk (mk s ap .red aa ak ab)) :=
                ⟨n, by simpa using hrb', hrb, h2⟩
              have := wp_eraseFix_red (w := w.setHeap H') (Q := Q) (xp := wp_) (by exact hz) (by simp) ?_
              · simpa using this
              · refine hQ _ _ _ hz ?_ (hsh.done (Or.inr (by simp)))
                simp only [plug, plug_nodes]
                cases s <;> simp [mk, T.nodes]
            · intro H' ctx' hz hd hn'
              rw [World.setHeap_setHeap]
              refine hQ _ _ _ hz ?_ hd
              rw [hn']
              simp only [plug, plug_nodes]
              cases s <;> simp [mk, T.nodes]
          | black =>
            simp only [reduceCtorEq, if_false, wp_pure]
            have hab : RB wa n ∧ RB wb n := by
              cases fc with
              | red => exact RB_black.1 hcrb.2.1
              | black => exact RB_black.1 hcrb.1
            have hfs : if fc = .red then topBlack fs ∧ CRB fs (n + 1) else CRB fs (n + 2) := by
              cases fc with
              | red => simpa using hcrb.2.2
              | black => simpa using hcrb.2
            refine wp_eraRest (n := n) h htc hrt hab.1 hab.2 hfs ?_ ?_
            · intro H' hz hrb'
              have := ih (ctx := fs) (t := mk s fp fc t fk (mk s wp_ .red wa wk wb))
                (w := w.setHeap H') (Q := Q) ?_ (by exact hz) ?_ ?_
              · simpa using this
              · simp at hlen; omega
              · cases fc with
                | red => exact ⟨n, by simpa using hrb', by simpa using hcrb.2.2.2⟩
                | black => exact ⟨n + 1, by simpa using hrb', by simpa using hcrb.2⟩
              · intro H'' ctx' t' hz' hn' hd'
                rw [World.setHeap_setHeap]
                refine hQ _ _ _ hz' ?_ hd'
                rw [hn']
                simp only [plug, plug_nodes]
                cases s <;> simp [mk, T.nodes]
            · intro H' ctx' hz hd hn'
              exact hQ _ _ _ hz hn' hd
        have hne := h.ne_sib (Or.inr hsn)
        simp only at hne
        cases s with
        | L =>
          simp only [cellS, if_true]
          exact body
        | R =>
          simp only [cellS]
          refine wp_if_neg hne ?_
          exact body
      · simp only [htc, decide_false, Bool.false_eq_true, if_false, wp_pure]
        have hr : t.color = .red := by cases hh : t.color <;> simp_all
        have := hQ _ _ _ h rfl (hs.done (Or.inr hr))
        simpa using this

end
end Nestl.RB
