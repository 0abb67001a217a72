import Verif.RBTree.ModelRot
import Verif.RBTree.Phi
import Verif.RBTree.Erase
import Verif.RBTree.Bounds
import Verif.RBTree.HintOps
set_option autoImplicit false
/-
Bounds on the rotations and passes of the rebalancing loops.
-/
namespace Nestl.RB
variable {K : Type}

/-- One pass of `insFixN`. -/
def insBodyN (s : Side) (hdr x xpp : Ptr) (rec : Ptr → M (W K) (Nat × Nat)) : M (W K) (Nat × Nat) := do
  let y := (← rd xpp).child s.other
  if (← isRed y) then
    setColor (← rd x).parent .black
    setColor y .black
    setColor xpp .red
    let r ← rec xpp
    pure (r.1 + 0, r.2 + 1)
  else
    if x = (← rd (← rd x).parent).child s.other then
      let x := (← rd x).parent
      rotG s hdr x
      setColor (← rd x).parent .black
      setColor xpp .red
      rotG s.other hdr xpp
      let r ← rec x
      pure (r.1 + 2, r.2 + 1)
    else
      setColor (← rd x).parent .black
      setColor xpp .red
      rotG s.other hdr xpp
      let r ← rec x
      pure (r.1 + 1, r.2 + 1)

theorem insFixN_eq (hdr x : Ptr) : (insFixN hdr x : M (W K) (Nat × Nat)) = (do
    let root := (← rd hdr).parent
    if x = root then pure (0, 0) else do
    let xp := (← rd x).parent
    if (← rd xp).color = .red then
      let xpp := (← rd xp).parent
      if xp = (← rd xpp).left then insBodyN .L hdr x xpp (insFixN hdr) else insBodyN .R hdr x xpp (insFixN hdr)
    else pure (0, 0)) := by
  rw [insFixN]
  congr 1; funext a
  dsimp only
  by_cases h1 : x = a.parent
  · rw [if_pos h1, if_pos h1]
  rw [if_neg h1, if_neg h1]
  congr 1; funext b
  congr 1; funext c
  by_cases h2 : c.color = .red
  · rw [if_pos h2, if_pos h2]
    congr 1; funext d
    congr 1; funext e
    by_cases h : b.parent = e.left
    · simp only [if_pos h]; rfl
    · simp only [if_neg h]; rfl
  · rw [if_neg h2, if_neg h2]

section
variable {H0 : Ptr → Option (TNode K)} {hdr : Ptr} {hi : Hd} {w : W K}

theorem wp_insBodyN {gs : Ctx K} {n : Nat} {Q : Nat × Nat → W K → Prop} {s fs' : Side} {fp gp : Ptr} {fk gk : K} {fsib gsib t : T K}
    {rec : Ptr → M (W K) (Nat × Nat)}
    (h : Z H0 hdr hi (⟨fs', fp, .red, fk, fsib⟩ :: ⟨s, gp, .black, gk, gsib⟩ :: gs) t w.heap)
    (ht : t.color = .red) (hrt : RB t n) (hfs : fsib.color = .black) (hrf : RB fsib n) (hrg : RB gsib n)
    (hcg : CRB gs (n + 1))
    (hrec : ∀ c ctx' t' n' H', ((c = 0 ∧ ctx'.length = gs.length ∧ (topBlack ctx' ∧ phi (plug ctx' t') ≤ phi (plug (⟨fs', fp, .red, fk, fsib⟩ :: ⟨s, gp, .black, gk, gsib⟩ :: gs) t) + 1 ∨ phi (plug ctx' t') + 1 ≤ phi (plug (⟨fs', fp, .red, fk, fsib⟩ :: ⟨s, gp, .black, gk, gsib⟩ :: gs) t))) ∨
        (c ≤ 2 ∧ topBlack ctx' ∧ phi (plug ctx' t') ≤ phi (plug (⟨fs', fp, .red, fk, fsib⟩ :: ⟨s, gp, .black, gk, gsib⟩ :: gs) t) + 2)) →
      Z H0 hdr hi ctx' t' H' → ctx'.length ≤ gs.length + 1 → t'.color = .red → RB t' n' → CRB ctx' n' →
      (plug ctx' t').nodes = (plug (⟨fs', fp, .red, fk, fsib⟩ :: ⟨s, gp, .black, gk, gsib⟩ :: gs) t).nodes →
      wp (rec t'.ptr) (w.setHeap H') fun a w => Q (a.1 + c, a.2 + 1) w) :
    wp (insBodyN s hdr t.ptr gp rec) w Q := by
  have htn := ne_nil_of_red ht
  obtain ⟨xp, xc, xa, xk, xb, rfl⟩ := exists_mk s htn
  simp only [mk_color] at ht
  subst ht
  have hup := h.up
  simp only at hup
  have hgc := hup.parCell
  simp only at hgc
  have hgn := hup.par_ne_null
  simp only at hgn
  have hx := h.focus
  have hxn := h.focus_ne_null
  simp only [par_cons] at hx
  have hsibrep : Rep w.heap hi.own gp gsib := hup.crep.2.1
  have h0s : Ptr.null ∉ gsib.ptrs := fun hh => hup.ne_null (p := .null)
    (mem_plug_ptrs.2 (Or.inl (mem_ctxPtrs_cons.2 (Or.inr (Or.inl hh))))) rfl
  unfold insBodyN
  rw [mk_ptr]
  simp only [wp_bind, wp_rd hgc hgn, cellS_child_other]
  refine wp_isRed hsibrep h0s ?_
  by_cases hg : gsib.color = .red
  · -- red uncle
    obtain ⟨yp, yc, ya, yk, yb, rfl⟩ := exists_mk s (ne_nil_of_red hg)
    simp only [mk_color] at hg
    subst hg
    simp only [mk_color, decide_true, if_true, wp_bind, wp_rd hx hxn, cellS_parent, mk_ptr]
    refine wp_setColor_focus hup (fun H1 h1 => ?_)
    refine wp_setColor_sib (f := ⟨s, gp, .black, gk, .nil⟩) (c' := .black) (by exact h1) (fun H2 h2 => ?_)
    refine wp_setColor_par (f := ⟨s, gp, .black, gk, mk s yp .black ya yk yb⟩) (c' := .red) (by exact h2) (fun H3 h3 => ?_)
    have h4 := h3.up
    simp only [World.setHeap_setHeap]
    have hyy := RB_red.1 hrg
    have := hrec 0 _ _ (n + 1) _ ?_ h4 (by simp) (by simp) ?_ hcg ?_
    · simpa using this
    · refine Or.inl ⟨rfl, rfl, ?_⟩
      simp only [phi_plug, phi_mk, mk_color, cphi, hfs, hyy.1, hyy.2.1, fw_red, fw_bbb, fw_brr, fw_bbr, fw_brb]
      by_cases htb : topBlack gs
      · have := cphi_le gs .red .black
        exact Or.inl ⟨htb, by omega⟩
      · have := cphi_red htb .red .black
        exact Or.inr (by omega)
    · rw [RB_red, RB_black, RB_black]
      rw [RB_red] at hrg
      exact ⟨by simp, by simp, ⟨hrt, hrf⟩, hrg.2.2⟩
    · simp only [plug, plug_nodes]
      cases s <;> cases fs' <;> simp [mk, T.nodes]
  · have hgb : gsib.color = .black := by cases hh : gsib.color <;> simp_all
    have hfc := h.parCell
    have hfn := h.par_ne_null
    simp only [par_cons, mk_ptr] at hfc hfn
    simp only [hg, decide_false, Bool.false_eq_true, if_false, wp_bind, wp_rd hx hxn, cellS_parent, wp_rd hfc hfn]
    rw [RB_red] at hrt
    by_cases hs : fs' = s.other
    · subst hs
      simp only [cellS_child, if_true, wp_bind, wp_rd hx hxn, cellS_parent]
      rw [mk_other] at hup
      refine wp_rotG hup (fun H1 h1 => ?_)
      -- read parent of fp
      have hz := h1.down
      have hf1 := hz.focus
      have hf1n := hz.focus_ne_null
      simp only [par_cons] at hf1
      rw [wp_rd (by exact hf1) hf1n]
      simp only [cellS_parent]
      refine wp_setColor_focus (by exact h1) (fun H2 h2 => ?_)
      refine wp_setColor_par (f := ⟨s, gp, .black, gk, gsib⟩) (c' := .red) (by exact h2) (fun H3 h3 => ?_)
      have h4 := h3.up
      simp only at h4
      rw [← mk_other, ← mk_other s xp] at h4
      refine wp_rotG (by exact h4) (fun H5 h5 => ?_)
      rw [mk_other s xp] at h5
      have h6 := h5.down
      have := hrec 2 _ _ n _ ?_ h6 (by simp) (by simp) ?_ ?_ ?_
      · simpa using this
      · refine Or.inr ⟨by omega, rfl, ?_⟩
        simp only [phi_plug, phi_mk, mk_color, cphi, hfs, hgb, hrt.1, hrt.2.1, fw_red, fw_bbb, fw_brr, fw_bbr, fw_brb]
        omega
      · exact RB_red.2 ⟨hfs, hrt.1, hrf, hrt.2.2.1⟩
      · exact ⟨RB_red.2 ⟨hgb, hrt.2.1, hrg, hrt.2.2.2⟩, hcg⟩
      · simp only [plug, plug_nodes]
        cases s <;> simp [mk, T.nodes, Side.other]
    · have hs' : fs' = s := by cases s <;> cases fs' <;> simp_all [Side.other]
      subst hs'
      have hns := h.ne_sib (Or.inl mk_ne_nil)
      simp only [mk_ptr] at hns
      simp only [cellS_child_other, hns, if_false, wp_bind, wp_rd hx hxn, cellS_parent]
      refine wp_setColor_focus (by exact hup) (fun H2 h2 => ?_)
      refine wp_setColor_par (f := ⟨fs', gp, .black, gk, gsib⟩) (c' := .red) (by exact h2) (fun H3 h3 => ?_)
      have h4 := h3.up
      simp only at h4
      rw [← mk_other, ← mk_other fs' fp] at h4
      refine wp_rotG (by exact h4) (fun H5 h5 => ?_)
      rw [mk_other fs' fp] at h5
      have h6 := h5.down
      have := hrec 1 _ _ n _ ?_ h6 (by simp) (by simp) ?_ ?_ ?_
      · simpa using this
      · refine Or.inr ⟨by omega, rfl, ?_⟩
        simp only [phi_plug, phi_mk, mk_color, cphi, hfs, hgb, hrt.1, hrt.2.1, fw_red, fw_bbb, fw_brr, fw_bbr, fw_brb]
        omega
      · exact RB_red.2 hrt
      · exact ⟨RB_red.2 ⟨hgb, hfs, hrg, hrf⟩, hcg⟩
      · simp only [plug, plug_nodes]
        cases fs' <;> simp [mk, T.nodes, Side.other]

/-- The insertion loop restores the red-black invariant up to the root colour, without changing the
in-order sequence of nodes. -/
theorem wp_insFixN (m : Nat) : ∀ {ctx : Ctx K} {t : T K} {n : Nat} {w : W K} {Q : Nat × Nat → W K → Prop},
    ctx.length ≤ m → Z H0 hdr hi ctx t w.heap → t.color = .red → RB t n → CRB ctx n →
    (∀ a H' T', a.1 ≤ 2 → 2 * a.2 ≤ ctx.length → (topBlack ctx → a = (0, 0) ∧ phi T' ≤ phi (plug ctx t)) → a.2 + phi T' ≤ phi (plug ctx t) + 3 → Z H0 hdr hi [] T' H' → T'.nodes = (plug ctx t).nodes → AlmostRB T' → Q a (w.setHeap H')) →
    wp (insFixN hdr t.ptr) w Q := by
  induction m using Nat.strongRecOn with
  | _ m ih =>
    intro ctx t n w Q hlen h ht hrt hc hQ
    obtain ⟨xp, xc, xa, xk, xb, rfl⟩ := exists_mk .L (ne_nil_of_red ht)
    simp only [mk_color] at ht
    subst ht
    rw [insFixN_eq, mk_ptr]
    simp only [wp_bind, wp_rd h.hdrCell h.hdr_ne, wp_ite]
    have hroot := h.eq_root_iff'
    cases ctx with
    | nil =>
      simp only [hdCell, plug, mk_ptr, if_true, wp_pure]
      have := hQ (0, 0) _ _ (by simp) (by simp) (fun e => by simp [topBlack] at e) (by simp [plug]) h rfl ?_
      · simpa using this
      · refine ⟨xp, .red, xa, xk, xb, n + 1, rfl, ?_⟩
        rw [RB_red] at hrt
        exact ⟨n, rfl, hrt.2.2.1, hrt.2.2.2⟩
    | cons f fs =>
      have hne : ¬ (xp = (plug (f :: fs) (mk .L xp .red xa xk xb)).ptr) := by simpa using hroot
      have hx := h.focus
      have hxn := h.focus_ne_null
      simp only [par_cons] at hx
      have hfc := h.parCell
      have hfn := h.par_ne_null
      simp only [hdCell, hne, if_false, wp_rd hx hxn, cellS_parent, wp_rd hfc hfn, cellS_color]
      rcases f with ⟨fs', fp, fc, fk, fsib⟩
      cases fc with
      | black =>
        simp only [reduceCtorEq, if_false, wp_pure]
        have := hQ (0, 0) _ _ (by simp) (by simp) (fun _ => ⟨rfl, Nat.le_refl _⟩) (by simp) h.toPlug rfl ?_
        · simpa using this
        · obtain ⟨m', hm1, hm2⟩ := plug_RB hc hrt (fun _ => rfl)
          generalize hT : plug _ _ = T at *
          cases T with
          | nil => exact absurd hT (by
              intro e
              have := root_mem_ctxPtrs (f := ⟨fs', fp, .black, fk, fsib⟩) (fs := fs) (t := mk .L xp .red xa xk xb)
              rw [e] at this
              exact h.ne_null (mem_plug_ptrs.2 (Or.inl this)) rfl)
          | node p c l k r =>
            simp only [T.color] at hm2
            subst hm2
            exact ⟨p, .black, l, k, r, m', rfl, hm1⟩
      | red =>
        obtain ⟨h1, h2, h3, h4⟩ := hc
        cases fs with
        | nil => exact absurd h3 (by simp [topBlack])
        | cons g gs =>
          rcases g with ⟨s, gp, gc, gk, gsib⟩
          simp only [topBlack] at h3
          subst h3
          obtain ⟨h5, h6⟩ := h4
          have hup := h.up
          have hgc := hup.parCell
          have hgn := hup.par_ne_null
          simp only at hgc hgn
          simp only [if_true, par_cons, wp_rd hgc hgn, mk_ptr]
          have hch := hup.child_eq mk_ne_nil .L
          simp only [TNode.child, mk_ptr] at hch
          have hrec : ∀ c ctx' t' n' H', ((c = 0 ∧ ctx'.length = gs.length ∧ (topBlack ctx' ∧ phi (plug ctx' t') ≤ phi (plug (⟨fs', fp, .red, fk, fsib⟩ :: ⟨s, gp, .black, gk, gsib⟩ :: gs) (mk .L xp .red xa xk xb)) + 1 ∨ phi (plug ctx' t') + 1 ≤ phi (plug (⟨fs', fp, .red, fk, fsib⟩ :: ⟨s, gp, .black, gk, gsib⟩ :: gs) (mk .L xp .red xa xk xb)))) ∨
                (c ≤ 2 ∧ topBlack ctx' ∧ phi (plug ctx' t') ≤ phi (plug (⟨fs', fp, .red, fk, fsib⟩ :: ⟨s, gp, .black, gk, gsib⟩ :: gs) (mk .L xp .red xa xk xb)) + 2)) →
                Z H0 hdr hi ctx' t' H' → ctx'.length ≤ gs.length + 1 → t'.color = .red → RB t' n' → CRB ctx' n' →
              (plug ctx' t').nodes = (plug (⟨fs', fp, .red, fk, fsib⟩ :: ⟨s, gp, .black, gk, gsib⟩ :: gs) (mk .L xp .red xa xk xb)).nodes →
              wp (insFixN hdr t'.ptr) (w.setHeap H') (fun a w => Q (a.1 + c, a.2 + 1) w) := by
            intro c ctx' t' n' H' hcc hz hl hcl hr' hc' hnod
            refine ih (gs.length + 1) ?_ hl (by exact hz) hcl hr' hc' ?_
            · simp at hlen; omega
            · intro a H'' T'' ha1 ha2 ha3 ha4 hz'' hn'' hal
              rw [World.setHeap_setHeap]
              have hb : a.1 + c ≤ 2 ∧ 2 * (a.2 + 1) ≤ gs.length + 2 ∧
                  a.2 + 1 + phi T'' ≤ phi (plug (⟨fs', fp, .red, fk, fsib⟩ :: ⟨s, gp, .black, gk, gsib⟩ :: gs) (mk .L xp .red xa xk xb)) + 3 := by
                rcases hcc with ⟨rfl, h1, ⟨h2, h3⟩ | h2⟩ | ⟨h1, h2, h3⟩
                · obtain ⟨rfl, h5⟩ := ha3 h2
                  simp only
                  omega
                · omega
                · obtain ⟨rfl, h5⟩ := ha3 h2
                  simp only
                  omega
              exact hQ _ _ _ hb.1 (by simpa using hb.2.1) (fun e => by simp [topBlack] at e) hb.2.2 hz'' (hn''.trans hnod) hal
          have := wp_insBodyN h (by simp) hrt h1 h2 h5 h6 hrec
          rw [mk_ptr] at this
          cases s with
          | L => rw [if_pos (hch.2 rfl)]; exact this
          | R => rw [if_neg (fun e => by simpa using hch.1 e)]; exact this

end

/-- The end of a pass of `eraseFixN`. -/
def eraFinishN (s : Side) (hdr x xParent w : Ptr) (q : Nat) : M (W K) (Ptr × Nat × Nat) := do
  setColor w (← rd xParent).color
  setColor xParent .black
  if (← rd w).child s.other ≠ .null then
    setColor ((← rd w).child s.other) .black
  rotG s hdr xParent
  pure (x, q, 1)

/-- A pass of `eraseFixN` after the sibling has become black. -/
def eraRestN (s : Side) (hdr x xParent w : Ptr) (c : Nat) (rec : Ptr → Ptr → M (W K) (Ptr × Nat × Nat)) : M (W K) (Ptr × Nat × Nat) := do
  let b1 ← blackOrNull ((← rd w).child s)
  let both ← (if b1 then do blackOrNull ((← rd w).child s.other) else pure false)
  if both then
    setColor w .red
    let r ← rec xParent (← rd xParent).parent
    pure (r.1, r.2.1 + c, r.2.2 + 1)
  else
    let b2 ← blackOrNull ((← rd w).child s.other)
    let (w, d) ← (if b2 then do
        setColor ((← rd w).child s) .black
        setColor w .red
        rotG s.other hdr w
        pure ((← rd xParent).child s.other, 1)
      else pure (w, 0))
    eraFinishN s hdr x xParent w (c + d + 1)

/-- A pass of `eraseFixN`. -/
def eraBodyN (s : Side) (hdr x xParent : Ptr) (rec : Ptr → Ptr → M (W K) (Ptr × Nat × Nat)) : M (W K) (Ptr × Nat × Nat) := do
  let w := (← rd xParent).child s.other
  let (w, c) ← (if (← rd w).color = .red then do
      setColor w .black
      setColor xParent .red
      rotG s hdr xParent
      pure ((← rd xParent).child s.other, 1)
    else pure (w, 0))
  eraRestN s hdr x xParent w c rec

theorem eraseFixN_eq (hdr x xParent : Ptr) : (eraseFixN hdr x xParent : M (W K) (Ptr × Nat × Nat)) = (do
    let root := (← rd hdr).parent
    if x = root then pure (x, 0, 0) else do
    if (← blackOrNull x) then
      if x = (← rd xParent).left then eraBodyN .L hdr x xParent (eraseFixN hdr)
      else eraBodyN .R hdr x xParent (eraseFixN hdr)
    else pure (x, 0, 0)) := by
  rw [eraseFixN]
  congr 1; funext a
  dsimp only
  by_cases h1 : x = a.parent
  · rw [if_pos h1, if_pos h1]
  rw [if_neg h1, if_neg h1]
  congr 1; funext b
  cases b
  · rfl
  · simp only [if_true]
    congr 1; funext e
    by_cases h : x = e.left
    · simp only [if_pos h]; rfl
    · simp only [if_neg h]; rfl

section
variable {H0 : Ptr → Option (TNode K)} {hdr : Ptr} {hi : Hd} {w : W K}

theorem wp_eraFinishN {fs : Ctx K} {n q : Nat} {Q : Ptr × Nat × Nat → W K → Prop} {s : Side} {fp wp_ bp : Ptr} {fc : Color}
    {fk wk bk : K} {wa ba bb t : T K}
    (h : Z H0 hdr hi (⟨s, fp, fc, fk, mk s wp_ .black wa wk (mk s bp .red ba bk bb)⟩ :: fs) t w.heap)
    (ht : t.color = .black) (hrt : RB t n) (hwa : RB wa n) (hba : RB ba n) (hbb : RB bb n)
    (hfs : if fc = .red then topBlack fs ∧ CRB fs (n + 1) else CRB fs (n + 2))
    (hQ : ∀ H' ctx', Z H0 hdr hi ctx' t H' → EraDone ctx' t →
      (plug ctx' t).nodes = (plug (⟨s, fp, fc, fk, mk s wp_ .black wa wk (mk s bp .red ba bk bb)⟩ :: fs) t).nodes →
      phi (plug ctx' t) ≤ phi (plug (⟨s, fp, fc, fk, mk s wp_ .black wa wk (mk s bp .red ba bk bb)⟩ :: fs) t) + 3 →
      Q (t.ptr, q, 1) (w.setHeap H')) :
    wp (eraFinishN s hdr t.ptr fp wp_ q) w Q := by
  have hfc := h.parCell
  have hfn := h.par_ne_null
  simp only at hfc hfn
  unfold eraFinishN
  simp only [wp_bind]
  rw [wp_rd hfc hfn]
  simp only [cellS_color]
  refine wp_setColor_sib (f := ⟨s, fp, fc, fk, .nil⟩) (c' := fc) (by exact h) (fun H1 h1 => ?_)
  refine wp_setColor_par (f := ⟨s, fp, fc, fk, _⟩) (c' := .black) (by exact h1) (fun H2 h2 => ?_)
  simp only [World.setHeap_setHeap]
  have hsib := h2.sibRep
  simp only at hsib
  have hw2 := (Rep_mk.1 hsib.1).1
  have hwn : wp_ ≠ .null := fun e => hsib.2 (e ▸ mem_ptrs_mk.2 (Or.inl rfl))
  have hbn : bp ≠ .null := fun e => hsib.2 (e ▸ mem_ptrs_mk.2 (Or.inr (Or.inr (mem_ptrs_mk.2 (Or.inl rfl)))))
  rw [wp_rd (by exact hw2) hwn]
  simp only [cellS_child_other, mk_ptr, ne_eq, hbn, not_false_eq_true, if_true, wp_bind]
  rw [wp_rd (by exact hw2) hwn]
  simp only [cellS_child_other, mk_ptr]
  -- focus the far nephew
  have h3 := h2.up
  simp only at h3
  rw [← mk_other, ← mk_other s wp_] at h3
  have h4 := h3.down.down
  refine wp_setColor_focus (c' := .black) (by exact h4) (fun H5 h5 => ?_)
  have h6 := h5.up.up
  simp only at h6
  rw [mk_other, mk_other] at h6
  refine wp_rotG (by exact h6) (fun H7 h7 => ?_)
  simp only [World.setHeap_setHeap, wp_pure]
  refine hQ H7 _ h7.down.down ?_ ?_ ?_
  · unfold EraDone
    rw [blacken_of_black ht]
    by_cases hc : fc = .red
    · subst hc
      simp only [if_true] at hfs
      refine plug_RB (n := n) ?_ hrt (fun e => by rw [ht] at e; cases e)
      refine ⟨hwa, by simp, ?_, hfs.1, hfs.2⟩
      exact RB_black.2 ⟨hba, hbb⟩
    · have : fc = .black := by cases fc <;> simp_all
      subst this
      simp only [reduceCtorEq, if_false] at hfs
      refine plug_RB (n := n) ?_ hrt (fun e => by rw [ht] at e; cases e)
      refine ⟨hwa, RB_black.2 ⟨hba, hbb⟩, hfs⟩
  · simp only [plug, plug_nodes]
    cases s <;> simp [mk, T.nodes]
  · have h1 := fw_le .black ba.color bb.color
    have h2 := fw_bb_le wa.color
    simp only [phi_plug, phi_mk, mk_color, cphi, ht, fw_red]
    omega

theorem wp_eraRestN {fs : Ctx K} {n d : Nat} {Q : Ptr × Nat × Nat → W K → Prop} {s : Side} {fp wp_ : Ptr} {fc : Color}
    {fk wk : K} {wa wb t : T K} {rec : Ptr → Ptr → M (W K) (Ptr × Nat × Nat)}
    (h : Z H0 hdr hi (⟨s, fp, fc, fk, mk s wp_ .black wa wk wb⟩ :: fs) t w.heap)
    (ht : t.color = .black) (hrt : RB t n) (hwa : RB wa n) (hwb : RB wb n)
    (hfs : if fc = .red then topBlack fs ∧ CRB fs (n + 1) else CRB fs (n + 2))
    (hrec : ∀ H', Z H0 hdr hi fs (mk s fp fc t fk (mk s wp_ .red wa wk wb)) H' →
      RB (mk s fp .black t fk (mk s wp_ .red wa wk wb)) (n + 1) →
      phi (plug fs (mk s fp fc t fk (mk s wp_ .red wa wk wb))) + 1 ≤ phi (plug (⟨s, fp, fc, fk, mk s wp_ .black wa wk wb⟩ :: fs) t) →
      wp (rec fp (par hdr fs)) (w.setHeap H') fun a w => Q (a.1, a.2.1 + d, a.2.2 + 1) w)
    (hQ : ∀ q H' ctx', q ≤ d + 2 → Z H0 hdr hi ctx' t H' → EraDone ctx' t →
      (plug ctx' t).nodes = (plug (⟨s, fp, fc, fk, mk s wp_ .black wa wk wb⟩ :: fs) t).nodes →
      phi (plug ctx' t) ≤ phi (plug (⟨s, fp, fc, fk, mk s wp_ .black wa wk wb⟩ :: fs) t) + 5 →
      Q (t.ptr, q, 1) (w.setHeap H')) :
    wp (eraRestN s hdr t.ptr fp wp_ d rec) w Q := by
  have hsib := h.sibRep
  simp only at hsib
  obtain ⟨hw, hra, hrb⟩ := Rep_mk.1 hsib.1
  have hwn : wp_ ≠ .null := fun e => hsib.2 (e ▸ mem_ptrs_mk.2 (Or.inl rfl))
  have h0a : Ptr.null ∉ wa.ptrs := fun e => hsib.2 (mem_ptrs_mk.2 (Or.inr (Or.inl e)))
  have h0b : Ptr.null ∉ wb.ptrs := fun e => hsib.2 (mem_ptrs_mk.2 (Or.inr (Or.inr e)))
  unfold eraRestN
  simp only [wp_bind]
  rw [wp_rd hw hwn]
  simp only [cellS_child]
  refine wp_blackOrNull hra h0a ?_
  have hboth : wp (if (decide (wa.color = .black)) = true then (do
        let a ← rd wp_; blackOrNull (a.child s.other)) else pure false) w
      (fun b w' => b = decide (wa.color = .black ∧ wb.color = .black) ∧ w' = w) := by
    by_cases ha : wa.color = .black
    · simp only [ha, decide_true, if_true, wp_bind, true_and]
      rw [wp_rd hw hwn, cellS_child_other]
      exact wp_blackOrNull hrb h0b (by simp)
    · simp [ha]
  refine wp_mono (by simpa only [wp_bind] using hboth) ?_
  rintro b w' ⟨rfl, rfl⟩
  by_cases hbb : wa.color = .black ∧ wb.color = .black
  · simp only [hbb, and_self, decide_true, if_true, wp_bind]
    refine wp_setColor_sib (f := ⟨s, fp, fc, fk, .nil⟩) (c' := .red) (by exact h) (fun H1 h1 => ?_)
    have hp1 := h1.parCell
    simp only at hp1
    rw [wp_rd (by exact hp1) h1.par_ne_null]
    simp only [cellS_parent]
    have := hrec H1 h1.up ?_ ?_
    · simpa using this
    rotate_left
    · have h1 := fw_bb_le .black
      have h2 : fw fc .black .red ≤ fw fc .black .black := by cases fc <;> simp [fw]
      simp only [phi_plug, phi_mk, mk_color, cphi, ht, hbb.1, hbb.2, fw_red, fw_bbb]
      omega
    rw [RB_black]
    exact ⟨hrt, RB_red.2 ⟨hbb.1, hbb.2, hwa, hwb⟩⟩
  · simp only [hbb, decide_false, Bool.false_eq_true, if_false, wp_bind]
    rw [wp_rd hw hwn]
    simp only [cellS_child_other]
    refine wp_blackOrNull hrb h0b ?_
    by_cases hb : wb.color = .black
    · have ha : wa.color = .red := by cases hh : wa.color <;> simp_all
      obtain ⟨ap, ac, aa, ak, ab, rfl⟩ := exists_mk s (ne_nil_of_red ha)
      simp only [mk_color] at ha
      subst ha
      simp only [hb, decide_true, if_true, wp_bind]
      rw [wp_rd hw hwn]
      simp only [cellS_child, mk_ptr]
      rw [RB_red] at hwa
      -- focus the near nephew
      have h2 := h.up
      simp only at h2
      rw [← mk_other] at h2
      have h3 := h2.down.down
      refine wp_setColor_focus (c' := .black) (by exact h3) (fun H4 h4 => ?_)
      refine wp_setColor_par (f := ⟨s, wp_, .black, wk, wb⟩) (c' := .red) (by exact h4) (fun H5 h5 => ?_)
      have h6 := h5.up
      simp only at h6
      rw [← mk_other, ← mk_other s ap] at h6
      refine wp_rotG (by exact h6) (fun H7 h7 => ?_)
      simp only [wp_pure, World.setHeap_setHeap]
      have h8 := h7.up
      simp only at h8
      rw [mk_other, mk_other, mk_other] at h8
      have h9 := h8.down
      have hp9 := h9.parCell
      simp only at hp9
      rw [wp_rd (by exact hp9) h9.par_ne_null]
      simp only [cellS_child_other, mk_ptr]
      refine wp_eraFinishN (n := n) (by exact h9) ht hrt hwa.2.2.1 hwa.2.2.2 hwb hfs ?_
      intro H' ctx' hz hd hnod hph
      rw [World.setHeap_setHeap]
      refine hQ _ H' ctx' (by omega) hz hd ?_ ?_
      · rw [hnod]
        simp only [plug, plug_nodes]
        cases s <;> simp [mk, T.nodes]
      · have h1 := fw_le .black aa.color .red
        refine Nat.le_trans hph ?_
        simp only [phi_plug, phi_mk, mk_color, cphi, ht, fw_red]
        omega
    · have hbr : wb.color = .red := by cases hh : wb.color <;> simp_all
      obtain ⟨bp, bc, ba, bk, bb, rfl⟩ := exists_mk s (ne_nil_of_red hbr)
      simp only [mk_color] at hbr
      subst hbr
      simp only [hb, decide_false, Bool.false_eq_true, if_false, wp_pure]
      rw [RB_red] at hwb
      exact wp_eraFinishN (n := n) h ht hrt hwa hwb.2.2.1 hwb.2.2.2 hfs fun H' ctx' hz hd hn hph => hQ _ H' ctx' (by omega) hz hd hn (by omega)

/-- The loop stops at a red focus. -/
theorem wp_eraseFixN_red {ctx : Ctx K} {t : T K} {Q : Ptr × Nat × Nat → W K → Prop} (h : Z H0 hdr hi ctx t w.heap)
    (hr : t.color = .red) (hQ : Q (t.ptr, 0, 0) w) {xp : Ptr} : wp (eraseFixN hdr t.ptr xp) w Q := by
  rw [eraseFixN_eq]
  simp only [wp_bind, wp_rd h.hdrCell h.hdr_ne, wp_ite]
  split
  · exact hQ
  · refine wp_blackOrNull h.rep h.null_notMem_focus ?_
    simpa [hr] using hQ

theorem wp_eraseFixN (m : Nat) : ∀ {ctx : Ctx K} {t : T K} {w : W K} {Q : Ptr × Nat × Nat → W K → Prop},
    ctx.length ≤ m → Z H0 hdr hi ctx t w.heap → Short ctx t →
    (∀ r i H' ctx' t', r ≤ 3 → i ≤ ctx.length → Z H0 hdr hi ctx' t' H' → (plug ctx' t').nodes = (plug ctx t).nodes → EraDone ctx' t' →
      i + phi (plug ctx' t') ≤ phi (plug ctx t) + 6 → Q (t'.ptr, r, i) (w.setHeap H')) →
    wp (eraseFixN hdr t.ptr (par hdr ctx)) w Q := by
  induction m with
  | zero =>
    intro ctx t w Q hlen h hs hQ
    have : ctx = [] := by cases ctx <;> simp_all
    subst this
    rw [eraseFixN_eq]
    simp only [wp_bind, wp_rd h.hdrCell h.hdr_ne, wp_ite]
    simp only [hdCell, plug, if_true, wp_pure]
    have := hQ 0 0 _ _ _ (by simp) (by simp) h rfl (hs.done (Or.inl rfl)) (by omega)
    simpa using this
  | succ m ih =>
    intro ctx t w Q hlen h hs hQ
    cases ctx with
    | nil =>
      rw [eraseFixN_eq]
      simp only [wp_bind, wp_rd h.hdrCell h.hdr_ne, wp_ite]
      simp only [hdCell, plug, if_true, wp_pure]
      have := hQ 0 0 _ _ _ (by simp) (by simp) h rfl (hs.done (Or.inl rfl)) (by omega)
      simpa using this
    | cons f fs =>
      rcases f with ⟨s, fp, fc, fk, fsib⟩
      have hroot : ¬ t.ptr = (plug (⟨s, fp, fc, fk, fsib⟩ :: fs) t).ptr := by
        rw [h.eq_root_iff]; simp
      rw [eraseFixN_eq]
      simp only [wp_bind, wp_rd h.hdrCell h.hdr_ne]
      simp only [hdCell]
      refine wp_if_neg hroot ?_
      simp only [wp_bind, par_cons]
      refine wp_blackOrNull h.rep h.null_notMem_focus ?_
      by_cases htc : t.color = .black
      · simp only [htc, decide_true, if_true, wp_bind]
        obtain ⟨n, hrt, hcrb⟩ := hs
        rw [blacken_of_black htc] at hrt
        simp only [htc, reduceCtorEq, if_false] at hrt
        -- the sibling is not empty
        have hsn : fsib ≠ .nil := by
          rintro rfl
          cases fc with
          | red => have := hcrb.2.1; simp only [RB] at this; omega
          | black => have := hcrb.1; simp only [RB] at this; omega
        have hfc := h.parCell
        have hfn := h.par_ne_null
        simp only at hfc hfn
        rw [wp_rd hfc hfn]
        have body : wp (eraBodyN s hdr t.ptr fp (eraseFixN hdr)) w Q := by
          obtain ⟨wp_, wc, wa, wk, wb, rfl⟩ := exists_mk s hsn
          have hsib := h.sibRep
          simp only at hsib
          have hw := (Rep_mk.1 hsib.1).1
          have hwn : wp_ ≠ .null := fun e => hsib.2 (e ▸ mem_ptrs_mk.2 (Or.inl rfl))
          unfold eraBodyN
          simp only [wp_bind]
          rw [wp_rd hfc hfn]
          simp only [cellS_child_other, mk_ptr]
          rw [wp_rd hw hwn]
          simp only [cellS_color]
          cases wc with
          | red =>
            have hfb : fc = .black := by
              cases fc with
              | red => have := hcrb.1; simp at this
              | black => rfl
            subst hfb
            obtain ⟨h1, h2⟩ := hcrb
            rw [RB_red] at h1
            obtain ⟨ha, hb, hra, hrb⟩ := h1
            have han : wa ≠ .nil := by rintro rfl; simp only [RB] at hra; omega
            obtain ⟨ap, ac, aa, ak, ab, rfl⟩ := exists_mk s han
            simp only [mk_color] at ha
            subst ha
            rw [RB_black] at hra
            simp only [if_true, wp_bind]
            refine wp_setColor_sib (f := ⟨s, fp, .black, fk, .nil⟩) (c' := .black) (by exact h) (fun H1 h1 => ?_)
            refine wp_setColor_par (f := ⟨s, fp, .black, fk, _⟩) (c' := .red) (by exact h1) (fun H2 h2' => ?_)
            have h3 := h2'.up
            refine wp_rotG (by exact h3) (fun H4 h4 => ?_)
            have h5 := h4.down.down
            have hp5 := h5.parCell
            simp only at hp5
            rw [wp_rd (by exact hp5) h5.par_ne_null]
            simp only [wp_pure, cellS_child_other, mk_ptr, World.setHeap_setHeap]
            have hrot : phi (plug (⟨s, fp, .red, fk, mk s ap .black aa ak ab⟩ :: ⟨s, wp_, .black, wk, wb⟩ :: fs) t) ≤
                phi (plug (⟨s, fp, .black, fk, mk s wp_ .red (mk s ap .black aa ak ab) wk wb⟩ :: fs) t) := by
              simp only [phi_plug, phi_mk, mk_color, cphi, htc, hb, fw_red, fw_bbb, fw_bbr, fw_brb]
              omega
            refine wp_eraRestN (n := n) (d := 1) (by exact h5) htc hrt hra.1 hra.2 ?_ ?_ ?_
            · simp only [if_true]
              exact ⟨rfl, hrb, h2⟩
            · intro H' hz hrb' hph
              rw [World.setHeap_setHeap]
              have hsh : Short (⟨s, wp_, .black, wk, wb⟩ :: fs) (mk s fp .red t fk (mk s ap .red aa ak ab)) :=
                ⟨n, by simpa using hrb', hrb, h2⟩
              have := wp_eraseFixN_red (w := w.setHeap H') (Q := fun a w => Q (a.1, a.2.1 + 1, a.2.2 + 1) w) (xp := wp_) (by exact hz) (by simp) ?_
              · simpa using this
              · refine hQ 1 1 _ _ _ (by simp) (by simp) hz ?_ (hsh.done (Or.inr (by simp))) ?_
                · simp only [plug, plug_nodes]
                  cases s <;> simp [mk, T.nodes]
                · dsimp only at hph ⊢
                  omega
            · intro q H' ctx' hq hz hd hn' hph
              rw [World.setHeap_setHeap]
              refine hQ _ _ _ _ _ (by omega) (by simp) hz ?_ hd ?_
              · rw [hn']
                simp only [plug, plug_nodes]
                cases s <;> simp [mk, T.nodes]
              · dsimp only at hph ⊢
                omega
          | black =>
            simp only [reduceCtorEq, if_false, wp_pure]
            have hab : RB wa n ∧ RB wb n := by
              cases fc with
              | red => exact RB_black.1 hcrb.2.1
              | black => exact RB_black.1 hcrb.1
            have hfs : if fc = .red then topBlack fs ∧ CRB fs (n + 1) else CRB fs (n + 2) := by
              cases fc with
              | red => simpa using hcrb.2.2
              | black => simpa using hcrb.2
            refine wp_eraRestN (n := n) (d := 0) h htc hrt hab.1 hab.2 hfs ?_ ?_
            · intro H' hz hrb' hph
              have := ih (ctx := fs) (t := mk s fp fc t fk (mk s wp_ .red wa wk wb))
                (w := w.setHeap H') (Q := fun a w => Q (a.1, a.2.1 + 0, a.2.2 + 1) w) ?_ (by exact hz) ?_ ?_
              · simpa using this
              · simp at hlen; omega
              · cases fc with
                | red => exact ⟨n, by simpa using hrb', by simpa using hcrb.2.2.2⟩
                | black => exact ⟨n + 1, by simpa using hrb', by simpa using hcrb.2⟩
              · intro r i H'' ctx' t' hr1 hi1 hz' hn' hd' hph'
                rw [World.setHeap_setHeap]
                refine hQ _ _ _ _ _ (by omega) (by simp; omega) hz' ?_ hd' (by simp only; omega)
                rw [hn']
                simp only [plug, plug_nodes]
                cases s <;> simp [mk, T.nodes]
            · intro q H' ctx' hq hz hd hn' hph
              exact hQ _ _ _ _ _ (by omega) (by simp) hz hn' hd (by omega)
        have hne := h.ne_sib (Or.inr hsn)
        simp only at hne
        cases s with
        | L =>
          simp only [cellS, if_true]
          exact body
        | R =>
          simp only [cellS]
          refine wp_if_neg hne ?_
          exact body
      · simp only [htc, decide_false, Bool.false_eq_true, if_false, wp_pure]
        have hr : t.color = .red := by cases hh : t.color <;> simp_all
        have := hQ 0 0 _ _ _ (by simp) (by simp) h rfl (hs.done (Or.inr hr)) (by omega)
        simpa using this

end
end Nestl.RB
