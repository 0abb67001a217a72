import Verif.RBTree.Rotate
set_option autoImplicit false
/-
Red-black invariant and correctness of the insertion rebalancing loop.
-/
namespace Nestl.RB
variable {K : Type}

def T.color : T K → Color
  | .nil => .black
  | .node _ c _ _ _ => c

@[simp] theorem mk_color (s : Side) (p c) (a : T K) (k b) : (mk s p c a k b).color = c := by cases s <;> rfl

/-- Red-black invariant with black height `n`: no red node has a red child, all paths have `n` black nodes. -/
def RB : T K → Nat → Prop
  | .nil, n => n = 0
  | .node _ .red l _ r, n => l.color = .black ∧ r.color = .black ∧ RB l n ∧ RB r n
  | .node _ .black l _ r, n => ∃ m, n = m + 1 ∧ RB l m ∧ RB r m

theorem RB_red {s : Side} {p} {a : T K} {k b n} :
    RB (mk s p .red a k b) n ↔ a.color = .black ∧ b.color = .black ∧ RB a n ∧ RB b n := by
  cases s <;> simp only [mk, RB] <;> grind

theorem RB_black {s : Side} {p} {a : T K} {k b n} :
    RB (mk s p .black a k b) (n + 1) ↔ RB a n ∧ RB b n := by
  cases s <;> simp only [mk, RB] <;> grind

theorem RB_black_iff {s : Side} {p} {a : T K} {k b n} :
    RB (mk s p .black a k b) n ↔ ∃ m, n = m + 1 ∧ RB a m ∧ RB b m := by
  cases s <;> simp only [mk, RB] <;> grind

/-- The innermost frame is black. -/
def topBlack : Ctx K → Prop
  | [] => False
  | f :: _ => f.c = .black

/-- The context is red-black around a hole of black height `n`, and its root is black. -/
def CRB : Ctx K → Nat → Prop
  | [], _ => True
  | f :: fs, n =>
    match f.c with
    | .red => f.sib.color = .black ∧ RB f.sib n ∧ topBlack fs ∧ CRB fs n
    | .black => RB f.sib n ∧ CRB fs (n + 1)

theorem plug_RB {ctx : Ctx K} {t : T K} {n} (hc : CRB ctx n) (ht : RB t n)
    (hr : t.color = .red → topBlack ctx) : ∃ m, RB (plug ctx t) m ∧ (plug ctx t).color = .black := by
  induction ctx generalizing t n with
  | nil =>
    refine ⟨n, ht, ?_⟩
    cases h : t.color
    · exact (hr h).elim
    · exact h
  | cons f fs ih =>
    rcases f with ⟨s, p, c, k, sib⟩
    cases c with
    | red =>
      obtain ⟨h1, h2, h3, h4⟩ := hc
      have htc : t.color = .black := by
        cases h : t.color
        · exact absurd (hr h) (by simp [topBlack])
        · rfl
      exact ih (t := mk s p .red t k sib) h4 (RB_red.2 ⟨htc, h1, ht, h2⟩) (fun _ => h3)
    | black =>
      obtain ⟨h2, h4⟩ := hc
      exact ih (t := mk s p .black t k sib) h4 (RB_black.2 ⟨ht, h2⟩) (fun h => by simp at h)

/-- A zipper decomposition of a red-black tree gives a red-black context. -/
theorem RB_unplug {ctx : Ctx K} {t : T K} {m} (h : RB (plug ctx t) m) (hb : (plug ctx t).color = .black) :
    ∃ n, CRB ctx n ∧ RB t n ∧ (t.color = .red → topBlack ctx) := by
  induction ctx generalizing t m with
  | nil => exact ⟨m, trivial, h, fun hr => by rw [plug] at hb; rw [hb] at hr; cases hr⟩
  | cons f fs ih =>
    rcases f with ⟨s, p, c, k, sib⟩
    obtain ⟨n, h1, h2, h3⟩ := ih (t := mk s p c t k sib) h hb
    cases c with
    | red =>
      rw [RB_red] at h2
      exact ⟨n, ⟨h2.2.1, h2.2.2.2, h3 (by simp), h1⟩, h2.2.2.1, fun hr => by rw [h2.1] at hr; cases hr⟩
    | black =>
      rw [RB_black_iff] at h2
      obtain ⟨m', rfl, h4, h5⟩ := h2
      exact ⟨m', ⟨h5, h1⟩, h4, fun _ => rfl⟩

/-- Red-black up to the colour of the root. -/
def AlmostRB (t : T K) : Prop := ∃ p c l k r n, t = .node p c l k r ∧ RB (.node p .black l k r) n

/-- Colour-insensitive node selection: every non-empty tree is a `mk s`. -/
theorem exists_mk (s : Side) {t : T K} (h : t ≠ .nil) : ∃ p c a k b, t = mk s p c a k b := by
  cases t with
  | nil => exact absurd rfl h
  | node p c l k r =>
    cases s
    · exact ⟨p, c, l, k, r, rfl⟩
    · exact ⟨p, c, r, k, l, rfl⟩

theorem mk_ne_nil {s : Side} {p c} {a : T K} {k b} : mk s p c a k b ≠ .nil := by cases s <;> simp [mk]

theorem ne_nil_of_red {t : T K} (h : t.color = .red) : t ≠ .nil := by rintro rfl; cases h

section
variable {H0 : Ptr → Option (TNode K)} {hdr : Ptr} {hi : Hd} {w : W K}

theorem wp_isRed {o pr} {t : T K} {Q : Bool → W K → Prop} (h : Rep w.heap o pr t) (h0 : Ptr.null ∉ t.ptrs)
    (hQ : Q (decide (t.color = .red)) w) : wp (isRed t.ptr) w Q := by
  cases t with
  | nil => simpa [isRed, T.ptr, T.color] using hQ
  | node p c l k r =>
    have hp : p ≠ .null := by rintro rfl; simp [T.ptrs, T.nodes] at h0
    simp only [isRed, T.ptr, hp, if_false, wp_bind, wp_rd h.1 hp]
    cases c <;> simpa [T.color] using hQ

theorem wp_blackOrNull {o pr} {t : T K} {Q : Bool → W K → Prop} (h : Rep w.heap o pr t) (h0 : Ptr.null ∉ t.ptrs)
    (hQ : Q (decide (t.color = .black)) w) : wp (blackOrNull t.ptr) w Q := by
  cases t with
  | nil => simpa [blackOrNull, T.ptr, T.color] using hQ
  | node p c l k r =>
    have hp : p ≠ .null := by rintro rfl; simp [T.ptrs, T.nodes] at h0
    simp only [blackOrNull, T.ptr, hp, if_false, wp_bind, wp_rd h.1 hp]
    cases c <;> simpa [T.color] using hQ

/-- Generic form of one arm of the insertion loop body (`s` = side of the parent under the grandparent). -/
def insBody (s : Side) (hdr x xpp : Ptr) (rec : Ptr → M (W K) Unit) : M (W K) Unit := do
  let y := (← rd xpp).child s.other
  if (← isRed y) then
    setColor (← rd x).parent .black
    setColor y .black
    setColor xpp .red
    rec xpp
  else
    if x = (← rd (← rd x).parent).child s.other then
      let x := (← rd x).parent
      rotG s hdr x
      setColor (← rd x).parent .black
      setColor xpp .red
      rotG s.other hdr xpp
      rec x
    else
      setColor (← rd x).parent .black
      setColor xpp .red
      rotG s.other hdr xpp
      rec x

theorem insFix_eq (hdr x : Ptr) : (insFix hdr x : M (W K) Unit) = (do
    let root := (← rd hdr).parent
    if x = root then pure () else do
    let xp := (← rd x).parent
    if (← rd xp).color = .red then
      let xpp := (← rd xp).parent
      if xp = (← rd xpp).left then insBody .L hdr x xpp (insFix hdr) else insBody .R hdr x xpp (insFix hdr)
    else pure ()) := by
  rw [insFix]; rfl

theorem Z.null_notMem_focus {H ctx} {t : T K} (h : Z H0 hdr hi ctx t H) : Ptr.null ∉ t.ptrs :=
  fun hh => h.ne_null (mem_plug_ptrs.2 (Or.inr hh)) rfl

/-- Recolour the sibling of the focus. -/
theorem wp_setColor_sib {f : Frame K} {fs : Ctx K} {t : T K} {s' p c a k b c'} {Q : Unit → W K → Prop}
    (h : Z H0 hdr hi (⟨f.s, f.p, f.c, f.k, mk s' p c a k b⟩ :: fs) t w.heap)
    (hQ : ∀ H', Z H0 hdr hi (⟨f.s, f.p, f.c, f.k, mk s' p c' a k b⟩ :: fs) t H' → Q () (w.setHeap H')) :
    wp (setColor p c') w Q := by
  have h2 := h.up
  simp only at h2
  rw [← mk_other] at h2
  refine wp_setColor_focus h2.down (fun H' h' => hQ H' ?_)
  have h3 := h'.up
  simp only at h3
  rw [mk_other] at h3
  exact h3.down

/-- Recolour the parent of the focus. -/
theorem wp_setColor_par {f : Frame K} {fs : Ctx K} {t : T K} {c'} {Q : Unit → W K → Prop}
    (h : Z H0 hdr hi (f :: fs) t w.heap)
    (hQ : ∀ H', Z H0 hdr hi (⟨f.s, f.p, c', f.k, f.sib⟩ :: fs) t H' → Q () (w.setHeap H')) :
    wp (setColor f.p c') w Q :=
  wp_setColor_focus h.up (fun H' h' => hQ H' h'.down)

/-- Which child the focus is. -/
theorem Z.child_eq {H} {f : Frame K} {fs : Ctx K} {t : T K} (h : Z H0 hdr hi (f :: fs) t H) (ht : t ≠ .nil) (s : Side) :
    (t.ptr = (cellS f.s f.c (par hdr fs) t.ptr f.sib.ptr f.k hi.own).child s) ↔ f.s = s := by
  by_cases hs : f.s = s
  · subst hs; simp
  · have hs' : s = f.s.other := by cases s <;> cases hfs : f.s <;> simp_all [Side.other]
    subst hs'
    simp [hs, h.ne_sib (Or.inl ht)]

theorem wp_insBody {gs : Ctx K} {n : Nat} {Q : Unit → W K → Prop} {s fs' : Side} {fp gp : Ptr} {fk gk : K} {fsib gsib t : T K}
    {rec : Ptr → M (W K) Unit}
    (h : Z H0 hdr hi (⟨fs', fp, .red, fk, fsib⟩ :: ⟨s, gp, .black, gk, gsib⟩ :: gs) t w.heap)
    (ht : t.color = .red) (hrt : RB t n) (hfs : fsib.color = .black) (hrf : RB fsib n) (hrg : RB gsib n)
    (hcg : CRB gs (n + 1))
    (hrec : ∀ ctx' t' n' H', Z H0 hdr hi ctx' t' H' → ctx'.length ≤ gs.length + 1 → t'.color = .red → RB t' n' → CRB ctx' n' →
      (plug ctx' t').nodes = (plug (⟨fs', fp, .red, fk, fsib⟩ :: ⟨s, gp, .black, gk, gsib⟩ :: gs) t).nodes →
      wp (rec t'.ptr) (w.setHeap H') Q) :
    wp (insBody s hdr t.ptr gp rec) w Q := by
  have htn := ne_nil_of_red ht
  obtain ⟨xp, xc, xa, xk, xb, rfl⟩ := exists_mk s htn
  simp only [mk_color] at ht
  subst ht
  have hup := h.up
  simp only at hup
  have hgc := hup.parCell
  simp only at hgc
  have hgn := hup.par_ne_null
  simp only at hgn
  have hx := h.focus
  have hxn := h.focus_ne_null
  simp only [par_cons] at hx
  have hsibrep : Rep w.heap hi.own gp gsib := hup.crep.2.1
  have h0s : Ptr.null ∉ gsib.ptrs := fun hh => hup.ne_null (p := .null)
    (mem_plug_ptrs.2 (Or.inl (mem_ctxPtrs_cons.2 (Or.inr (Or.inl hh))))) rfl
  unfold insBody
  rw [mk_ptr]
  simp only [wp_bind, wp_rd hgc hgn, cellS_child_other]
  refine wp_isRed hsibrep h0s ?_
  by_cases hg : gsib.color = .red
  · -- red uncle
    obtain ⟨yp, yc, ya, yk, yb, rfl⟩ := exists_mk s (ne_nil_of_red hg)
    simp only [mk_color] at hg
    subst hg
    simp only [mk_color, decide_true, if_true, wp_bind, wp_rd hx hxn, cellS_parent, mk_ptr]
    refine wp_setColor_focus hup (fun H1 h1 => ?_)
    refine wp_setColor_sib (f := ⟨s, gp, .black, gk, .nil⟩) (c' := .black) (by exact h1) (fun H2 h2 => ?_)
    refine wp_setColor_par (f := ⟨s, gp, .black, gk, mk s yp .black ya yk yb⟩) (c' := .red) (by exact h2) (fun H3 h3 => ?_)
    have h4 := h3.up
    simp only [World.setHeap_setHeap]
    have := hrec _ _ (n + 1) _ h4 (by simp) (by simp) ?_ hcg ?_
    · simpa using this
    · rw [RB_red, RB_black, RB_black]
      rw [RB_red] at hrg
      exact ⟨by simp, by simp, ⟨hrt, hrf⟩, hrg.2.2⟩
    · simp only [plug, plug_nodes]
      cases s <;> cases fs' <;> simp [mk, T.nodes]
  · have hgb : gsib.color = .black := by cases hh : gsib.color <;> simp_all
    have hfc := h.parCell
    have hfn := h.par_ne_null
    simp only [par_cons, mk_ptr] at hfc hfn
    simp only [hg, decide_false, Bool.false_eq_true, if_false, wp_bind, wp_rd hx hxn, cellS_parent, wp_rd hfc hfn]
    rw [RB_red] at hrt
    by_cases hs : fs' = s.other
    · subst hs
      simp only [cellS_child, if_true, wp_bind, wp_rd hx hxn, cellS_parent]
      rw [mk_other] at hup
      refine wp_rotG hup (fun H1 h1 => ?_)
      -- read parent of fp
      have hz := h1.down
      have hf1 := hz.focus
      have hf1n := hz.focus_ne_null
      simp only [par_cons] at hf1
      rw [wp_rd (by exact hf1) hf1n]
      simp only [cellS_parent]
      refine wp_setColor_focus (by exact h1) (fun H2 h2 => ?_)
      refine wp_setColor_par (f := ⟨s, gp, .black, gk, gsib⟩) (c' := .red) (by exact h2) (fun H3 h3 => ?_)
      have h4 := h3.up
      simp only at h4
      rw [← mk_other, ← mk_other s xp] at h4
      refine wp_rotG (by exact h4) (fun H5 h5 => ?_)
      rw [mk_other s xp] at h5
      have h6 := h5.down
      have := hrec _ _ n _ h6 (by simp) (by simp) ?_ ?_ ?_
      · simpa using this
      · exact RB_red.2 ⟨hfs, hrt.1, hrf, hrt.2.2.1⟩
      · exact ⟨RB_red.2 ⟨hgb, hrt.2.1, hrg, hrt.2.2.2⟩, hcg⟩
      · simp only [plug, plug_nodes]
        cases s <;> simp [mk, T.nodes, Side.other]
    · have hs' : fs' = s := by cases s <;> cases fs' <;> simp_all [Side.other]
      subst hs'
      have hns := h.ne_sib (Or.inl mk_ne_nil)
      simp only [mk_ptr] at hns
      simp only [cellS_child_other, hns, if_false, wp_bind, wp_rd hx hxn, cellS_parent]
      refine wp_setColor_focus (by exact hup) (fun H2 h2 => ?_)
      refine wp_setColor_par (f := ⟨fs', gp, .black, gk, gsib⟩) (c' := .red) (by exact h2) (fun H3 h3 => ?_)
      have h4 := h3.up
      simp only at h4
      rw [← mk_other, ← mk_other fs' fp] at h4
      refine wp_rotG (by exact h4) (fun H5 h5 => ?_)
      rw [mk_other fs' fp] at h5
      have h6 := h5.down
      have := hrec _ _ n _ h6 (by simp) (by simp) ?_ ?_ ?_
      · simpa using this
      · exact RB_red.2 hrt
      · exact ⟨RB_red.2 ⟨hgb, hfs, hrg, hrf⟩, hcg⟩
      · simp only [plug, plug_nodes]
        cases fs' <;> simp [mk, T.nodes, Side.other]

/-- The insertion loop restores the red-black invariant up to the root colour, without changing the
in-order sequence of nodes. -/
theorem wp_insFix (m : Nat) : ∀ {ctx : Ctx K} {t : T K} {n : Nat} {w : W K} {Q : Unit → W K → Prop},
    ctx.length ≤ m → Z H0 hdr hi ctx t w.heap → t.color = .red → RB t n → CRB ctx n →
    (∀ H' T', Z H0 hdr hi [] T' H' → T'.nodes = (plug ctx t).nodes → AlmostRB T' → Q () (w.setHeap H')) →
    wp (insFix hdr t.ptr) w Q := by
  induction m using Nat.strongRecOn with
  | _ m ih =>
    intro ctx t n w Q hlen h ht hrt hc hQ
    obtain ⟨xp, xc, xa, xk, xb, rfl⟩ := exists_mk .L (ne_nil_of_red ht)
    simp only [mk_color] at ht
    subst ht
    rw [insFix_eq, mk_ptr]
    simp only [wp_bind, wp_rd h.hdrCell h.hdr_ne, wp_ite]
    have hroot := h.eq_root_iff'
    cases ctx with
    | nil =>
      simp only [hdCell, plug, mk_ptr, if_true, wp_pure]
      have := hQ _ _ h rfl ?_
      · simpa using this
      · refine ⟨xp, .red, xa, xk, xb, n + 1, rfl, ?_⟩
        rw [RB_red] at hrt
        exact ⟨n, rfl, hrt.2.2.1, hrt.2.2.2⟩
    | cons f fs =>
      have hne : ¬ (xp = (plug (f :: fs) (mk .L xp .red xa xk xb)).ptr) := by simpa using hroot
      have hx := h.focus
      have hxn := h.focus_ne_null
      simp only [par_cons] at hx
      have hfc := h.parCell
      have hfn := h.par_ne_null
      simp only [hdCell, hne, if_false, wp_rd hx hxn, cellS_parent, wp_rd hfc hfn, cellS_color]
      rcases f with ⟨fs', fp, fc, fk, fsib⟩
      cases fc with
      | black =>
        simp only [reduceCtorEq, if_false, wp_pure]
        have := hQ _ _ h.toPlug rfl ?_
        · simpa using this
        · obtain ⟨m', hm1, hm2⟩ := plug_RB hc hrt (fun _ => rfl)
          generalize hT : plug _ _ = T at *
          cases T with
          | nil => exact absurd hT (by
              intro e
              have := root_mem_ctxPtrs (f := ⟨fs', fp, .black, fk, fsib⟩) (fs := fs) (t := mk .L xp .red xa xk xb)
              rw [e] at this
              exact h.ne_null (mem_plug_ptrs.2 (Or.inl this)) rfl)
          | node p c l k r =>
            simp only [T.color] at hm2
            subst hm2
            exact ⟨p, .black, l, k, r, m', rfl, hm1⟩
      | red =>
        obtain ⟨h1, h2, h3, h4⟩ := hc
        cases fs with
        | nil => exact absurd h3 (by simp [topBlack])
        | cons g gs =>
          rcases g with ⟨s, gp, gc, gk, gsib⟩
          simp only [topBlack] at h3
          subst h3
          obtain ⟨h5, h6⟩ := h4
          have hup := h.up
          have hgc := hup.parCell
          have hgn := hup.par_ne_null
          simp only at hgc hgn
          simp only [if_true, par_cons, wp_rd hgc hgn, mk_ptr]
          have hch := hup.child_eq mk_ne_nil .L
          simp only [TNode.child, mk_ptr] at hch
          have hrec : ∀ ctx' t' n' H', Z H0 hdr hi ctx' t' H' → ctx'.length ≤ gs.length + 1 → t'.color = .red → RB t' n' → CRB ctx' n' →
              (plug ctx' t').nodes = (plug (⟨fs', fp, .red, fk, fsib⟩ :: ⟨s, gp, .black, gk, gsib⟩ :: gs) (mk .L xp .red xa xk xb)).nodes →
              wp (insFix hdr t'.ptr) (w.setHeap H') Q := by
            intro ctx' t' n' H' hz hl hcl hr' hc' hnod
            refine ih (gs.length + 1) ?_ hl (by exact hz) hcl hr' hc' ?_
            · simp at hlen; omega
            · intro H'' T'' hz'' hn'' hal
              rw [World.setHeap_setHeap]
              exact hQ _ _ hz'' (hn''.trans hnod) hal
          have := wp_insBody h (by simp) hrt h1 h2 h5 h6 hrec
          rw [mk_ptr] at this
          cases s with
          | L => rw [if_pos (hch.2 rfl)]; exact this
          | R => rw [if_neg (fun e => by simpa using hch.1 e)]; exact this

end
end Nestl.RB
