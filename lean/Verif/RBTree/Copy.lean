import Verif.RBTree.Depth
set_option autoImplicit false
/-
Structural copy of a tree.
-/
namespace Nestl.RB
variable {K : Type}

/-- Same shape, colours and keys; different nodes. -/
def Like : T K → T K → Prop
  | .nil, .nil => True
  | .node _ c l k r, .node _ c' l' k' r' => c = c' ∧ k = k' ∧ Like l l' ∧ Like r r'
  | _, _ => False

theorem Like.color {t t' : T K} (h : Like t t') : t'.color = t.color := by
  cases t <;> cases t' <;> simp_all [Like, T.color]

theorem Like.RB {t t' : T K} (h : Like t t') {n : Nat} (hr : RB t n) : RB t' n := by
  induction t generalizing t' n with
  | nil => cases t' <;> simp_all [Like]
  | node p c l k r ihl ihr =>
    cases t' with
    | nil => exact h.elim
    | node p' c' l' k' r' =>
      obtain ⟨rfl, rfl, h1, h2⟩ := h
      cases c with
      | red => exact ⟨h1.color.trans hr.1, h2.color.trans hr.2.1, ihl h1 hr.2.2.1, ihr h2 hr.2.2.2⟩
      | black =>
        obtain ⟨m, rfl, a, b⟩ := hr
        exact ⟨m, rfl, ihl h1 a, ihr h2 b⟩

theorem Like.keys {t t' : T K} (h : Like t t') : t'.nodes.map Prod.snd = t.nodes.map Prod.snd := by
  induction t generalizing t' with
  | nil => cases t' <;> simp_all [Like]
  | node p c l k r ihl ihr =>
    cases t' with
    | nil => exact h.elim
    | node p' c' l' k' r' =>
      obtain ⟨rfl, rfl, h1, h2⟩ := h
      simp [T.nodes, ihl h1, ihr h2]

theorem Like.ne_nil {t t' : T K} (h : Like t t') (ht : t ≠ .nil) : t' ≠ .nil := by
  cases t <;> cases t' <;> simp_all [Like]

section
variable {hdr : Ptr} {w : W K} {o : Nat}

/-- The destination header is intact and owns allocator `o`. -/
def HdrOk (H : Ptr → Option (TNode K)) (hdr : Ptr) (o : Nat) : Prop :=
  ∃ hn, H hdr = some hn ∧ hn.owner = o

theorem wp_cloneNode {x : Ptr} {n : TNode K} {k : K} {Q : Ptr → W K → Prop} (hx : w.heap x = some n) (hxn : x ≠ .null)
    (hk : n.val = some k) (hh : HdrOk w.heap hdr o) (hs : ∃ i, hdr = .stk i) (herr : w.err = none)
    (hfail : ∀ w' e, Refused w → Ext w w' → w'.nCmp = w.nCmp → w'.heap = w.heap → w'.err = some e → Q .null w')
    (hok : ∀ (a : Nat) (c : TNode K) (w' : W K), Fresh w w' (.dyn a) → Ext w w' → w'.nCmp = w.nCmp →
      w'.heap = upd w.heap (.dyn a) (some { c with color := n.color, left := .null, right := .null }) →
      c.val = some k → c.owner = o → c.count = 0 → w'.err = none → Q (.dyn a) w') :
    wp (cloneNode hdr x) w Q := by
  obtain ⟨hn, hh, rfl⟩ := hh
  unfold cloneNode
  simp only [wp_bind]
  rw [wp_keyOf hx hxn hk]
  refine wp_createNode hh hs herr ?_ ?_
  · intro w' e hrf h1 h2 h3 h4
    simp only [wp_hasErr, h4, Option.isSome_some]
    refine wp_if_pos trivial ?_
    exact hfail w' e hrf h1 h2 h3 h4
  · intro a c w' _ haf h1 h2 h3 hv ho hc h4
    have ha := haf.none
    simp only [wp_hasErr, h4, Option.isSome_none]
    refine wp_if_neg (by simp) ?_
    have hxa : x ≠ .dyn a := by rintro rfl; rw [hx] at ha; cases ha
    simp only [wp_bind]
    rw [wp_rd (c := n) (by rw [h3, upd_other _ _ hxa]; exact hx) hxn]
    unfold setColor setLeft setRight
    rw [wp_modCell (c := c) (by rw [h3, upd_same]) (by simp)]
    rw [wp_modCell (by exact upd_same _ _ _) (by simp)]
    rw [wp_modCell (by exact upd_same _ _ _) (by simp)]
    simp only [World.setHeap_heap, World.setHeap_setHeap, wp_pure, upd_upd]
    refine hok a c _ ⟨ha, haf.req⟩ (h1.trans (Ext.setHeap _ _)) h2 ?_ hv ho hc h4
    rw [World.setHeap_heap, h3, upd_upd]

/-- Postcondition of a successful copy of `t` under `p`, started in `w`. -/
structure Copied (w w' : W K) (o : Nat) (p : Ptr) (t t2 : T K) : Prop where
  ext : Ext w w'
  cmp : w'.nCmp = w.nCmp
  err : w'.err = none
  like : Like t t2
  rep : Rep w'.heap o p t2
  nodup : t2.ptrs.Nodup
  dyn : ∀ q ∈ t2.ptrs, ∃ i, q = Ptr.dyn i
  fresh : ∀ q ∈ t2.ptrs, Fresh w w' q
  frame : ∀ q, q ∉ t2.ptrs → w'.heap q = w.heap q

theorem Rep.congr_fresh {H H' : Ptr → Option (TNode K)} {o pr} {t : T K} (hr : Rep H o pr t)
    (hf : ∀ q, H q ≠ none → H' q = H q) : Rep H' o pr t :=
  Rep_congr (fun q hq => hf q (by obtain ⟨n, hn, _⟩ := Rep_alloc hr q hq; rw [hn]; simp)) hr

/-- Copy specification of one subtree. -/
def CopySpec (f : Ptr → Ptr → M (W K) Ptr) (hdr : Ptr) (o : Nat) (t : T K) : Prop :=
  ∀ {w : W K} {o' : Nat} {pr p : Ptr} {Q : Ptr → W K → Prop}, t ≠ .nil → Rep w.heap o' pr t → Ptr.null ∉ t.ptrs →
    HdrOk w.heap hdr o → (∃ i, hdr = .stk i) → w.err = none →
    (∀ w' e, ¬ Good w → Ext w w' → w'.nCmp = w.nCmp → w'.heap = w.heap → w'.err = some e → Q .null w') →
    (∀ w' t2, Copied w w' o p t t2 → Q t2.ptr w') →
    wp (f t.ptr p) w Q

theorem Like.rdepth {t t' : T K} (h : Like t t') : t'.rdepth = t.rdepth := by
  induction t generalizing t' with
  | nil => cases t' <;> simp_all [Like]
  | node p c l k r ihl ihr =>
    cases t' with
    | nil => exact h.elim
    | node p' c' l' k' r' =>
      obtain ⟨rfl, rfl, h1, h2⟩ := h
      simp [T.rdepth, ihl h1, ihr h2]

theorem plug_rdepth {fs : Ctx K} (h : ∀ f ∈ fs, f.s = .L) (t : T K) :
    (plug fs t).rdepth = max (plug fs .nil).rdepth t.rdepth := by
  induction fs generalizing t with
  | nil => have := t.rdepth_pos; simp only [plug, T.rdepth]; omega
  | cons f fs ih =>
    have hf := h f (by simp)
    have ih := ih fun g hg => h g (by simp [hg])
    have := t.rdepth_pos
    simp only [plug, hf, mk]
    rw [ih (.node f.p f.c t f.k f.sib), ih (.node f.p f.c .nil f.k f.sib)]
    simp only [T.rdepth]; omega

theorem plug_ptr_irrel {fs : Ctx K} {t t' : T K} (h : t.ptr = t'.ptr) : (plug fs t).ptr = (plug fs t').ptr := by
  induction fs generalizing t t' with
  | nil => exact h
  | cons f fs ih => exact ih (by simp)

theorem wp_copyRight {x y xp base : Ptr} {c xc : Color} {k k' : K} {l r : T K} {o' : Nat} {fs : Ctx K}
    {cont : Ptr → M (W K) Ptr} {Q : Ptr → W K → Prop} {d : Nat} {rec : Ptr → Ptr → M (W K) Ptr} (ih : CopySpec rec hdr o r)
    (hd : (plug fs (.node y c .nil k .nil)).rdepth ≤ d)
    (hrep : Rep w.heap o base (plug fs (.node y c .nil k .nil))) (hok : PtrsOk hdr (plug fs (.node y c .nil k .nil)).ptrs)
    (hx : w.heap x = some (cellS .L xc xp l.ptr r.ptr k' o')) (hxn : x ≠ .null)
    (hxd : x ∉ (plug fs (.node y c .nil k .nil)).ptrs)
    (hr : Rep w.heap o' x r) (hr0 : Ptr.null ∉ r.ptrs)
    (hh : HdrOk w.heap hdr o) (herr : w.err = none)
    (hfail : ∀ w' e, ¬ Good w → Ext w w' → w'.nCmp = w.nCmp → (∀ q ∈ (plug fs (.node y c .nil k .nil)).ptrs, w'.heap q = none) →
      (∀ q, q ∉ (plug fs (.node y c .nil k .nil)).ptrs → w'.heap q = w.heap q) → w'.err = some e → Q .null w')
    (hcont : ∀ w' r2, Ext w w' → w'.nCmp = w.nCmp → w'.err = none → Like r r2 →
      Rep w'.heap o base (plug (⟨.L, y, c, k, r2⟩ :: fs) .nil) → PtrsOk hdr (plug (⟨.L, y, c, k, r2⟩ :: fs) .nil).ptrs →
      (∀ q ∈ r2.ptrs, Fresh w w' q) →
      (∀ q, q ∉ (plug (⟨.L, y, c, k, r2⟩ :: fs) .nil).ptrs → w'.heap q = w.heap q) → wp (cont l.ptr) w' Q) :
    wp (copyRightW rec (mEraseD hdr d) (plug fs (.node y c .nil k .nil)).ptr x y cont) w Q := by
  have hmem : ∀ (r2 : T K) q, q ∈ (plug fs (.node y c .nil k r2)).ptrs ↔ q ∈ ctxPtrs fs ∨ q = y ∨ q ∈ r2.ptrs := by
    intro r2 q; rw [mem_plug_ptrs, ptrs_mk_L, mem_ptrs_mk]; simp [T.ptrs, T.nodes]
  have hm0 : ∀ q, q ∈ (plug fs (.node y c .nil k .nil)).ptrs ↔ q ∈ ctxPtrs fs ∨ q = y := by
    intro q; rw [hmem]; simp [T.ptrs, T.nodes]
  have hhs := hok.hdr
  have hyd : ∃ i, y = .dyn i := hok.dyn y (by rw [hm0]; simp)
  have hyn : y ≠ .null := by obtain ⟨i, rfl⟩ := hyd; simp
  have hyh : hdr ≠ y := by
    obtain ⟨i, rfl⟩ := hyd; obtain ⟨j, rfl⟩ := hhs; simp
  have hxy : x ≠ y := by rintro rfl; exact hxd (by rw [hm0]; simp)
  unfold copyRightW
  simp only [wp_bind]
  rw [wp_rd hx hxn]
  simp only [cellS]
  by_cases hrn : r = .nil
  · subst hrn
    refine wp_if_neg (by simp [T.ptr]) ?_
    simp only [wp_bind]
    rw [wp_rd hx hxn]
    exact hcont w .nil (Ext.refl _) rfl herr trivial hrep hok (by simp [T.ptrs, T.nodes]) (fun _ _ => rfl)
  · have hrp : r.ptr ≠ .null := fun e => hr0 (e ▸ ptr_mem_ptrs hrn)
    refine wp_if_pos hrp ?_
    simp only [wp_bind]
    rw [wp_rd hx hxn]
    simp only [cellS]
    obtain ⟨hseg, hyrep⟩ := Seg_iff.1 hrep
    obtain ⟨hy, -, -⟩ := (Rep_mk (s := .L)).1 hyrep
    refine ih hrn hr hr0 hh hhs herr ?_ ?_
    · intro w1 e hng he hcm hheap herr1
      unfold setRight
      rw [wp_modCell (by rw [hheap]; exact hy) hyn]
      simp only [wp_hasErr, World.setHeap_err, herr1, Option.isSome_some]
      refine wp_if_pos trivial ?_
      simp only [wp_bind]
      have hself : upd w1.heap y (some { cellS Side.L c (par base fs) (T.nil : T K).ptr (T.nil : T K).ptr k o with right := .null }) = w.heap := by
        rw [hheap]; exact upd_self _ _ _ hy
      rw [hself]
      obtain ⟨hn, hhn, hho⟩ := hh
      refine wp_mEraseD (w := w1.setHeap w.heap) hd (by exact hrep) hok (by exact hhn) hho ?_
      intro H' h1 h2
      simp only [World.setHeap_setHeap, wp_pure]
      exact hfail _ e hng (he.trans (Ext.setHeap _ _)) hcm h1 h2 herr1
    · intro w1 r2 hcp
      have hy2 : y ∉ r2.ptrs := fun e => by have := (hcp.fresh y e).none; rw [hy] at this; cases this
      have hx2 : x ∉ r2.ptrs := fun e => by have := (hcp.fresh x e).none; rw [hx] at this; cases this
      have hy1 : w1.heap y = some _ := (hcp.frame y hy2).trans hy
      unfold setRight
      rw [wp_modCell (by exact hy1) hyn]
      simp only [wp_hasErr, World.setHeap_err, hcp.err, Option.isSome_none]
      refine wp_if_neg (by simp) ?_
      simp only [wp_bind]
      have hx1 : w1.heap x = some _ := (hcp.frame x hx2).trans hx
      rw [wp_rd (by exact (upd_other _ _ hxy).trans hx1) hxn]
      have hnd := nodup_plug_ptrs.1 hok.nodup
      have hdis : ∀ q ∈ r2.ptrs, q ∉ ctxPtrs fs := by
        intro q hq hq2
        have := (hcp.fresh q hq).none
        obtain ⟨n, hn, _⟩ := Rep_alloc hrep q (by rw [hm0]; exact Or.inl hq2)
        rw [hn] at this; cases this
      have hyfs : y ∉ ctxPtrs fs := hnd.2.2 y (by rw [ptrs_mk_L, mem_ptrs_mk]; simp)
      refine hcont _ r2 (hcp.ext.trans (Ext.setHeap _ _)) hcp.cmp hcp.err hcp.like ?_ ?_ (fun q hq => (hcp.fresh q hq).ext_right (Ext.setHeap _ _)) ?_
      · show Rep _ o base (plug fs (.node y c .nil k r2))
        rw [Seg_iff]
        refine ⟨Seg_congr (fun q hq => ?_) hseg, (Rep_mk (s := .L)).2 ⟨?_, trivial, Rep_upd hcp.rep hy2⟩⟩
        · rw [World.setHeap_heap, upd_other _ _ (by rintro rfl; exact hyfs hq), hcp.frame q (fun e => hdis q e hq)]
        · rw [World.setHeap_heap, upd_same]; rfl
      · show PtrsOk hdr (plug fs (.node y c .nil k r2)).ptrs
        refine ⟨?_, ?_, hhs⟩
        · rw [nodup_plug_ptrs]
          refine ⟨hnd.1, ?_, ?_⟩
          · rw [ptrs_mk_L, nodup_ptrs_mk]
            exact ⟨by simp [T.ptrs, T.nodes], hy2, by simp [T.ptrs, T.nodes], hcp.nodup, by simp [T.ptrs, T.nodes]⟩
          · intro q hq
            rw [ptrs_mk_L, mem_ptrs_mk] at hq
            rcases hq with rfl | hq | hq
            · exact hyfs
            · simp [T.ptrs, T.nodes] at hq
            · exact hdis q hq
        · intro q hq
          rw [hmem] at hq
          rcases hq with hq | hq | hq
          · exact hok.dyn q (by rw [hm0]; exact Or.inl hq)
          · exact hok.dyn q (by rw [hm0]; exact Or.inr hq)
          · exact hcp.dyn q hq
      · intro q hq
        replace hq : q ∉ (plug fs (.node y c .nil k r2)).ptrs := hq
        rw [hmem] at hq
        rw [World.setHeap_heap, upd_other _ _ (by grind), hcp.frame q (by grind)]

/-- Copy specification of the loop along the left spine. -/
def LoopSpec (d : Nat) (hdr : Ptr) (o : Nat) (t : T K) : Prop :=
  ∀ {w : W K} {o' : Nat} {pr base : Ptr} {f : Frame K} {fs : Ctx K} {Q : Ptr → W K → Prop}, t.rdepth ≤ d →
    (plug (f :: fs) (T.nil : T K)).rdepth ≤ d → (∀ g ∈ fs, g.s = .L) → Rep w.heap o' pr t →
    Ptr.null ∉ t.ptrs →
    HdrOk w.heap hdr o → w.err = none → f.s = .L →
    Rep w.heap o base (plug (f :: fs) .nil) → PtrsOk hdr (plug (f :: fs) .nil).ptrs →
    (∀ q ∈ t.ptrs, q ∉ (plug (f :: fs) .nil).ptrs) →
    (∀ w' e, ¬ Good w → Ext w w' → w'.nCmp = w.nCmp → (∀ q ∈ (plug (f :: fs) .nil).ptrs, w'.heap q = none) →
      (∀ q, q ∉ (plug (f :: fs) .nil).ptrs → w'.heap q = w.heap q) → w'.err = some e → Q .null w') →
    (∀ w' t2, Ext w w' → w'.nCmp = w.nCmp → w'.err = none → Like t t2 → Rep w'.heap o base (plug (f :: fs) t2) →
      PtrsOk hdr (plug (f :: fs) t2).ptrs → (∀ q ∈ t2.ptrs, Fresh w w' q) →
      (∀ q, q ∉ (plug (f :: fs) t2).ptrs → w'.heap q = w.heap q) → Q (plug (f :: fs) T.nil).ptr w') →
    wp (mCopyLoopW (mCopyD hdr d) (mEraseD hdr d) hdr (plug (f :: fs) T.nil).ptr f.p t.ptr) w Q

theorem mCopyLoopW_eq (rec : Ptr → Ptr → M (W K) Ptr) (er : Ptr → M (W K) Unit) (hdr top p x : Ptr) :
    mCopyLoopW rec er hdr top p x = (do
    if x ≠ .null then
      let y ← cloneNode hdr x
      if (← hasErr) then
        er top
        pure .null
      else do
      setLeft p y
      setParent y p
      copyRightW rec er top x y (mCopyLoopW rec er hdr top y)
    else pure top) := by
  rw [mCopyLoopW]; rfl

theorem HdrOk.upd {H : Ptr → Option (TNode K)} {q n} (h : HdrOk H hdr o) (hq : hdr ≠ q) : HdrOk (upd H q n) hdr o := by
  obtain ⟨hn, h1, h2⟩ := h
  exact ⟨hn, (upd_other _ _ hq).trans h1, h2⟩

theorem copyD_spec (hs : ∃ i, hdr = .stk i) (t : T K) (d : Nat) :
    (t.rdepth + 1 ≤ d → CopySpec (mCopyD hdr d) hdr o t) ∧ LoopSpec d hdr o t := by
  induction t generalizing d with
  | nil =>
    refine ⟨fun _ => by intro _ _ _ _ _ h; exact absurd rfl h, ?_⟩
    intro w o' pr base f fs Q _ _ _ _ _ _ herr _ hrep hok _ _ hQ
    rw [mCopyLoopW]
    refine wp_if_neg (by simp [T.ptr]) ?_
    rw [wp_pure]
    exact hQ w .nil (Ext.refl _) rfl herr trivial hrep hok (by simp [T.ptrs, T.nodes]) (fun _ _ => rfl)
  | node x c l k r ihl ihr =>
    have hmt : ∀ q, q ∈ (T.node x c l k r).ptrs ↔ q = x ∨ q ∈ l.ptrs ∨ q ∈ r.ptrs := fun q => by
      rw [ptrs_mk_L, mem_ptrs_mk]
    constructor
    · intro hd w o' pr p Q _ hsrc h0 hh _ herr hfail hQ
      obtain ⟨hx, hsl, hsr⟩ := (Rep_mk (s := .L)).1 hsrc
      have hxn : x ≠ .null := fun e => h0 (by rw [hmt, e]; simp)
      have hl0 : Ptr.null ∉ l.ptrs := fun e => h0 (by rw [hmt]; simp [e])
      have hr0 : Ptr.null ∉ r.ptrs := fun e => h0 (by rw [hmt]; simp [e])
      simp only [T.rdepth] at hd
      obtain ⟨d, rfl⟩ : ∃ e, d = e + 1 := ⟨d - 1, by omega⟩
      rw [T.ptr, mCopyD, wp_bind]
      refine wp_cloneNode hx hxn (cellS_val ..) hh hs herr ?_ ?_
      · intro w' e hrf h1 h2 h3 h4
        simp only [wp_bind, wp_hasErr, h4, Option.isSome_some]
        exact wp_if_pos trivial (hfail w' e (fun g => g.not_refused hrf) h1 h2 h3 h4)
      · intro a cc w1 haf hext hcm hheap hv ho hcnt herr1
        have ha := haf.none
        simp only [wp_bind, wp_hasErr, herr1, Option.isSome_none]
        refine wp_if_neg (by simp) ?_
        simp only [wp_bind]
        unfold setParent
        rw [wp_modCell (by rw [hheap, upd_same]) (by simp)]
        have hcell : ({ cc with color := (cellS Side.L c pr l.ptr r.ptr k o').color, left := .null, right := .null, parent := p } : TNode K)
            = cellS .L c p .null .null k o := by
          cases cc; simp only at hv ho hcnt; subst hv ho hcnt; rfl
        have hH : upd w1.heap (.dyn a) (some { cc with color := (cellS Side.L c pr l.ptr r.ptr k o').color, left := .null, right := .null, parent := p })
            = upd w.heap (.dyn a) (some (cellS .L c p .null .null k o)) := by rw [hcell, hheap, upd_upd]
        simp only at hH ⊢
        rw [hH]
        have hsrc_ne : ∀ q, w.heap q ≠ none → q ≠ .dyn a := by rintro q hq rfl; exact hq ha
        have hxa : x ≠ .dyn a := hsrc_ne x (by rw [hx]; simp)
        have hhd : hdr ≠ .dyn a := by obtain ⟨i, rfl⟩ := hs; simp
        have hsl' : ∀ n, Rep (upd w.heap (.dyn a) n) o' x l := fun n =>
          hsl.congr_fresh (fun q hq => upd_other _ _ (hsrc_ne q hq))
        have hsr' : ∀ n, Rep (upd w.heap (.dyn a) n) o' x r := fun n =>
          hsr.congr_fresh (fun q hq => upd_other _ _ (hsrc_ne q hq))
        have hp1 : (T.node (.dyn a) c .nil k .nil : T K).ptrs = [.dyn a] := by simp [T.ptrs, T.nodes]
        have hgood : Good w → Good (w1.setHeap (upd w.heap (.dyn a) (some (cellS .L c p .null .null k o)))) := by
          intro g
          refine g.ext (hext.trans (Ext.setHeap _ _)) ?_
          intro q hq
          by_cases hqa : q = .dyn a
          · subst hqa; exact Or.inr ⟨ha, haf.req⟩
          · rw [World.setHeap_heap, upd_other _ _ hqa] at hq; exact Or.inl hq
        refine wp_copyRight (w := w1.setHeap _) (fs := []) (base := p) (c := c) (k := k) (l := l) (r := r) ((ihr d).1 (by omega)) (by have := r.rdepth_pos; simp only [plug, T.rdepth]; omega) ?_ ?_
          (x := x) (xc := c) (xp := pr) (k' := k) (o' := o') ?_ hxn ?_ (by exact hsr' _) hr0
          (by exact hh.upd hhd) herr1 ?_ ?_
        · exact (Rep_mk (s := .L)).2 ⟨upd_same _ _ _, trivial, trivial⟩
        · rw [plug, hp1]
          exact ⟨by simp, by simp, hs⟩
        · exact (upd_other _ _ hxa).trans hx
        · rw [plug, hp1]; simpa using hxa
        · intro w' e hng h1 h2 h3 h4 h5
          rw [plug, hp1] at h3 h4
          refine hfail w' e (fun g => hng (hgood g)) ((hext.trans (Ext.setHeap _ _)).trans h1) (h2.trans hcm) ?_ h5
          funext q
          by_cases hq : q = .dyn a
          · subst hq; rw [h3 _ (by simp), ha]
          · rw [h4 q (by simpa using hq)]; exact upd_other _ _ hq
        · intro w2 r2 h1 h2 h3 h4 h5 h6 h7 h8
          have hm1 : ∀ q, q ∈ (plug [⟨.L, .dyn a, c, k, r2⟩] (T.nil : T K)).ptrs ↔ q = .dyn a ∨ q ∈ r2.ptrs := by
            intro q; rw [plug, plug, mem_ptrs_mk]; simp [T.ptrs, T.nodes]
          have hfr : ∀ q, w.heap q ≠ none → w2.heap q = w.heap q := by
            intro q hq
            have hqa := hsrc_ne q hq
            rw [h8 q]
            · exact upd_other _ _ hqa
            · rw [hm1]; rintro (e | e)
              · exact hqa e
              · have := (h7 q e).none
                rw [World.setHeap_heap, upd_other _ _ hqa] at this
                exact hq this
          refine (ihl d).2 (w := w2) (f := ⟨.L, .dyn a, c, k, r2⟩) (fs := []) (base := p) (o' := o') (pr := x) (by omega)
            (by have := l.rdepth_pos; have := h4.rdepth; simp only [plug, mk, T.rdepth]; omega) (by simp)
            (hsl.congr_fresh hfr) hl0 ?_ h3 rfl h5 h6 ?_ ?_ ?_
          · obtain ⟨hn, e1, e2⟩ := hh
            exact ⟨hn, (hfr _ (by rw [e1]; simp)).trans e1, e2⟩
          · intro q hq hq2
            obtain ⟨n, hn, _⟩ := Rep_alloc hsl q hq
            rw [hm1] at hq2
            have hqa := hsrc_ne q (by rw [hn]; simp)
            rcases hq2 with e | e
            · exact hqa e
            · have := (h7 q e).none
              rw [World.setHeap_heap, upd_other _ _ hqa, hn] at this
              cases this
          · intro w3 e hng g1 g2 g3 g4 g5
            refine hfail w3 e (fun g => hng ((hgood g).ext h1 ?_)) (((hext.trans (Ext.setHeap _ _)).trans h1).trans g1) (g2.trans (h2.trans hcm)) ?_ g5
            · intro q hq
              by_cases hq2 : q ∈ r2.ptrs
              · exact Or.inr (h7 q hq2)
              · by_cases hqa : q = .dyn a
                · subst hqa; left; rw [World.setHeap_heap, upd_same]; simp
                · left; rw [← h8 q (by rw [hm1]; grind)]; exact hq
            funext q
            by_cases hq : q ∈ (plug [⟨.L, .dyn a, c, k, r2⟩] (T.nil : T K)).ptrs
            · rw [g3 q hq]
              rw [hm1] at hq
              rcases hq with rfl | hq
              · exact ha.symm
              · have := (h7 q hq).none
                rw [World.setHeap_heap] at this
                by_cases hqa : q = .dyn a
                · subst hqa; exact ha.symm
                · rw [upd_other _ _ hqa] at this; exact this.symm
            · rw [g4 q hq, h8 q hq]
              rw [hm1] at hq
              exact upd_other _ _ (by grind)
          · intro w3 t2 g1 g2 g3 g4 g5 g6 g7 g8
            have hfresh2 : ∀ q ∈ t2.ptrs, w.heap q = none := by
              intro q hq
              have := (g7 q hq).none
              by_cases hw : w.heap q = none
              · exact hw
              · rw [hfr q hw] at this; exact absurd this hw
            have hmp : ∀ q, q ∈ (plug [⟨.L, .dyn a, c, k, r2⟩] t2).ptrs ↔ q = .dyn a ∨ q ∈ t2.ptrs ∨ q ∈ r2.ptrs := by
              intro q; rw [plug, plug, mem_ptrs_mk]
            have hfresh1 : ∀ q ∈ r2.ptrs, w.heap q = none := by
              intro q hq
              have := (h7 q hq).none
              rw [World.setHeap_heap] at this
              by_cases hqa : q = .dyn a
              · subst hqa; exact ha
              · rw [upd_other _ _ hqa] at this; exact this
            have := hQ w3 (plug [⟨.L, .dyn a, c, k, r2⟩] t2) ⟨((hext.trans (Ext.setHeap _ _)).trans h1).trans g1,
              g2.trans (h2.trans hcm), g3, ⟨rfl, rfl, g4, h4⟩, g5, g6.nodup, g6.dyn, ?_, ?_⟩
            · simpa [plug] using this
            · intro q hq
              rw [hmp] at hq
              rcases hq with rfl | hq | hq
              · exact haf.ext_right (((Ext.setHeap _ _).trans h1).trans g1)
              · exact (g7 q hq).ext_left ((hext.trans (Ext.setHeap _ _)).trans h1) (hfresh2 q hq)
              · exact ((h7 q hq).ext_left (hext.trans (Ext.setHeap _ _)) (hfresh1 q hq)).ext_right g1
            · intro q hq
              rw [g8 q hq]
              rw [hmp] at hq
              rw [h8 q (by rw [hm1]; grind)]
              exact upd_other _ _ (by grind)
    · intro w o' pr base f fs Q hd hdp hL hsrc h0 hh herr hfs hrep hok hdis hfail hQ
      obtain ⟨hx, hsl, hsr⟩ := (Rep_mk (s := .L)).1 hsrc
      have hxn : x ≠ .null := fun e => h0 (by rw [hmt, e]; simp)
      have hl0 : Ptr.null ∉ l.ptrs := fun e => h0 (by rw [hmt]; simp [e])
      have hr0 : Ptr.null ∉ r.ptrs := fun e => h0 (by rw [hmt]; simp [e])
      simp only [T.rdepth] at hd
      have hLf : ∀ g ∈ f :: fs, g.s = .L := by
        intro g hg
        rcases List.mem_cons.1 hg with rfl | hg
        · exact hfs
        · exact hL g hg
      rw [T.ptr, mCopyLoopW_eq]
      refine wp_if_pos hxn ?_
      rw [wp_bind]
      refine wp_cloneNode hx hxn (cellS_val ..) hh hs herr ?_ ?_
      · intro w' e hrf h1 h2 h3 h4
        simp only [wp_bind, wp_hasErr, h4, Option.isSome_some]
        refine wp_if_pos trivial ?_
        simp only [wp_bind]
        obtain ⟨hn, e1, e2⟩ := hh
        refine wp_mEraseD hdp (by rw [h3]; exact hrep) hok (by rw [h3]; exact e1) e2 ?_
        intro H' g1 g2
        rw [wp_pure]
        exact hfail _ e (fun g => g.not_refused hrf) (h1.trans (Ext.setHeap _ _)) h2 g1 (fun q hq => (g2 q hq).trans (by rw [h3])) h4
      · intro a cc w1 haf hext hcm hheap hv ho hcnt herr1
        have ha := haf.none
        simp only [wp_bind, wp_hasErr, herr1, Option.isSome_none]
        refine wp_if_neg (by simp) ?_
        simp only [wp_bind]
        have hsrc_ne : ∀ q, w.heap q ≠ none → q ≠ .dyn a := by rintro q hq rfl; exact hq ha
        have hfmem : f.p ∈ (plug (f :: fs) (T.nil : T K)).ptrs :=
          mem_plug_ptrs.2 (Or.inl (mem_ctxPtrs_cons.2 (Or.inl rfl)))
        obtain ⟨hseg, -⟩ := Seg_iff.1 hrep
        obtain ⟨hs1, hs2, hs3⟩ := hseg
        have hfa : f.p ≠ .dyn a := hsrc_ne _ (by rw [hs1]; simp)
        have hfn : f.p ≠ .null := by obtain ⟨i, hi⟩ := hok.dyn _ hfmem; rw [hi]; simp
        unfold setLeft setParent
        rw [wp_modCell (by rw [hheap, upd_other _ _ hfa]; exact hs1) hfn]
        rw [wp_modCell (by rw [World.setHeap_heap, upd_other _ _ (Ne.symm hfa), hheap, upd_same]) (by simp)]
        simp only [World.setHeap_heap, World.setHeap_setHeap]
        have hcell : ({ cc with color := (cellS Side.L c pr l.ptr r.ptr k o').color, left := .null, right := .null, parent := f.p } : TNode K)
            = cellS .L c f.p .null .null k o := by
          cases cc; simp only at hv ho hcnt; subst hv ho hcnt; rfl
        have hfc : ({ cellS f.s f.c (par base fs) (T.nil : T K).ptr f.sib.ptr f.k o with left := .dyn a } : TNode K)
            = cellS f.s f.c (par base fs) (.dyn a) f.sib.ptr f.k o := by rw [hfs]; rfl
        have hH : upd (upd w1.heap f.p (some { cellS f.s f.c (par base fs) (T.nil : T K).ptr f.sib.ptr f.k o with left := .dyn a })) (.dyn a)
            (some { cc with color := (cellS Side.L c pr l.ptr r.ptr k o').color, left := .null, right := .null, parent := f.p })
            = upd (upd w.heap f.p (some (cellS f.s f.c (par base fs) (.dyn a) f.sib.ptr f.k o))) (.dyn a) (some (cellS .L c f.p .null .null k o)) := by
          rw [hcell, hfc, hheap, upd_comm _ _ _ (Ne.symm hfa), upd_upd]
        simp only at hH ⊢
        rw [hH]
        clear hH
        generalize hH2 : upd (upd w.heap f.p (some (cellS f.s f.c (par base fs) (.dyn a) f.sib.ptr f.k o))) (.dyn a) (some (cellS .L c f.p .null .null k o)) = H2
        have hH2a : H2 (.dyn a) = some (cellS .L c f.p .null .null k o) := by rw [← hH2, upd_same]
        have hH2f : H2 f.p = some (cellS f.s f.c (par base fs) (.dyn a) f.sib.ptr f.k o) := by
          rw [← hH2, upd_other _ _ hfa, upd_same]
        have hH2o : ∀ q, q ≠ f.p → q ≠ .dyn a → H2 q = w.heap q := by
          intro q h1 h2; rw [← hH2, upd_other _ _ h2, upd_other _ _ h1]
        have hxa : x ≠ .dyn a := hsrc_ne x (by rw [hx]; simp)
        have hhd : hdr ≠ .dyn a := by obtain ⟨i, rfl⟩ := hs; simp
        have hhf : hdr ≠ f.p := by
          obtain ⟨i, rfl⟩ := hs; obtain ⟨j, hj⟩ := hok.dyn _ hfmem; rw [hj]; simp
        have hsrcm : ∀ q, q ∈ (T.node x c l k r).ptrs → H2 q = w.heap q := by
          intro q hq
          obtain ⟨n, hn, _⟩ := Rep_alloc hsrc q hq
          exact hH2o q (by rintro rfl; exact hdis _ hq hfmem) (hsrc_ne q (by rw [hn]; simp))
        have hsl' : Rep H2 o' x l := Rep_congr (fun q hq => hsrcm q (by rw [hmt]; simp [hq])) hsl
        have hsr' : Rep H2 o' x r := Rep_congr (fun q hq => hsrcm q (by rw [hmt]; simp [hq])) hsr
        have hpl : ∀ q, q ∈ (plug (f :: fs) (.node (.dyn a) c .nil k .nil)).ptrs ↔ q ∈ (plug (f :: fs) (T.nil : T K)).ptrs ∨ q = .dyn a := by
          intro q; rw [mem_plug_ptrs, mem_plug_ptrs]; simp [T.ptrs, T.nodes]
        have hnd := nodup_plug_ptrs.1 hok.nodup
        have hnc := nodup_ctxPtrs_cons.1 hnd.1
        have hafs : .dyn a ∉ ctxPtrs (f :: fs) := by
          intro e
          obtain ⟨n, hn, _⟩ := Rep_alloc hrep _ (mem_plug_ptrs.2 (Or.inl e))
          rw [ha] at hn; cases hn
        have htop : (plug (f :: fs) (T.nil : T K)).ptr = (plug (f :: fs) (.node (.dyn a) c .nil k .nil)).ptr := by
          simp only [plug]; exact plug_ptr_irrel (by simp)
        rw [htop]
        have hgood : Good w → Good (w1.setHeap H2) := by
          intro g
          refine g.ext (hext.trans (Ext.setHeap _ _)) ?_
          intro q hq
          by_cases hqa : q = .dyn a
          · subst hqa; exact Or.inr ⟨ha, haf.req⟩
          · by_cases hqf : q = f.p
            · subst hqf; left; rw [hs1]; simp
            · rw [World.setHeap_heap, hH2o q hqf hqa] at hq; exact Or.inl hq
        refine wp_copyRight (w := w1.setHeap H2) (fs := f :: fs) (base := base) (c := c) (k := k) (l := l) (r := r) ((ihr d).1 (by omega)) (by have := r.rdepth_pos; rw [plug_rdepth hLf]; simp only [T.rdepth]; omega) ?_ ?_
          (x := x) (xc := c) (xp := pr) (k' := k) (o' := o') ?_ hxn ?_ (by exact hsr') hr0
          ?_ herr1 ?_ ?_
        · show Rep H2 o base _
          rw [Seg_iff]
          refine ⟨⟨hH2f, ?_, ?_⟩, (Rep_mk (s := .L)).2 ⟨hH2a, trivial, trivial⟩⟩
          · refine Rep_congr (fun q hq => hH2o q ?_ ?_) hs2
            · rintro rfl; exact hnc.1 hq
            · rintro rfl; exact hafs (mem_ctxPtrs_cons.2 (Or.inr (Or.inl hq)))
          · refine Seg_congr (fun q hq => hH2o q ?_ ?_) hs3
            · rintro rfl; exact hnc.2.1 hq
            · rintro rfl; exact hafs (mem_ctxPtrs_cons.2 (Or.inr (Or.inr hq)))
        · refine ⟨?_, ?_, hs⟩
          · rw [nodup_plug_ptrs]
            refine ⟨hnd.1, by simp [T.ptrs, T.nodes], ?_⟩
            intro q hq
            simp [T.ptrs, T.nodes] at hq
            rw [hq]; exact hafs
          · intro q hq
            rw [hpl] at hq
            rcases hq with hq | rfl
            · exact hok.dyn q hq
            · exact ⟨a, rfl⟩
        · exact (hsrcm x (by rw [hmt]; simp)).trans hx
        · rw [hpl]; rintro (e | e)
          · exact hdis x (by rw [hmt]; simp) e
          · exact hxa e
        · obtain ⟨hn, e1, e2⟩ := hh
          exact ⟨hn, (hH2o _ hhf hhd).trans e1, e2⟩
        · intro w' e hng h1 h2 h3 h4 h5
          refine hfail w' e (fun g => hng (hgood g)) ((hext.trans (Ext.setHeap _ _)).trans h1) (h2.trans hcm) ?_ ?_ h5
          · intro q hq; exact h3 q (by rw [hpl]; exact Or.inl hq)
          · intro q hq
            by_cases hqa : q = .dyn a
            · subst hqa; rw [h3 _ (by rw [hpl]; simp), ha]
            · rw [h4 q (by rw [hpl]; grind)]
              exact hH2o q (by rintro rfl; exact hq hfmem) hqa
        · intro w2 r2 h1 h2 h3 h4 h5 h6 h7 h8
          have hm1 : ∀ q, q ∈ (plug (⟨.L, .dyn a, c, k, r2⟩ :: f :: fs) (T.nil : T K)).ptrs ↔
              q ∈ (plug (f :: fs) (T.nil : T K)).ptrs ∨ q = .dyn a ∨ q ∈ r2.ptrs := by
            intro q
            rw [mem_plug_ptrs, mem_plug_ptrs, mem_ctxPtrs_cons]
            simp only [T.ptrs, T.nodes]
            grind
          have hr2w : ∀ q ∈ r2.ptrs, q ∉ (plug (f :: fs) (T.nil : T K)).ptrs ∧ w.heap q = none ∧ q ≠ .dyn a := by
            intro q hq
            have := (h7 q hq).none
            rw [World.setHeap_heap] at this
            have hqa : q ≠ .dyn a := by rintro rfl; rw [hH2a] at this; cases this
            have hqf : q ≠ f.p := by rintro rfl; rw [hH2f] at this; cases this
            rw [hH2o q hqf hqa] at this
            refine ⟨?_, this, hqa⟩
            intro e
            obtain ⟨n, hn, _⟩ := Rep_alloc hrep _ e
            rw [this] at hn; cases hn
          have hl2 : ∀ q ∈ l.ptrs, w2.heap q = w.heap q := by
            intro q hq
            obtain ⟨n, hn, _⟩ := Rep_alloc hsl q hq
            rw [h8 q, World.setHeap_heap, hsrcm q (by rw [hmt]; simp [hq])]
            rw [hm1]
            rintro (e | e | e)
            · exact hdis q (by rw [hmt]; simp [hq]) e
            · exact hsrc_ne q (by rw [hn]; simp) e
            · have := (hr2w q e).2.1; rw [hn] at this; cases this
          have htop2 : (plug (f :: fs) (.node (.dyn a) c .nil k .nil)).ptr
              = (plug (⟨.L, .dyn a, c, k, r2⟩ :: f :: fs) (T.nil : T K)).ptr := plug_ptr_irrel (fs := f :: fs) rfl
          rw [htop2]
          refine (ihl d).2 (w := w2) (f := ⟨.L, .dyn a, c, k, r2⟩) (fs := f :: fs) (base := base) (o' := o') (pr := x) (by omega)
            (by
              have := l.rdepth_pos; have := h4.rdepth
              rw [plug, plug_rdepth (fs := f :: fs) hLf]
              simp only [mk, T.rdepth]; omega) hLf
            (Rep_congr hl2 hsl) hl0 ?_ h3 rfl h5 h6 ?_ ?_ ?_
          · obtain ⟨hn, e1, e2⟩ := hh
            refine ⟨hn, ?_, e2⟩
            rw [h8 hdr, World.setHeap_heap, hH2o _ hhf hhd, e1]
            rw [hm1]
            rintro (e | e | e)
            · obtain ⟨i, hi⟩ := hok.dyn _ e; obtain ⟨j, hj⟩ := hs; rw [hi] at hj; cases hj
            · exact hhd e
            · have := (hr2w hdr e).2.1; rw [e1] at this; cases this
          · intro q hq hq2
            obtain ⟨n, hn, _⟩ := Rep_alloc hsl q hq
            rw [hm1] at hq2
            rcases hq2 with e | e | e
            · exact hdis q (by rw [hmt]; simp [hq]) e
            · exact hsrc_ne q (by rw [hn]; simp) e
            · have := (hr2w q e).2.1; rw [hn] at this; cases this
          · intro w3 e hng g1 g2 g3 g4 g5
            refine hfail w3 e (fun g => hng ((hgood g).ext h1 ?_)) (((hext.trans (Ext.setHeap _ _)).trans h1).trans g1) (g2.trans (h2.trans hcm)) ?_ ?_ g5
            · intro q hq
              by_cases hq2 : q ∈ r2.ptrs
              · exact Or.inr (h7 q hq2)
              · left
                by_cases hqm : q ∈ (plug (⟨.L, .dyn a, c, k, r2⟩ :: f :: fs) (T.nil : T K)).ptrs
                · rw [hm1] at hqm
                  rw [World.setHeap_heap]
                  by_cases hqa : q = .dyn a
                  · subst hqa; rw [hH2a]; simp
                  · by_cases hqf : q = f.p
                    · subst hqf; rw [hH2f]; simp
                    · rw [hH2o q hqf hqa]
                      obtain ⟨n, hn, _⟩ := Rep_alloc hrep q (by grind)
                      rw [hn]; simp
                · rw [← h8 q hqm]; exact hq
            · intro q hq; exact g3 q (by rw [hm1]; exact Or.inl hq)
            · intro q hq
              by_cases hq2 : q = .dyn a ∨ q ∈ r2.ptrs
              · rw [g3 q (by rw [hm1]; exact Or.inr hq2)]
                rcases hq2 with rfl | hq2
                · exact ha.symm
                · exact (hr2w q hq2).2.1.symm
              · rw [g4 q (by rw [hm1]; grind), h8 q (by rw [hm1]; grind)]
                exact hH2o q (by rintro rfl; exact hq hfmem) (by grind)
          · intro w3 t2 g1 g2 g3 g4 g5 g6 g7 g8
            rw [← htop2, ← htop]
            have hmp : ∀ q, q ∈ (plug (⟨.L, .dyn a, c, k, r2⟩ :: f :: fs) t2).ptrs ↔
                q ∈ (plug (f :: fs) (T.nil : T K)).ptrs ∨ q = .dyn a ∨ q ∈ r2.ptrs ∨ q ∈ t2.ptrs := by
              intro q
              rw [mem_plug_ptrs, mem_plug_ptrs, mem_ctxPtrs_cons]
              simp only [T.ptrs, T.nodes]
              grind
            have ht2 : ∀ q ∈ t2.ptrs, q ∉ (plug (f :: fs) (T.nil : T K)).ptrs ∧ w.heap q = none := by
              intro q hq
              have hq0 := (g7 q hq).none
              have hnot : q ∉ (plug (⟨.L, .dyn a, c, k, r2⟩ :: f :: fs) (T.nil : T K)).ptrs := by
                intro e
                obtain ⟨n, hn, _⟩ := Rep_alloc h5 q e
                rw [hq0] at hn; cases hn
              rw [h8 q hnot, World.setHeap_heap] at hq0
              rw [hm1] at hnot
              rw [hH2o q (by rintro rfl; exact hnot (Or.inl hfmem)) (by grind)] at hq0
              exact ⟨by grind, hq0⟩
            have hmq : ∀ q, q ∈ (plug (f :: fs) (T.node (.dyn a) c t2 k r2)).ptrs ↔
                q ∈ (plug (⟨.L, .dyn a, c, k, r2⟩ :: f :: fs) t2).ptrs := fun q => Iff.rfl
            have hm2 : ∀ q, q ∈ (T.node (.dyn a) c t2 k r2).ptrs ↔ q = .dyn a ∨ q ∈ t2.ptrs ∨ q ∈ r2.ptrs := fun q => by
              rw [ptrs_mk_L, mem_ptrs_mk]
            refine hQ w3 (.node (.dyn a) c t2 k r2) (((hext.trans (Ext.setHeap _ _)).trans h1).trans g1)
              (g2.trans (h2.trans hcm)) g3 ⟨rfl, rfl, g4, h4⟩ g5 g6 ?_ ?_
            · intro q hq
              rw [hm2] at hq
              rcases hq with rfl | hq | hq
              · exact haf.ext_right (((Ext.setHeap _ _).trans h1).trans g1)
              · exact (g7 q hq).ext_left ((hext.trans (Ext.setHeap _ _)).trans h1) (ht2 q hq).2
              · exact ((h7 q hq).ext_left (hext.trans (Ext.setHeap _ _)) (hr2w q hq).2.1).ext_right g1
            · intro q hq
              rw [g8 q hq]
              rw [hmq, hmp] at hq
              rw [h8 q (by rw [hm1]; grind)]
              exact hH2o q (by rintro rfl; exact hq (Or.inl hfmem)) (by grind)

theorem Sub.mCopyLoopW {rec : Ptr → Ptr → M (W K) Ptr} {er : Ptr → M (W K) Unit} {hdr : Ptr}
    (hr : ∀ x p, Sub (rec x p) (mCopy hdr x p)) (he : ∀ x, Sub (er x) (mErase hdr x)) (top p x : Ptr) :
    Sub (mCopyLoopW rec er hdr top p x) (mCopyLoop hdr top p x) := by
  revert p x
  refine RB.mCopyLoopW.fixpoint_induct rec er hdr top _ (Sub.admissible2 _) ?_
  intro f hf p x
  rw [mCopyLoop]
  refine .ite (.bind (.refl _) fun y => .bind (.refl _) fun b => .ite (.bind (he _) fun _ => .refl _) ?_) (.refl _)
  refine .bind (.refl _) fun _ => .bind (.refl _) fun _ => .bind (.refl _) fun _ => .ite ?_ ?_
  · refine .bind (.refl _) fun _ => .bind (hr _ _) fun _ => .bind (.refl _) fun _ => .bind (.refl _) fun _ =>
      .ite (.bind (he _) fun _ => .refl _) (.bind (.refl _) fun _ => hf _ _)
  · exact .bind (.refl _) fun _ => hf _ _

theorem Sub.mCopyD (hdr : Ptr) (d : Nat) (x p : Ptr) : Sub (mCopyD (K := K) hdr d x p) (mCopy hdr x p) := by
  induction d generalizing x p with
  | zero => exact .fault _ _
  | succ d ih =>
    rw [RB.mCopyD, mCopy]
    have hl := RB.Sub.mCopyLoopW ih (RB.Sub.mEraseD hdr d)
    refine .bind (.refl _) fun top => .bind (.refl _) fun _ => .ite (.refl _) (.bind (.refl _) fun _ => ?_)
    unfold copyRightW
    refine .bind (.refl _) fun _ => .ite ?_ ?_
    · refine .bind (.refl _) fun _ => .bind (ih _ _) fun _ => .bind (.refl _) fun _ => .bind (.refl _) fun _ =>
        .ite (.bind (RB.Sub.mEraseD hdr d _) fun _ => .refl _) (.bind (.refl _) fun _ => hl _ _ _)
    · exact .bind (.refl _) fun _ => hl _ _ _

/-- The same without a bound on the stack. -/
theorem copy_spec (hs : ∃ i, hdr = .stk i) (t : T K) : CopySpec (mCopy hdr) hdr o t := by
  intro w o' pr p Q h1 h2 h3 h4 h5 h6 h7 h8
  exact (RB.Sub.mCopyD hdr (t.rdepth + 1) _ _).wp ((copyD_spec hs t _).1 (Nat.le_refl _) h1 h2 h3 h4 h5 h6 h7 h8)

end
end Nestl.RB
