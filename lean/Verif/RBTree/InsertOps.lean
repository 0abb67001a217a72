import Verif.RBTree.Iter
set_option autoImplicit false
/-
Node creation, search for the insertion point and the complete insertion.
-/
namespace Nestl.RB
variable {K : Type}

/-- Memory holds a valid tree object at `hdr` with allocator `o` and shape `t`. -/
structure Tree (H : Ptr → Option (TNode K)) (hdr : Ptr) (o : Nat) (t : T K) : Prop where
  cell : H hdr = some (hdCell ⟨firstP hdr t.nodes, lastP hdr t.nodes, o, t.nodes.length⟩ t.ptr)
  rep : Rep H o hdr t
  ok : PtrsOk hdr t.ptrs
  rb : ∃ n, RB t n
  black : t.color = .black

theorem Tree.toZ {H : Ptr → Option (TNode K)} {hdr o} {ctx : Ctx K} {t : T K} (h : Tree H hdr o (plug ctx t)) :
    Z H hdr ⟨firstP hdr (plug ctx t).nodes, lastP hdr (plug ctx t).nodes, o, (plug ctx t).nodes.length⟩ ctx t H :=
  Z.ofPlug ⟨h.cell, h.rep, h.ok, fun _ _ _ => rfl⟩

section
variable {H0 : Ptr → Option (TNode K)} {hdr : Ptr} {hi : Hd} {w : W K} {ctx : Ctx K} {t l r : T K}

theorem wp_keyOf {p n} {k : K} {Q : K → W K → Prop} (h : w.heap p = some n) (hn : p ≠ .null) (hv : n.val = some k) :
    wp (keyOf p) w Q ↔ Q k w := by
  unfold keyOf; simp [wp_rd h hn, hv]

/-- Is the hole a left child (or the root)? -/
def isL : Ctx K → Bool
  | [] => true
  | f :: _ => decide (f.s = .L)

/-- Linking a fresh node into the hole. -/
theorem wp_insLink {i : Nat} {k : K} {nx : TNode K} {Q : Unit → W K → Prop}
    (h : Z H0 hdr hi ctx .nil w.heap) (hx : w.heap (.dyn i) = some nx) (hv : nx.val = some k)
    (ho : nx.owner = hi.own) (hcnt : nx.count = 0) (hxc : Ptr.dyn i ∉ ctxPtrs ctx)
    (hlm : hi.lm = firstP hdr (pre ctx ++ post ctx)) (hrm : hi.rm = lastP hdr (pre ctx ++ post ctx))
    (hQ : ∀ H', Z H0 hdr { hi with lm := firstP hdr (pre ctx ++ (.dyn i, k) :: post ctx),
                                   rm := lastP hdr (pre ctx ++ (.dyn i, k) :: post ctx) } ctx
        (mk .L (.dyn i) .red .nil k .nil) H' → Q () (w.setHeap H')) :
    wp (insLink (isL ctx) (.dyn i) (par hdr ctx) hdr) w Q := by
  have hxn : Ptr.dyn i ≠ .null := by simp
  have hhdr := h.hdr_ne
  have hxh : hdr ≠ Ptr.dyn i := by obtain ⟨j, rfl⟩ := h.ok.hdr; simp
  have hn := nodup_plug_ptrs.1 h.ok.nodup
  have hnodes : (mk .L (Ptr.dyn i) Color.red T.nil k T.nil).nodes = [(.dyn i, k)] := rfl
  have hptrs : (mk .L (Ptr.dyn i) Color.red T.nil k T.nil).ptrs = [.dyn i] := rfl
  have hok' : PtrsOk hdr (plug ctx (mk .L (.dyn i) .red .nil k .nil)).ptrs := by
    refine ⟨?_, ?_, h.ok.hdr⟩
    · rw [nodup_plug_ptrs, hptrs]
      refine ⟨hn.1, by simp, ?_⟩
      intro q hq; simp at hq; subst hq; exact hxc
    · intro p hp
      rw [mem_plug_ptrs, hptrs] at hp
      rcases hp with hp | hp
      · exact h.ok.dyn p (mem_plug_ptrs.2 (Or.inl hp))
      · simp at hp; exact ⟨i, hp⟩
  have hfr : ∀ q, q ≠ hdr → q ∉ (plug ctx (mk .L (.dyn i) .red .nil k .nil)).ptrs →
      q ≠ .dyn i ∧ q ∉ ctxPtrs ctx ∧ w.heap q = H0 q := by
    intro q h1 h2
    rw [mem_plug_ptrs, hptrs] at h2
    refine ⟨by simp at h2; exact h2.2, by grind, h.frame q h1 ?_⟩
    rw [mem_plug_ptrs]; simp [T.ptrs, T.nodes]; grind
  have hcell : ({ color := .red, parent := par hdr ctx, left := .null, right := .null, val := nx.val, owner := nx.owner, count := nx.count } : TNode K)
      = cellS .L .red (par hdr ctx) .null .null k hi.own := by simp [cellS, hv, ho, hcnt]
  unfold insLink setParent setLeft setRight setColor
  simp only [wp_bind]
  rw [wp_modCell hx hxn, wp_modCell (upd_same _ _ _) hxn]
  simp only [World.setHeap_heap, World.setHeap_setHeap, upd_upd]
  rw [wp_modCell (upd_same _ _ _) hxn]
  simp only [World.setHeap_heap, World.setHeap_setHeap, upd_upd]
  rw [wp_modCell (upd_same _ _ _) hxn]
  simp only [World.setHeap_heap, World.setHeap_setHeap, upd_upd]
  rw [hcell]
  have hcr := h.crep
  cases ctx with
  | nil =>
    simp only [T.ptr, CtxRep] at hcr
    simp only [pre, post, List.nil_append, firstP_nil, lastP_nil] at hlm hrm
    have h1 : upd w.heap (.dyn i) (some (cellS .L .red hdr .null .null k hi.own)) hdr = some (hdCell hi .null) := by
      rw [upd_other _ _ hxh, hcr]
    simp only [isL, par_nil, if_true, wp_bind]
    rw [wp_modCell h1 hhdr]
    simp only [World.setHeap_heap, World.setHeap_setHeap]
    rw [wp_modCell (upd_same _ _ _) hhdr]
    simp only [World.setHeap_heap, World.setHeap_setHeap, upd_upd]
    rw [wp_modCell (upd_same _ _ _) hhdr]
    simp only [World.setHeap_heap, World.setHeap_setHeap, upd_upd]
    refine hQ _ ⟨?_, ?_, hok', ?_⟩
    · simp [CtxRep, hdCell, mk, T.ptr, pre, post]
    · rw [Rep_mk]
      refine ⟨?_, trivial, trivial⟩
      rw [upd_other _ _ (Ne.symm hxh), upd_same]; rfl
    · intro q h1 h2
      obtain ⟨h3, h4, h5⟩ := hfr q h1 h2
      rw [upd_other _ _ h1, upd_other _ _ h3, h5]
  | cons f fs =>
    have hfc := h.parCell
    have hfn := h.par_ne_null
    have hfh := h.par_ne_hdr
    have hfx : f.p ≠ .dyn i := by rintro e; exact hxc (by simp [mem_ctxPtrs_cons, e])
    obtain ⟨hc1, hc2, hc3⟩ := hcr
    rw [mem_ctxPtrs_cons] at hxc
    have hnc := nodup_ctxPtrs_cons.1 hn.1
    have hnd : ((pre (f :: fs) ++ post (f :: fs)).map Prod.fst).Nodup := hn.1
    simp only [par_cons] at hcell ⊢
    have h1 : upd w.heap (.dyn i) (some (cellS .L .red f.p .null .null k hi.own)) f.p = some (cellS f.s f.c (par hdr fs) (T.nil : T K).ptr f.sib.ptr f.k hi.own) := by
      rw [upd_other _ _ hfx, hfc]
    -- the state after linking into the parent, before maintaining leftmost/rightmost
    have hz : Z H0 hdr hi (f :: fs) (mk .L (.dyn i) .red .nil k .nil)
        (upd (upd w.heap (.dyn i) (some (cellS .L .red f.p .null .null k hi.own))) f.p
          (some (cellS f.s f.c (par hdr fs) (.dyn i) f.sib.ptr f.k hi.own))) := by
      refine ⟨⟨?_, ?_, ?_⟩, ?_, hok', ?_⟩
      · rw [upd_same]; rfl
      · exact Rep_upd (Rep_upd hc2 (by grind)) hnc.1
      · exact CtxRep_upd (CtxRep_upd hc3 (Ne.symm hxh) (by grind)) hfh hnc.2.1
      · rw [Rep_mk]
        refine ⟨?_, trivial, trivial⟩
        rw [upd_other _ _ (Ne.symm hfx), upd_same]; rfl
      · intro q h1 h2
        obtain ⟨h3, h4, h5⟩ := hfr q h1 h2
        rw [upd_other _ _ (by rintro rfl; exact h4 (by simp [mem_ctxPtrs_cons])), upd_other _ _ h3, h5]
    have hhc := hz.hdrCell
    have hlist : ∀ hi' : Hd, hi'.own = hi.own → hi'.cnt = hi.cnt → hi'.lm = firstP hdr (pre (f :: fs) ++ (.dyn i, k) :: post (f :: fs)) →
        hi'.rm = lastP hdr (pre (f :: fs) ++ (.dyn i, k) :: post (f :: fs)) →
        hi' = { hi with lm := firstP hdr (pre (f :: fs) ++ (.dyn i, k) :: post (f :: fs)),
                        rm := lastP hdr (pre (f :: fs) ++ (.dyn i, k) :: post (f :: fs)) } := by
      rintro ⟨a, b, c, d⟩ rfl rfl rfl rfl; rfl
    rcases (show f.s = .L ∨ f.s = .R by cases f.s <;> simp) with hs | hs
    · have hb : isL (f :: fs) = true := by simp [isL, hs]
      simp only [hb, if_true, wp_bind]
      rw [wp_modCell h1 hfn]
      have hc' : ({ cellS f.s f.c (par hdr fs) (T.nil : T K).ptr f.sib.ptr f.k hi.own with left := .dyn i } : TNode K)
          = cellS f.s f.c (par hdr fs) (.dyn i) f.sib.ptr f.k hi.own := by rw [hs]; rfl
      simp only [World.setHeap_heap, World.setHeap_setHeap]
      rw [hc']
      refine wp_if_neg hfh ?_
      rw [wp_bind, wp_rd hhc hhdr]
      simp only [hdCell]
      have hpost : post (f :: fs) = (f.p, f.k) :: (f.sib.nodes ++ post fs) := by simp [post, hs]
      have hpre : pre (f :: fs) = pre fs := by simp [pre, hs]
      by_cases he : f.p = hi.lm
      · refine wp_if_pos he ?_
        rw [wp_modCell hhc hhdr]
        refine hQ _ ?_
        have := hz.setHd { hi with lm := .dyn i } rfl
        have hi_eq := hlist { hi with lm := .dyn i } rfl rfl ?_ ?_
        · rw [← hi_eq]; exact this
        · -- pre = []
          cases hp : pre (f :: fs) with
          | nil => simp
          | cons a A =>
            exfalso
            rw [hp] at hlm hnd
            simp only [List.cons_append, firstP_cons] at hlm
            rw [hpost] at hnd
            simp only [List.cons_append, List.map_cons, List.nodup_cons, List.map_append, List.mem_append, List.mem_cons] at hnd
            exact hnd.1 (Or.inr (Or.inl (he.trans hlm).symm))
        · show hi.rm = _
          rw [hrm, hpost]; simp
      · refine wp_if_neg he ?_
        rw [wp_pure]
        refine hQ _ ?_
        have hi_eq := hlist hi rfl rfl ?_ ?_
        · rw [← hi_eq]; exact hz
        · rw [hlm]
          cases hp : pre (f :: fs) with
          | nil => exfalso; apply he; rw [hlm, hp, hpost]; rfl
          | cons a A => simp
        · rw [hrm, hpost]; simp
    · have hb : isL (f :: fs) = false := by simp [isL, hs]
      simp only [hb, Bool.false_eq_true, if_false, wp_bind]
      rw [wp_modCell h1 hfn]
      have hc' : ({ cellS f.s f.c (par hdr fs) (T.nil : T K).ptr f.sib.ptr f.k hi.own with right := .dyn i } : TNode K)
          = cellS f.s f.c (par hdr fs) (.dyn i) f.sib.ptr f.k hi.own := by rw [hs]; rfl
      simp only [World.setHeap_heap, World.setHeap_setHeap]
      rw [hc', wp_rd hhc hhdr]
      simp only [hdCell]
      have hpre : pre (f :: fs) = (pre fs ++ f.sib.nodes) ++ [(f.p, f.k)] := by simp [pre, hs]
      by_cases he : f.p = hi.rm
      · refine wp_if_pos he ?_
        rw [wp_modCell hhc hhdr]
        refine hQ _ ?_
        have := hz.setHd { hi with rm := .dyn i } rfl
        have hi_eq := hlist { hi with rm := .dyn i } rfl rfl ?_ ?_
        · rw [← hi_eq]; exact this
        · show hi.lm = _
          rw [hlm, hpre]
          cases pre fs ++ f.sib.nodes <;> simp
        · show Ptr.dyn i = _
          simp only [lastP_append_cons]
          rcases List.eq_nil_or_concat (post (f :: fs)) with hp | ⟨A, a, hp⟩
          · simp [hp]
          · exfalso
            rw [List.concat_eq_append] at hp
            rw [hp] at hrm hnd
            simp only [lastP_append, lastP_cons, lastP_nil] at hrm
            rw [hpre] at hnd
            simp only [List.map_append, List.map_cons, List.map_nil, List.nodup_append, List.mem_append, List.mem_cons] at hnd
            grind
      · refine wp_if_neg he ?_
        rw [wp_pure]
        refine hQ _ ?_
        have hi_eq := hlist hi rfl rfl ?_ ?_
        · rw [← hi_eq]; exact hz
        · rw [hlm, hpre]
          cases pre fs ++ f.sib.nodes <;> simp
        · rw [hrm]
          cases hp : post (f :: fs) with
          | nil =>
            exfalso; apply he
            rw [hrm, hp, hpre]; simp [lastP_append]
          | cons a A => simp

/-- Creating a node: either `err` is set and memory is untouched, or a fresh initialised node is returned. -/
theorem wp_createNode {hn : TNode K} {v : K} {Q : Ptr → W K → Prop} (hh : w.heap hdr = some hn)
    (hs : ∃ i, hdr = .stk i) (herr : w.err = none)
    (hfail : ∀ w' e, Refused w → Ext w w' → w'.nCmp = w.nCmp → w'.heap = w.heap → w'.err = some e → Q .null w')
    (hok : ∀ a c w', ¬ Refused w → Fresh w w' (.dyn a) → Ext w w' → w'.nCmp = w.nCmp → w'.heap = upd w.heap (.dyn a) (some c) →
      c.val = some v → c.owner = hn.owner → c.count = 0 → w'.err = none → Q (.dyn a) w') :
    wp (createNode hdr v) w Q := by
  obtain ⟨i, rfl⟩ := hs
  unfold createNode
  simp only [wp_bind, wp_rd hh (show Ptr.stk i ≠ .null by simp)]
  refine wp_allocCell ?_ ?_
  · intro hno
    simp only [wp_hasErr, Option.isSome_some, if_true, wp_pure, wp_ite]
    exact hfail _ _ (Or.inl hno) ⟨rfl, rfl, Nat.le_succ _, Nat.le_refl _, Nat.le_refl _⟩ rfl rfl rfl
  · intro a ha haddr
    simp only [wp_hasErr, herr, Option.isSome_none, Bool.false_eq_true, if_false, wp_ite, wp_bind, constructVal]
    refine wp_tryCtor (fun hct => ?_) (fun hct => ?_)
    · simp only [if_true, wp_bind]
      rw [wp_rd (by exact upd_same _ _ _) (by simp)]
      simp only
      rw [wp_modCell (by exact upd_same _ _ _) (by simp)]
      simp only [wp_hasErr, World.setHeap_err, herr, Option.isSome_none, Bool.false_eq_true, if_false, wp_pure]
      have hnr : ¬ Refused w := by
        rintro (h | h)
        · exact h a haddr ha
        · rw [hct] at h; cases h
      refine hok a _ _ hnr ⟨ha, w.nAlloc, a, rfl, Nat.le_refl _, Nat.lt_succ_self _, haddr⟩ ⟨rfl, rfl, Nat.le_succ _, Nat.le_succ _, Nat.le_refl _⟩ rfl (upd_upd _ _ _ _) rfl rfl rfl ?_
      rfl
    · simp only [if_false, Bool.false_eq_true, wp_pure, wp_hasErr, Option.isSome_some, if_true, putNode, wp_bind]
      refine (wp_rd (c := hn) (by simpa [upd] using hh) (by simp)).2 ?_
      refine (wp_freeCell (upd_same _ _ _) (by simp)).2 ?_
      refine hfail _ _ (Or.inr hct) ⟨rfl, rfl, Nat.le_succ _, Nat.le_succ _, Nat.le_refl _⟩ rfl ?_ rfl
      simp only [World.setHeap_heap, upd_upd]
      exact upd_self _ _ _ ha

/-- Inserting a fresh node into the hole `ctx` of a valid tree gives a valid tree with the node spliced into
the in-order sequence. -/
theorem wp_insertAndRebalance {i : Nat} {k : K} {nx : TNode K} {Q : Unit → W K → Prop} {o : Nat}
    (h : Tree w.heap hdr o (plug ctx .nil)) (H1 : Ptr → Option (TNode K)) (hx : H1 = upd w.heap (.dyn i) (some nx))
    (hxn : w.heap (.dyn i) = none) (hv : nx.val = some k) (ho : nx.owner = o) (hcnt : nx.count = 0)
    (hQ : ∀ H' t', Tree (upd H' hdr (some (hdCell ⟨firstP hdr t'.nodes, lastP hdr t'.nodes, o, t'.nodes.length⟩ t'.ptr))) hdr o t' →
        H' hdr = some (hdCell ⟨firstP hdr t'.nodes, lastP hdr t'.nodes, o, (pre ctx ++ post ctx).length⟩ t'.ptr) →
        t'.nodes = pre ctx ++ (.dyn i, k) :: post ctx →
        (∀ q, q ≠ hdr → q ∉ t'.ptrs → H' q = w.heap q) → Q () (w.setHeap H')) :
    wp (insertAndRebalance (isL ctx) (.dyn i) (par hdr ctx) hdr) (w.setHeap H1) Q := by
  subst hx
  have hz0 := h.toZ
  have hdisj : Ptr.dyn i ∉ (plug ctx (T.nil : T K)).ptrs := by
    intro hm
    obtain ⟨n, hn, -⟩ := Rep_alloc h.rep _ hm
    rw [hxn] at hn; cases hn
  have hih : Ptr.dyn i ≠ hdr := by obtain ⟨j, rfl⟩ := h.ok.hdr; simp
  have hxc : Ptr.dyn i ∉ ctxPtrs ctx := fun hm => hdisj (mem_plug_ptrs.2 (Or.inl hm))
  have hnod : (plug ctx (T.nil : T K)).nodes = pre ctx ++ post ctx := by simp [plug_nodes, T.nodes]
  rw [hnod] at hz0
  have hz1 : Z (upd w.heap (.dyn i) (some nx)) hdr _ ctx .nil (upd w.heap (.dyn i) (some nx)) :=
    ⟨CtxRep_upd hz0.crep hih hxc, trivial, hz0.ok, fun _ _ _ => rfl⟩
  unfold insertAndRebalance
  rw [wp_bind]
  refine wp_insLink (w := w.setHeap _) (by exact hz1) (by exact upd_same _ _ _) hv ho hcnt hxc rfl rfl ?_
  intro H2 hz2
  obtain ⟨n, hr1⟩ := h.rb
  obtain ⟨n, hc, hn0, -⟩ := RB_unplug hr1 h.black
  simp only [RB] at hn0
  subst hn0
  simp only [World.setHeap_setHeap, wp_bind]
  have := wp_insFix (H0 := upd w.heap (.dyn i) (some nx)) ctx.length (w := w.setHeap H2)
    (Q := fun _ s' => wp (rd hdr) s' fun a s' => wp (setColor a.parent Color.black) s' Q)
    (Nat.le_refl _) (by exact hz2) (by simp) (n := 0) (t := mk .L (.dyn i) .red .nil k .nil) (by simp [RB_red, RB, T.color]) hc ?_
  · simpa using this
  · intro H3 t3 hz3 hn3 hal
    obtain ⟨p, c, l, k', r, m, rfl, hrb⟩ := hal
    rw [wp_rd (by exact hz3.hdrCell) hz3.hdr_ne]
    simp only [hdCell, plug, T.ptr, World.setHeap_setHeap]
    refine wp_setColor_focus (s := .L) (a := l) (k := k') (b := r) (c := c) (by exact hz3) ?_
    intro H4 hz4
    have hn4 : (mk .L p .black l k' r).nodes = pre ctx ++ (.dyn i, k) :: post ctx := by
      have : (mk .L p .black l k' r).nodes = (T.node p c l k' r).nodes := rfl
      rw [this, hn3, plug_nodes]; simp [mk, T.nodes]
    refine hQ H4 (mk .L p .black l k' r) ?_ ?_ hn4 ?_
    · refine ⟨upd_same _ _ _, Rep_upd hz4.rep ?_, hz4.ok, ⟨_, hrb⟩, by simp⟩
      intro hm; exact hz4.ne_hdr (by exact hm) rfl
    · rw [hz4.hdrCell, hn4]; rfl
    · intro q hq1 hq2
      rw [hz4.frame q hq1 (by exact hq2), upd_other]
      rintro rfl
      apply hq2
      simp [T.ptrs, hn4]

end
end Nestl.RB
