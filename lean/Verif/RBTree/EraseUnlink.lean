import Verif.RBTree.EraseFix
set_option autoImplicit false
/-
Unlinking a node: first half of `rb_tree_rebalance_for_erase`.
-/
namespace Nestl.RB
variable {K : Type}

/-- Memory represents the path segment `ctx` hanging below `base`, with hole pointing to `q`. -/
def Seg (H : Ptr → Option (TNode K)) (o : Nat) (base : Ptr) : Ctx K → Ptr → Prop
  | [], _ => True
  | f :: fs, q =>
      H f.p = some (cellS f.s f.c (par base fs) q f.sib.ptr f.k o) ∧
      Rep H o f.p f.sib ∧ Seg H o base fs f.p

theorem Seg_iff {H : Ptr → Option (TNode K)} {o base} {ctx : Ctx K} {t : T K} :
    Rep H o base (plug ctx t) ↔ (Seg H o base ctx t.ptr ∧ Rep H o (par base ctx) t) := by
  induction ctx generalizing t with
  | nil => simp [plug, Seg]
  | cons f fs ih =>
    rw [plug, ih, Rep_mk]
    simp only [Seg, par_cons, mk_ptr]
    grind

theorem Seg_congr {H H' : Ptr → Option (TNode K)} {o base} {ctx : Ctx K} {q}
    (h : ∀ p ∈ ctxPtrs ctx, H' p = H p) (hr : Seg H o base ctx q) : Seg H' o base ctx q := by
  induction ctx generalizing q with
  | nil => trivial
  | cons f fs ih =>
    obtain ⟨h1, h2, h3⟩ := hr
    simp only [mem_ctxPtrs_cons] at h
    refine ⟨?_, Rep_congr (fun p hp => h p (Or.inr (Or.inl hp))) h2,
      ih (fun p hp => h p (Or.inr (Or.inr hp))) h3⟩
    rw [h f.p (Or.inl rfl), h1]

theorem plug_append (c1 c2 : Ctx K) (t : T K) : plug (c1 ++ c2) t = plug c2 (plug c1 t) := by
  induction c1 generalizing t with
  | nil => rfl
  | cons f fs ih => exact ih _

theorem par_append (hdr : Ptr) (c1 : Ctx K) (f : Frame K) (c2 : Ctx K) :
    par hdr (c1 ++ f :: c2) = par f.p c1 := by
  cases c1 <;> rfl

theorem topBlack_append {c1 : Ctx K} {f g : Frame K} {c2 : Ctx K} (hc : f.c = g.c) :
    topBlack (c1 ++ f :: c2) ↔ topBlack (c1 ++ g :: c2) := by
  cases c1 with
  | nil => simp [topBlack, hc]
  | cons a c1 => rfl

/-- `CRB` does not depend on the address and key of a frame. -/
theorem CRB_append {c1 : Ctx K} {f g : Frame K} {c2 : Ctx K} {n : Nat} (hc : f.c = g.c) (hs : f.sib = g.sib) :
    CRB (c1 ++ f :: c2) n ↔ CRB (c1 ++ g :: c2) n := by
  induction c1 generalizing n with
  | nil => simp only [List.nil_append, CRB, hc, hs]
  | cons a c1 ih => simp only [List.cons_append, CRB, ih, topBlack_append hc]

theorem RB_blacken {t : T K} {n : Nat} (h : RB t n) : RB t.blacken (if t.color = .red then n + 1 else n) := by
  cases t with
  | nil => simpa [T.blacken, T.color] using h
  | node p c l k r =>
    cases c with
    | red => exact ⟨n, by simp [T.color], h.2.2.1, h.2.2.2⟩
    | black => simpa [T.blacken, T.color] using h

/-- Removing a node with at most one child. -/
theorem remove_RB {C : Ctx K} {s : Side} {p c k} {x : T K} {n : Nat} (hc : CRB C n)
    (hr : RB (mk s p c .nil k x) n) :
    (c = .red → ∃ m, RB (plug C x) m ∧ (plug C x).color = .black) ∧ (c = .black → Short C x) := by
  constructor
  · rintro rfl
    rw [RB_red] at hr
    exact plug_RB hc hr.2.2.2 (fun e => by rw [hr.2.1] at e; cases e)
  · rintro rfl
    rw [RB_black_iff] at hr
    obtain ⟨m, rfl, -, h2⟩ := hr
    exact ⟨m, RB_blacken h2, hc⟩

theorem firstP_post_of_pre {hdr : Ptr} {ctx : Ctx K} (h : pre ctx = []) : firstP hdr (post ctx) = par hdr ctx := by
  cases ctx with
  | nil => rfl
  | cons f fs =>
    rcases (show f.s = .L ∨ f.s = .R by cases f.s <;> simp) with hs | hs
    · simp [post, hs]
    · simp [pre, hs] at h

theorem lastP_pre_of_post {hdr : Ptr} {ctx : Ctx K} (h : post ctx = []) : lastP hdr (pre ctx) = par hdr ctx := by
  cases ctx with
  | nil => rfl
  | cons f fs =>
    rcases (show f.s = .L ∨ f.s = .R by cases f.s <;> simp) with hs | hs
    · simp [post, hs] at h
    · simp [pre, hs, lastP_append]

section
variable {H0 : Ptr → Option (TNode K)} {hdr : Ptr} {hi : Hd} {w : W K} {ctx : Ctx K}

theorem wp_setParent_root {o : Nat} {b : T K} {x y : Ptr} {Q : Unit → W K → Prop} (hb : b ≠ .nil)
    (hr : Rep w.heap o y b) (hn : b.ptrs.Nodup) (h0 : Ptr.null ∉ b.ptrs)
    (hQ : ∀ H', Rep H' o x b → (∀ q, q ∉ b.ptrs → H' q = w.heap q) → Q () (w.setHeap H')) :
    wp (setParent b.ptr x) w Q := by
  have := wp_reparent (x := x) hr hn h0 hQ
  have hbn : b.ptr ≠ .null := fun e => h0 (e ▸ ptr_mem_ptrs hb)
  simpa [reparent, hbn] using this

/-- Removing a node with at most one child: pointer surgery. -/
theorem wp_unlink1 {s : Side} {z : Ptr} {zc : Color} {k : K} {x : T K} {Q : Ptr × Ptr → W K → Prop}
    (h : Z H0 hdr hi ctx (mk s z zc .nil k x) w.heap)
    (hlm : hi.lm = firstP hdr (plug ctx (mk s z zc .nil k x)).nodes)
    (hrm : hi.rm = lastP hdr (plug ctx (mk s z zc .nil k x)).nodes)
    (hQ : ∀ H', Z (upd H0 z (some (cellS s zc (par hdr ctx) .null x.ptr k hi.own))) hdr
        { hi with lm := firstP hdr (plug ctx x).nodes, rm := lastP hdr (plug ctx x).nodes } ctx x H' →
      Q (x.ptr, par hdr ctx) (w.setHeap H')) :
    wp (do
      let xParent := (← rd z).parent
      reparent x.ptr (← rd z).parent
      relinkL hdr z x.ptr
      eraseLeftmost z hdr x.ptr
      eraseRightmost z hdr x.ptr
      pure (x.ptr, xParent)) w Q := by
  have hz := h.focus
  have hzn := h.focus_ne_null
  have hzh := h.focus_ne_hdr
  have hn := nodup_plug_ptrs.1 h.ok.nodup
  have hm := nodup_ptrs_mk.1 hn.2.1
  have hrep := Rep_mk.1 h.rep
  have hd := hn.2.2
  simp only [mem_ptrs_mk] at hd
  have hzc : z ∉ ctxPtrs ctx := hd z (Or.inl rfl)
  have hxh : hdr ∉ x.ptrs := fun hh => h.ne_hdr (p := hdr)
    (mem_plug_ptrs.2 (Or.inr (mem_ptrs_mk.2 (Or.inr (Or.inr hh))))) rfl
  have hx0 : Ptr.null ∉ x.ptrs := fun hh => h.null_notMem_focus (mem_ptrs_mk.2 (Or.inr (Or.inr hh)))
  have hokc : PtrsOk hdr (ctxPtrs ctx) := ⟨hn.1, fun p hp => h.ok.dyn p (mem_plug_ptrs.2 (Or.inl hp)), h.ok.hdr⟩
  have hP : par hdr ctx = hdr ∨ par hdr ctx ∈ ctxPtrs ctx := by
    cases ctx with
    | nil => exact Or.inl rfl
    | cons f fs => exact Or.inr (by simp [mem_ctxPtrs_cons])
  have hnil : (T.nil : T K).ptr = .null := rfl
  rw [hnil] at hz
  simp only [wp_bind]
  rw [wp_rd hz hzn, wp_rd hz hzn]
  simp only [cellS_parent]
  refine wp_reparent (o := hi.own) (b := x) (y := z) hrep.2.2 hm.2.2.2.1 hx0 ?_
  intro H1 hx1 hf1
  rw [relinkL_eq]
  have hc1 : CtxRep H1 hdr hi ctx z := by
    have := h.crep; rw [mk_ptr] at this
    exact CtxRep_congr (hf1 hdr hxh) (fun q hq => hf1 q (fun hh => hd q (Or.inr (Or.inr hh)) hq)) this
  have hz1 : H1 z = some (cellS s zc (par hdr ctx) .null x.ptr k hi.own) := by
    rw [hf1 z hm.2.1]; exact hz
  refine wp_relinkG (s := .L) (x := z) (y := x.ptr) (ctx := ctx) (hi := hi) (by exact hc1) (by exact hz1) (by simp)
    hzc hzn hokc ?_
  intro H2 hc2 hf2
  simp only [World.setHeap_heap, World.setHeap_setHeap] at hf2 ⊢
  have hzP : z ≠ par hdr ctx := by rcases hP with e | e <;> grind
  have hz2 : H2 z = some (cellS s zc (par hdr ctx) .null x.ptr k hi.own) := by rw [hf2 z hzP, hz1]
  have hZ : Z (upd H0 z (some (cellS s zc (par hdr ctx) .null x.ptr k hi.own))) hdr hi ctx x H2 := by
    refine ⟨hc2, ?_, ⟨?_, ?_, h.ok.hdr⟩, ?_⟩
    · refine Rep_congr (fun q hq => ?_) hx1
      apply hf2
      rintro rfl
      rcases hP with e | e
      · exact hxh (e ▸ hq)
      · exact hd _ (Or.inr (Or.inr hq)) e
    · exact nodup_plug_ptrs.2 ⟨hn.1, hm.2.2.2.1, fun q hq => hd q (Or.inr (Or.inr hq))⟩
    · intro p hp
      refine h.ok.dyn p ?_
      rw [mem_plug_ptrs] at hp ⊢
      rw [mem_ptrs_mk]; grind
    · intro q h1 h2
      rw [mem_plug_ptrs] at h2
      by_cases hqz : q = z
      · subst hqz; rw [upd_same, hz2]
      · rw [upd_other _ _ hqz, hf2 q (by rcases hP with e | e <;> grind), hf1 q (by grind)]
        refine h.frame q h1 ?_
        rw [mem_plug_ptrs, mem_ptrs_mk]
        have hnp : q ∉ (T.nil : T K).ptrs := by simp [T.ptrs, T.nodes]
        grind
  have hnodes : (plug ctx (mk s z zc .nil k x)).nodes = pre ctx ++ (mk s z zc .nil k x).nodes ++ post ctx := plug_nodes _ _
  have hnodes' : (plug ctx x).nodes = pre ctx ++ x.nodes ++ post ctx := plug_nodes _ _
  have hall : ((plug ctx (mk s z zc .nil k x)).nodes.map Prod.fst).Nodup := h.ok.nodup
  -- leftmost
  have step1 : ∀ Q' : Unit → W K → Prop,
      (∀ H', Z (upd H0 z (some (cellS s zc (par hdr ctx) .null x.ptr k hi.own))) hdr
        { hi with lm := firstP hdr (plug ctx x).nodes } ctx x H' → Q' () (w.setHeap H')) →
      wp (eraseLeftmost z hdr x.ptr) (w.setHeap H2) Q' := by
    intro Q' hQ'
    unfold eraseLeftmost
    simp only [wp_bind]
    rw [wp_rd (by exact hZ.hdrCell) hZ.hdr_ne]
    simp only [hdCell]
    by_cases he : hi.lm = z
    · refine wp_if_pos he ?_
      simp only [wp_bind]
      rw [wp_rd (by exact hz2) hzn]
      rw [hnodes] at hlm hall
      have hpre : pre ctx = [] ∧ (mk s z zc .nil k x).nodes = (z, k) :: x.nodes ∨
          (pre ctx = [] ∧ x = .nil) := by
        rcases List.eq_nil_or_concat (pre ctx) with hp | ⟨A, a, hp⟩
        · rw [hp] at hlm
          cases s with
          | L => left; exact ⟨hp, by simp [mk, T.nodes]⟩
          | R =>
            right; refine ⟨hp, ?_⟩
            cases hx : x with
            | nil => rfl
            | node p' c' l' k' r' =>
              exfalso
              have hxne : x.nodes ≠ [] := nodes_ne_nil (by rw [hx]; simp)
              have : firstP hdr ([] ++ (mk Side.R z zc .nil k x).nodes ++ post ctx) ∈ x.ptrs := by
                simp only [mk, T.nodes, List.nil_append, List.append_assoc]
                rw [firstP_append]; exact firstP_mem hxne
              rw [← hlm, he] at this
              exact hm.2.1 this
        · exfalso
          have : firstP hdr (pre ctx ++ (mk s z zc .nil k x).nodes ++ post ctx) ∈ (pre ctx).map Prod.fst := by
            rw [List.append_assoc, firstP_append]
            exact firstP_mem (by rw [hp]; simp)
          rw [← hlm, he] at this
          apply hzc
          simp only [ctxPtrs, List.map_append, List.mem_append]
          exact Or.inl this
      by_cases hxn : x = .nil
      · have hp0 : pre ctx = [] := by rcases hpre with h | h <;> exact h.1
        have hr0 : (cellS s zc (par hdr ctx) .null x.ptr k hi.own).right = .null := by
          subst hxn; cases s <;> rfl
        refine wp_if_pos hr0 ?_
        simp only [wp_bind, setLeft]
        rw [wp_rd (by exact hz2) hzn]
        simp only [cellS_parent]
        rw [wp_modCell (by exact hZ.hdrCell) hZ.hdr_ne]
        refine hQ' _ ?_
        have := hZ.setHd { hi with lm := firstP hdr (plug ctx x).nodes } rfl
        have e : firstP hdr (plug ctx x).nodes = par hdr ctx := by
          rw [hnodes', hp0, hxn]; simp [T.nodes, firstP_post_of_pre hp0]
        rw [e] at this ⊢
        exact this
      · have hsL : s = .L := by
          rcases hpre with h | h
          · cases s with
            | L => rfl
            | R =>
              exfalso
              have := h.2
              simp only [mk, T.nodes] at this
              have hxne : x.nodes ≠ [] := nodes_ne_nil hxn
              obtain ⟨a, A, hA⟩ := List.exists_cons_of_ne_nil hxne
              rw [hA] at this
              simp only [List.cons_append, List.cons.injEq] at this
              apply hm.2.1
              simp only [T.ptrs, hA, List.map_cons, List.mem_cons]
              left; rw [this.1]
          · exact absurd h.2 hxn
        have hp0 : pre ctx = [] := by rcases hpre with h | h <;> exact h.1
        subst hsL
        have hxp : x.ptr ≠ .null := fun e => hx0 (e ▸ ptr_mem_ptrs hxn)
        refine wp_if_neg (by simpa [cellS] using hxp) ?_
        simp only [wp_bind, sMinimum, wp_assertM, setLeft]
        refine ⟨by simpa using hxp, ?_⟩
        refine wp_minLoop (w := w.setHeap H2) (by exact hZ.rep) hxn hx0 hdr ?_
        rw [wp_modCell (by exact hZ.hdrCell) hZ.hdr_ne]
        refine hQ' _ ?_
        have := hZ.setHd { hi with lm := firstP hdr (plug ctx x).nodes } rfl
        have e : firstP hdr (plug ctx x).nodes = firstP hdr x.nodes := by
          rw [hnodes', hp0, List.nil_append]
          obtain ⟨a, A, hA⟩ := List.exists_cons_of_ne_nil (nodes_ne_nil hxn)
          rw [hA]; rfl
        rw [e] at this ⊢
        exact this
    · refine wp_if_neg he ?_
      rw [wp_pure]
      refine hQ' _ ?_
      have e : hi.lm = firstP hdr (plug ctx x).nodes := by
        rw [hlm, hnodes, hnodes']
        rw [hnodes] at hlm
        cases hp : pre ctx with
        | cons a A => simp
        | nil =>
          cases s with
          | L => exfalso; apply he; rw [hlm, hp]; simp [mk, T.nodes]
          | R =>
            simp only [mk, T.nodes, List.nil_append]
            cases hxx : x.nodes with
            | nil => exfalso; apply he; rw [hlm, hp]; simp [mk, T.nodes, hxx]
            | cons a A => simp
      rw [← e]; exact hZ
  refine step1 _ ?_
  intro H3 hZ3
  have hz3 : H3 z = some (cellS s zc (par hdr ctx) .null x.ptr k hi.own) := by
    rw [hZ3.frame z hzh ?_, upd_same]
    rw [mem_plug_ptrs]
    rintro (hh | hh)
    · exact hzc hh
    · exact hm.2.1 hh
  -- rightmost
  unfold eraseRightmost
  simp only [wp_bind]
  rw [wp_rd (by exact hZ3.hdrCell) hZ3.hdr_ne]
  simp only [hdCell]
  by_cases he : hi.rm = z
  · refine wp_if_pos he ?_
    simp only [wp_bind]
    rw [wp_rd (by exact hz3) hzn]
    rw [hnodes] at hrm
    have hp0 : post ctx = [] := by
      rcases List.eq_nil_or_concat (post ctx) with hp | ⟨A, a, hp⟩
      · exact hp
      · exfalso
        have : lastP hdr (pre ctx ++ (mk s z zc .nil k x).nodes ++ post ctx) ∈ (post ctx).map Prod.fst := by
          rw [lastP_append]
          exact lastP_mem (by rw [hp]; simp)
        rw [← hrm, he] at this
        apply hzc
        simp only [ctxPtrs, List.map_append, List.mem_append]
        exact Or.inr this
    by_cases hxn : x = .nil
    · have hr0 : (cellS s zc (par hdr ctx) .null x.ptr k hi.own).left = .null := by
        subst hxn; cases s <;> rfl
      refine wp_if_pos hr0 ?_
      simp only [wp_bind, setRight]
      rw [wp_rd (by exact hz3) hzn]
      simp only [cellS_parent]
      rw [wp_modCell (by exact hZ3.hdrCell) hZ3.hdr_ne, wp_pure]
      refine hQ _ ?_
      have := hZ3.setHd { hi with lm := firstP hdr (plug ctx x).nodes, rm := lastP hdr (plug ctx x).nodes } rfl
      have e : lastP hdr (plug ctx x).nodes = par hdr ctx := by
        rw [hnodes', hp0, hxn]; simp [T.nodes, lastP_pre_of_post hp0]
      rw [e] at this ⊢
      exact this
    · have hsR : s = .R := by
        cases s with
        | R => rfl
        | L =>
          exfalso
          have : lastP hdr (pre ctx ++ (mk Side.L z zc .nil k x).nodes ++ post ctx) ∈ x.ptrs := by
            rw [hp0]
            simp only [mk, T.nodes, List.nil_append, List.append_nil, lastP_append_cons]
            exact lastP_mem (nodes_ne_nil hxn)
          rw [← hrm, he] at this
          exact hm.2.1 this
      subst hsR
      have hxp : x.ptr ≠ .null := fun e => hx0 (e ▸ ptr_mem_ptrs hxn)
      refine wp_if_neg (by simpa [cellS] using hxp) ?_
      simp only [wp_bind, sMaximum, wp_assertM, setRight]
      refine ⟨by simpa using hxp, ?_⟩
      refine wp_maxLoop (w := w.setHeap H3) (by exact hZ3.rep) hxn hx0 (lastP hdr (pre ctx)) ?_
      rw [wp_modCell (by exact hZ3.hdrCell) hZ3.hdr_ne, wp_pure]
      refine hQ _ ?_
      have := hZ3.setHd { hi with lm := firstP hdr (plug ctx x).nodes, rm := lastP hdr (plug ctx x).nodes } rfl
      have e : lastP hdr (plug ctx x).nodes = lastP (lastP hdr (pre ctx)) x.nodes := by
        rw [hnodes', hp0, List.append_nil, lastP_append]
      rw [e] at this ⊢
      exact this
  · refine wp_if_neg he ?_
    rw [wp_pure, wp_pure]
    refine hQ _ ?_
    have e : hi.rm = lastP hdr (plug ctx x).nodes := by
      rw [hrm, hnodes, hnodes']
      rw [hnodes] at hrm
      rw [lastP_append, lastP_append (B := post ctx)]
      rcases List.eq_nil_or_concat (post ctx) with hp | ⟨A, a, hp⟩
      · rw [hp] at hrm ⊢
        simp only [lastP_nil, List.append_nil] at hrm ⊢
        cases s with
        | R =>
          exfalso; apply he; rw [hrm]; simp [mk, T.nodes, lastP_append]
        | L =>
          rcases List.eq_nil_or_concat x.nodes with hx | ⟨B, b, hx⟩
          · exfalso; apply he; rw [hrm]; simp [mk, T.nodes, hx]
          · simp only [mk, T.nodes, hx, List.concat_eq_append, lastP_append, lastP_cons, lastP_nil]
      · simp only [hp, List.concat_eq_append, lastP_append, lastP_cons, lastP_nil]
    rw [← e]; exact hZ3

/-- The leftmost node of a non-empty tree as a zipper. -/
theorem exists_min {r : T K} (hr : r ≠ .nil) : ∃ (rc : Ctx K) (y : Ptr) (yc : Color) (ky : K) (yr : T K),
    r = plug rc (.node y yc .nil ky yr) ∧ pre rc = [] ∧ (∀ d, firstP d r.nodes = y) := by
  obtain ⟨⟨y, ky⟩, B, hB⟩ := List.exists_cons_of_ne_nil (nodes_ne_nil hr)
  obtain ⟨rc, yc, l', yr, h1, h2, h3⟩ := exists_zipper (t := r) (A := []) (B := B) (p := y) (k := ky) (by simpa using hB)
  have h4 : pre rc = [] ∧ l'.nodes = [] := by
    have := h2.symm; simpa using this
  have h5 : l' = .nil := by
    cases l' with
    | nil => rfl
    | node => simp [T.nodes] at h4
  subst h5
  exact ⟨rc, y, yc, ky, yr, h1, h4.1, fun d => by rw [hB]; rfl⟩

theorem top_left {f : Frame K} {fs : Ctx K} (h : pre (f :: fs) = []) : f.s = .L := by
  rcases (show f.s = .L ∨ f.s = .R by cases f.s <;> simp) with hs | hs
  · exact hs
  · simp [pre, hs] at h

/-- The pointer surgery that puts `y` (the successor) in the place of `z`: rbt.hpp:503-523. -/
def unlink2 (hdr z y x : Ptr) : M (W K) (Ptr × Ptr) := do
  setParent (← rd z).left y
  setLeft y (← rd z).left
  let xParent ← (if y ≠ (← rd z).right then do
      let xParent := (← rd y).parent
      reparent x (← rd y).parent
      setLeft (← rd y).parent x
      setRight y (← rd z).right
      setParent (← rd z).right y
      pure xParent
    else pure y)
  relinkL hdr z y
  setParent y (← rd z).parent
  let cy := (← rd y).color
  setColor y (← rd z).color
  setColor z cy
  pure (x, xParent)

theorem wp_unlink2 {z y : Ptr} {zc yc : Color} {k ky : K} {l yr : T K} {rc : Ctx K} {Q : Ptr × Ptr → W K → Prop}
    (h : Z H0 hdr hi ctx (.node z zc l k (plug rc (.node y yc .nil ky yr))) w.heap)
    (hl : l ≠ .nil) (hrc : pre rc = [])
    (hQ : ∀ H' nz, nz.color = yc → nz.val = some k → nz.owner = hi.own →
      Z (upd H0 z (some nz)) hdr hi (rc ++ ⟨.R, y, zc, ky, l⟩ :: ctx) yr H' →
      Q (yr.ptr, par y rc) (w.setHeap H')) :
    wp (unlink2 hdr z y yr.ptr) w Q := by
  have hz := h.focus (s := .L)
  have hzn := h.focus_ne_null (s := .L)
  have hzh := h.focus_ne_hdr (s := .L)
  have hn := nodup_plug_ptrs.1 h.ok.nodup
  have hm := (nodup_ptrs_mk (s := .L)).1 hn.2.1
  have hrep := (Rep_mk (s := .L)).1 h.rep
  have hd := hn.2.2
  have hmem : ∀ q, q ∈ (T.node z zc l k (plug rc (.node y yc .nil ky yr))).ptrs ↔
      q = z ∨ q ∈ l.ptrs ∨ q ∈ ctxPtrs rc ∨ q = y ∨ q ∈ yr.ptrs := by
    intro q
    rw [ptrs_mk_L, mem_ptrs_mk, mem_plug_ptrs, ptrs_mk_L, mem_ptrs_mk]
    simp [T.ptrs, T.nodes]
  simp only [hmem] at hd
  obtain ⟨hm1, hm2, hm3, hm4, hm5⟩ := hm
  have hmr : ∀ q, q ∈ (plug rc (T.node y yc .nil ky yr)).ptrs ↔ q ∈ ctxPtrs rc ∨ q = y ∨ q ∈ yr.ptrs := by
    intro q
    rw [mem_plug_ptrs, ptrs_mk_L, mem_ptrs_mk]
    simp [T.ptrs, T.nodes]
  rw [nodup_plug_ptrs] at hm4
  simp only [hmr] at hm2 hm5
  obtain ⟨hn1, hn2, hn3⟩ := hm4
  have hn2' := (nodup_ptrs_mk (s := .L)).1 hn2
  have hn3' : ∀ q, (q = y ∨ q ∈ yr.ptrs) → q ∉ ctxPtrs rc := by
    intro q hq; apply hn3; rw [ptrs_mk_L, mem_ptrs_mk]; grind
  have hyr1 : y ∉ yr.ptrs := hn2'.2.1
  have hyr2 : yr.ptrs.Nodup := hn2'.2.2.2.1
  have hdyn : ∀ q, (q = z ∨ q ∈ l.ptrs ∨ q ∈ ctxPtrs rc ∨ q = y ∨ q ∈ yr.ptrs) → q ≠ .null ∧ q ≠ hdr := by
    intro q hq
    have : q ∈ (plug ctx (T.node z zc l k (plug rc (.node y yc .nil ky yr)))).ptrs :=
      mem_plug_ptrs.2 (Or.inr ((hmem q).2 hq))
    exact ⟨h.ne_null this, h.ne_hdr this⟩
  have hyn : y ≠ .null := (hdyn y (by simp)).1
  have hyh : y ≠ hdr := (hdyn y (by simp)).2
  have hl0 : Ptr.null ∉ l.ptrs := fun hh => (hdyn .null (by simp [hh])).1 rfl
  have hyr0 : Ptr.null ∉ yr.ptrs := fun hh => (hdyn .null (by simp [hh])).1 rfl
  have hlh : hdr ∉ l.ptrs := fun hh => (hdyn hdr (by simp [hh])).2 rfl
  have hyrh : hdr ∉ yr.ptrs := fun hh => (hdyn hdr (by simp [hh])).2 rfl
  have hrch : hdr ∉ ctxPtrs rc := fun hh => (hdyn hdr (by simp [hh])).2 rfl
  have hzy : z ≠ y := fun e => hm2 (Or.inr (Or.inl e))
  have hzc : z ∉ ctxPtrs ctx := hd z (by simp)
  have hyc : y ∉ ctxPtrs ctx := hd y (by simp)
  have hokc : PtrsOk hdr (ctxPtrs ctx) := ⟨hn.1, fun p hp => h.ok.dyn p (mem_plug_ptrs.2 (Or.inl hp)), h.ok.hdr⟩
  have hP : par hdr ctx = hdr ∨ par hdr ctx ∈ ctxPtrs ctx := by
    cases ctx with
    | nil => exact Or.inl rfl
    | cons f fs => exact Or.inr (by simp [mem_ctxPtrs_cons])
  have hPz : par hdr ctx ≠ z := by rcases hP with e | e <;> grind
  have hPy : par hdr ctx ≠ y := by rcases hP with e | e <;> grind
  have hcr : CtxRep w.heap hdr hi ctx z := h.crep
  obtain ⟨hseg, hyrep⟩ := Seg_iff.1 hrep.2.2
  obtain ⟨hy, -, hyr⟩ := (Rep_mk (s := .L)).1 hyrep
  have hylm : y ∉ l.ptrs := fun hh => hm5 y hh (by simp)
  simp only [T.ptr] at hy hseg
  unfold unlink2
  simp only [wp_bind]
  rw [wp_rd hz hzn]
  simp only [cellS]
  -- 1. reparent the left subtree
  refine wp_setParent_root (o := hi.own) (b := l) (y := z) hl hrep.2.1 hm3 hl0 ?_
  intro H1 hl1 hf1
  have hz1 : H1 z = some (cellS .L zc (par hdr ctx) l.ptr (plug rc (T.node y yc .nil ky yr)).ptr k hi.own) := by
    rw [hf1 z hm1]; exact hz
  have hy1 : H1 y = some (cellS .L yc (par z rc) .null yr.ptr ky hi.own) := by rw [hf1 y hylm]; exact hy
  rw [wp_rd (by exact hz1) hzn]
  simp only [cellS, setLeft]
  -- 2. y->left
  rw [wp_modCell (by exact hy1) hyn]
  simp only [World.setHeap_heap, World.setHeap_setHeap]
  have hz2 : upd H1 y (some (cellS .L yc (par z rc) l.ptr yr.ptr ky hi.own)) z = some (cellS .L zc (par hdr ctx) l.ptr (plug rc (T.node y yc .nil ky yr)).ptr k hi.own) := by
    rw [upd_other _ _ hzy, hz1]
  rw [wp_rd (by exact hz2) hzn]
  -- state after the conditional part
  have main : ∀ H3, H3 z = some (cellS .L zc (par hdr ctx) l.ptr (plug rc (T.node y yc .nil ky yr)).ptr k hi.own) →
      (∃ pp, H3 y = some (cellS .L yc pp l.ptr (plug rc yr).ptr ky hi.own)) →
      Rep H3 hi.own y (plug rc yr) → Rep H3 hi.own y l →
      (∀ q, q ∉ l.ptrs → q ∉ ctxPtrs rc → q ∉ yr.ptrs → q ≠ y → H3 q = w.heap q) →
      wp (relinkL hdr z y) (w.setHeap H3) fun _ s' =>
        wp (rd z) s' fun a s' => wp (setParent y a.parent) s' fun _ s' => wp (rd y) s' fun a s' =>
          wp (rd z) s' fun a_1 s' => wp (setColor y a_1.color) s' fun _ s' =>
            wp (setColor z a.color) s' fun _ s' => wp (pure (yr.ptr, par y rc)) s' Q := by
    intro H3 hz3 hy3 hr3 hl3 hf3
    obtain ⟨pp, hy3⟩ := hy3
    rw [relinkL_eq]
    have hc3 : CtxRep H3 hdr hi ctx z := by
      refine CtxRep_congr ?_ (fun q hq => ?_) hcr
      · exact hf3 hdr hlh hrch hyrh (Ne.symm hyh)
      · exact hf3 q (fun e => hd q (by simp [e]) hq) (fun e => hd q (by simp [e]) hq)
          (fun e => hd q (by simp [e]) hq) (fun e => hd q (by simp [e]) hq)
    refine wp_relinkG (s := .L) (x := z) (y := y) (ctx := ctx) (hi := hi) (by exact hc3) (by exact hz3) (by simp)
      hzc hzn hokc ?_
    intro H4 hc4 hf4
    simp only [World.setHeap_heap, World.setHeap_setHeap] at hf4 ⊢
    have hz4 : H4 z = some (cellS .L zc (par hdr ctx) l.ptr (plug rc (T.node y yc .nil ky yr)).ptr k hi.own) := by
      rw [hf4 z (Ne.symm hPz), hz3]
    have hy4 : H4 y = some (cellS .L yc pp l.ptr (plug rc yr).ptr ky hi.own) := by rw [hf4 y (Ne.symm hPy), hy3]
    rw [wp_rd (by exact hz4) hzn]
    simp only [setParent, cellS_parent]
    rw [wp_modCell (by exact hy4) hyn]
    simp only [World.setHeap_heap, World.setHeap_setHeap]
    have hy5 : ({ cellS .L yc pp l.ptr (plug rc yr).ptr ky hi.own with parent := par hdr ctx } : TNode K)
        = cellS .L yc (par hdr ctx) l.ptr (plug rc yr).ptr ky hi.own := rfl
    rw [hy5]
    rw [wp_rd (by exact upd_same _ _ _) hyn]
    rw [wp_rd (by exact (upd_other _ _ hzy).trans hz4) hzn]
    simp only [cellS_color, setColor]
    rw [wp_modCell (by exact upd_same _ _ _) hyn]
    simp only [World.setHeap_heap, World.setHeap_setHeap, upd_upd]
    rw [wp_modCell (by exact (upd_other _ _ hzy).trans hz4) hzn]
    simp only [World.setHeap_heap, World.setHeap_setHeap, wp_pure]
    refine hQ _ { cellS .L zc (par hdr ctx) l.ptr (plug rc (T.node y yc .nil ky yr)).ptr k hi.own with color := yc }
      rfl (by simp) (by simp) ?_
    -- the new zipper
    have hmem' : ∀ q, q ∈ (plug ctx (mk .R y zc (plug rc yr) ky l)).ptrs ↔
        q ∈ ctxPtrs ctx ∨ q = y ∨ q ∈ l.ptrs ∨ q ∈ ctxPtrs rc ∨ q ∈ yr.ptrs := by
      intro q; rw [mem_plug_ptrs, mem_ptrs_mk, mem_plug_ptrs]; grind
    have hnP : ∀ q, q ∈ l.ptrs ∨ q ∈ ctxPtrs rc ∨ q ∈ yr.ptrs → q ≠ par hdr ctx := by
      intro q hq heq
      rcases hP with e | e
      · exact (hdyn q (by grind)).2 (heq.trans e)
      · exact hd q (by grind) (heq ▸ e)
    have : Z (upd H0 z (some { cellS .L zc (par hdr ctx) l.ptr (plug rc (T.node y yc .nil ky yr)).ptr k hi.own with color := yc }))
        hdr hi ctx (mk .R y zc (plug rc yr) ky l)
        (upd (upd H4 y (some { cellS .L yc (par hdr ctx) l.ptr (plug rc yr).ptr ky hi.own with color := zc })) z
          (some { cellS .L zc (par hdr ctx) l.ptr (plug rc (T.node y yc .nil ky yr)).ptr k hi.own with color := yc })) := by
      refine ⟨?_, ?_, ⟨?_, ?_, h.ok.hdr⟩, ?_⟩
      · rw [mk_ptr]
        exact CtxRep_upd (CtxRep_upd hc4 hyh hyc) hzh hzc
      · rw [Rep_mk]
        refine ⟨?_, ?_, ?_⟩
        · rw [upd_other _ _ (Ne.symm hzy), upd_same]; rfl
        · refine Rep_congr (fun q hq => ?_) hr3
          rw [mem_plug_ptrs] at hq
          rw [upd_other, upd_other, hf4 q (hnP q (by grind))]
          · rintro rfl; grind
          · rintro rfl; grind
        · refine Rep_congr (fun q hq => ?_) hl3
          rw [upd_other, upd_other, hf4 q (hnP q (by grind))]
          · rintro rfl; grind
          · rintro rfl; grind
      · rw [nodup_plug_ptrs]
        refine ⟨hn.1, ?_, ?_⟩
        · rw [nodup_ptrs_mk, nodup_plug_ptrs]
          simp only [mem_plug_ptrs]
          refine ⟨by grind, hylm, ⟨hn1, hyr2, fun q hq => hn3' q (Or.inr hq)⟩, hm3, ?_⟩
          intro q hq hq2; exact hm5 q hq2 (by grind)
        · intro q hq
          rw [mem_ptrs_mk, mem_plug_ptrs] at hq
          exact hd q (by grind)
      · intro p hp
        rw [hmem'] at hp
        apply h.ok.dyn
        rw [mem_plug_ptrs, hmem]; grind
      · intro q h1 h2
        rw [hmem'] at h2
        by_cases hqz : q = z
        · subst hqz; rw [upd_same, upd_same]
        · rw [upd_other _ _ hqz, upd_other _ _ hqz, upd_other _ _ (by grind),
            hf4 q (by rcases hP with e | e <;> grind), hf3 q (by grind) (by grind) (by grind) (by grind)]
          refine h.frame q h1 ?_
          rw [mem_plug_ptrs, hmem]; grind
    have h2 := this.down
    have h3 := h2.toPlug
    apply Z.ofPlug
    rw [plug_append]
    exact h3
  cases rc with
  | nil =>
    have hcond : ¬ (y ≠ (plug [] (T.node y yc .nil ky yr)).ptr) := by simp [plug, T.ptr]
    refine wp_if_neg hcond ?_
    rw [wp_pure]
    refine main _ hz2 ⟨par z ([] : Ctx K), ?_⟩ ?_ ?_ ?_
    · rw [upd_same]; rfl
    · simp only [plug]
      refine Rep_upd (Rep_congr (fun q hq => hf1 q (fun e => hm5 q e (by simp [hq]))) hyr) hyr1
    · exact Rep_upd hl1 hylm
    · intro q h1 _ _ h4
      rw [upd_other _ _ h4, hf1 q h1]
  | cons f fs =>
    have hfs : f.s = .L := top_left hrc
    obtain ⟨hs1, hs2, hs3⟩ := hseg
    have hfp : f.p ∈ ctxPtrs (f :: fs) := by simp [mem_ctxPtrs_cons]
    have hfn : f.p ≠ .null := (hdyn f.p (by simp [hfp])).1
    have hfy : f.p ≠ y := fun e => hn3' y (Or.inl rfl) (e ▸ hfp)
    have hfz : z ≠ f.p := fun e => hm2 (Or.inl (e ▸ hfp))
    have hfl : f.p ∉ l.ptrs := fun e => hm5 _ e (Or.inl hfp)
    have hfyr : f.p ∉ yr.ptrs := fun e => hn3' _ (Or.inr e) hfp
    have hroot : (plug (f :: fs) (T.node y yc .nil ky yr)).ptr = (plug (f :: fs) yr).ptr := by
      have : ∀ (g : Frame K) (gs : Ctx K) (t t' : T K), (plug (g :: gs) t).ptr = (plug (g :: gs) t').ptr := by
        intro g gs
        induction gs generalizing g with
        | nil => intro t t'; simp [plug]
        | cons g' gs ih => intro t t'; exact ih g' _ _
      exact this _ _ _ _
    have hcond : y ≠ (plug (f :: fs) (T.node y yc .nil ky yr)).ptr := by
      intro e
      have := root_mem_ctxPtrs (f := f) (fs := fs) (t := T.node y yc .nil ky yr)
      rw [← e] at this
      exact hn3' y (Or.inl rfl) this
    refine wp_if_pos hcond ?_
    simp only [wp_bind]
    rw [wp_rd (by exact upd_same _ _ _) hyn]
    rw [wp_rd (by exact upd_same _ _ _) hyn]
    simp only [cellS_parent, par_cons]
    -- 3. reparent x
    have hyr2' : Rep (upd H1 y (some (cellS .L yc (par z (f :: fs)) l.ptr yr.ptr ky hi.own))) hi.own y yr :=
      Rep_upd (Rep_congr (fun q hq => hf1 q (fun e => hm5 q e (by simp [hq]))) hyr) hyr1
    refine wp_reparent (o := hi.own) (b := yr) (y := y) (w := w.setHeap _) (by exact hyr2') hyr2 hyr0 ?_
    intro H3 hyr3 hf3
    simp only [World.setHeap_heap, World.setHeap_setHeap] at hf3 ⊢
    have hy3 : H3 y = some (cellS .L yc f.p l.ptr yr.ptr ky hi.own) := by
      rw [hf3 y hyr1, upd_same]; rfl
    have hfp3 : H3 f.p = some (cellS f.s f.c (par z fs) y f.sib.ptr f.k hi.own) := by
      rw [hf3 f.p hfyr, upd_other _ _ hfy, hf1 f.p hfl]; exact hs1
    have hz3 : H3 z = some (cellS .L zc (par hdr ctx) l.ptr (plug (f :: fs) (T.node y yc .nil ky yr)).ptr k hi.own) := by
      rw [hf3 z (fun e => hm2 (by simp [e]))]; exact hz2
    rw [wp_rd (by exact hy3) hyn]
    simp only [cellS_parent]
    -- 4. f.p->left = x
    rw [wp_modCell (by exact hfp3) hfn]
    simp only [World.setHeap_heap, World.setHeap_setHeap]
    have hfc : ({ cellS f.s f.c (par z fs) y f.sib.ptr f.k hi.own with left := yr.ptr } : TNode K)
        = cellS f.s f.c (par z fs) yr.ptr f.sib.ptr f.k hi.own := by rw [hfs]; rfl
    rw [hfc]
    have hz4 : upd H3 f.p (some (cellS f.s f.c (par z fs) yr.ptr f.sib.ptr f.k hi.own)) z = _ :=
      (upd_other _ _ hfz).trans hz3
    rw [wp_rd (by exact hz4) hzn]
    simp only [setRight]
    -- 5. y->right
    rw [wp_modCell (by exact (upd_other _ _ (Ne.symm hfy)).trans hy3) hyn]
    simp only [World.setHeap_heap, World.setHeap_setHeap]
    have hyc' : ({ cellS .L yc f.p l.ptr yr.ptr ky hi.own with
        right := (cellS Side.L zc (par hdr ctx) l.ptr (plug (f :: fs) (T.node y yc .nil ky yr)).ptr k hi.own).right } : TNode K)
        = cellS .L yc f.p l.ptr (plug (f :: fs) yr).ptr ky hi.own := by rw [hroot]; rfl
    rw [hyc']
    have hz5 : upd (upd H3 f.p (some (cellS f.s f.c (par z fs) yr.ptr f.sib.ptr f.k hi.own))) y
        (some (cellS .L yc f.p l.ptr (plug (f :: fs) yr).ptr ky hi.own)) z = _ := (upd_other _ _ hzy).trans hz4
    rw [wp_rd (by exact hz5) hzn]
    -- 6. reparent the right subtree
    have hr5 : Rep (upd (upd H3 f.p (some (cellS f.s f.c (par z fs) yr.ptr f.sib.ptr f.k hi.own))) y
        (some (cellS .L yc f.p l.ptr (plug (f :: fs) yr).ptr ky hi.own))) hi.own z (plug (f :: fs) yr) := by
      have hfs' := nodup_ctxPtrs_cons.1 hn1
      have hyfs : ∀ q, q ∈ f.sib.ptrs ∨ q ∈ ctxPtrs fs → q ≠ y ∧ q ∉ l.ptrs ∧ q ∉ yr.ptrs ∧ q ≠ f.p := by
        intro q hq
        have hq' : q ∈ ctxPtrs (f :: fs) := by rw [mem_ctxPtrs_cons]; grind
        refine ⟨fun e => hn3' q (Or.inl e) hq', fun e => hm5 q e (Or.inl hq'), fun e => hn3' q (Or.inr e) hq', ?_⟩
        rintro rfl
        rcases hq with hq | hq
        · exact hfs'.1 hq
        · exact hfs'.2.1 hq
      have hfrm : ∀ q, q ∈ f.sib.ptrs ∨ q ∈ ctxPtrs fs →
          upd (upd H3 f.p (some (cellS f.s f.c (par z fs) yr.ptr f.sib.ptr f.k hi.own))) y
            (some (cellS .L yc f.p l.ptr (plug (f :: fs) yr).ptr ky hi.own)) q = w.heap q := by
        intro q hq
        obtain ⟨a1, a2, a3, a4⟩ := hyfs q hq
        rw [upd_other _ _ a1, upd_other _ _ a4, hf3 q a3, upd_other _ _ a1, hf1 q a2]
      rw [Seg_iff]
      refine ⟨⟨?_, ?_, ?_⟩, ?_⟩
      · rw [upd_other _ _ hfy, upd_same]
      · exact Rep_congr (fun q hq => hfrm q (Or.inl hq)) hs2
      · exact Seg_congr (fun q hq => hfrm q (Or.inr hq)) hs3
      · refine Rep_upd (Rep_upd hyr3 hfyr) hyr1
    have hmr' : ∀ q, q ∈ (plug (f :: fs) yr).ptrs ↔ q ∈ ctxPtrs (f :: fs) ∨ q ∈ yr.ptrs := fun q => mem_plug_ptrs
    have hzr : (cellS Side.L zc (par hdr ctx) l.ptr (plug (f :: fs) (T.node y yc .nil ky yr)).ptr k hi.own).right = (plug (f :: fs) yr).ptr := by
      rw [hroot]; rfl
    rw [hzr]
    have hrn : plug (f :: fs) yr ≠ .nil := by
      intro e
      have := root_mem_ctxPtrs (f := f) (fs := fs) (t := yr)
      rw [e] at this
      exact (hdyn _ (Or.inr (Or.inr (Or.inl this)))).1 rfl
    refine wp_setParent_root (o := hi.own) (b := plug (f :: fs) yr) (y := z) (w := w.setHeap _) hrn (by exact hr5) ?_ ?_ ?_
    · exact nodup_plug_ptrs.2 ⟨hn1, hyr2, fun q hq => hn3' q (Or.inr hq)⟩
    · rw [hmr']
      rintro (e | e)
      · exact (hdyn _ (by simp [e])).1 rfl
      · exact hyr0 e
    · intro H6 hr6 hf6
      simp only [World.setHeap_heap, World.setHeap_setHeap, wp_pure, hmr'] at hf6 ⊢
      have hfrm : ∀ q, q ∉ ctxPtrs (f :: fs) → q ∉ yr.ptrs → q ≠ y → H6 q = H1 q := by
        intro q h1 h2 h3
        rw [hf6 q (by grind), upd_other _ _ h3, upd_other _ _ (by rintro rfl; exact h1 hfp), hf3 q h2, upd_other _ _ h3]
      refine main H6 ?_ ⟨f.p, ?_⟩ hr6 ?_ ?_
      · rw [hfrm z (by grind) (by grind) hzy, hz1]
      · rw [hf6 y (by grind), upd_same]
      · refine Rep_congr (fun q hq => ?_) hl1
        exact hfrm q (fun e => hm5 q hq (by simp [e])) (fun e => hm5 q hq (by simp [e])) (by rintro rfl; exact hylm hq)
      · intro q h1 h2 h3 h4
        rw [hfrm q h2 h3 h4, hf1 q h1]

end
end Nestl.RB
