import Verif.RBTree.Rep
set_option autoImplicit false
/-
Heap surgery lemmas: recolouring, moving the focus, relinking and rotating, for an arbitrary zipper.
-/
namespace Nestl.RB
variable {K : Type}

/-- Node addresses are pairwise distinct, come from the allocator, and the header is an automatic object. -/
structure PtrsOk (hdr : Ptr) (L : List Ptr) : Prop where
  nodup : L.Nodup
  dyn : ∀ p ∈ L, ∃ i, p = Ptr.dyn i
  hdr : ∃ i, hdr = Ptr.stk i

theorem mem_ptrs_mk {s : Side} {p c} {a : T K} {k b q} :
    q ∈ (mk s p c a k b).ptrs ↔ q = p ∨ q ∈ a.ptrs ∨ q ∈ b.ptrs := by
  cases s <;> simp only [mk, T.ptrs, T.nodes, List.map_append, List.map_cons, List.mem_append, List.mem_cons] <;> grind

theorem nodup_ptrs_mk {s : Side} {p c} {a : T K} {k b} :
    (mk s p c a k b).ptrs.Nodup ↔ p ∉ a.ptrs ∧ p ∉ b.ptrs ∧ a.ptrs.Nodup ∧ b.ptrs.Nodup ∧
      ∀ q ∈ a.ptrs, q ∉ b.ptrs := by
  cases s <;> simp only [mk, T.ptrs, T.nodes, List.map_append, List.map_cons, List.nodup_append, List.nodup_cons,
    List.mem_cons] <;> grind

theorem mem_plug_ptrs {ctx : Ctx K} {t : T K} {q : Ptr} :
    q ∈ (plug ctx t).ptrs ↔ q ∈ ctxPtrs ctx ∨ q ∈ t.ptrs := by
  simp only [T.ptrs, plug_nodes, ctxPtrs, List.map_append, List.mem_append]; grind

theorem nodup_plug_ptrs {ctx : Ctx K} {t : T K} :
    (plug ctx t).ptrs.Nodup ↔ (ctxPtrs ctx).Nodup ∧ t.ptrs.Nodup ∧ ∀ q ∈ t.ptrs, q ∉ ctxPtrs ctx := by
  simp only [T.ptrs, plug_nodes, ctxPtrs, List.map_append, List.nodup_append, List.mem_append]; grind

theorem nodup_ctxPtrs_cons {f : Frame K} {fs : Ctx K} :
    (ctxPtrs (f :: fs)).Nodup ↔ f.p ∉ f.sib.ptrs ∧ f.p ∉ ctxPtrs fs ∧ f.sib.ptrs.Nodup ∧
      (ctxPtrs fs).Nodup ∧ ∀ q ∈ f.sib.ptrs, q ∉ ctxPtrs fs := by
  rcases f with ⟨_ | _, p, c, k, sib⟩ <;>
    simp only [ctxPtrs, pre, post, T.ptrs, List.map_append, List.map_cons, List.mem_append, List.mem_cons,
      List.map_nil, List.not_mem_nil, List.cons_append, List.nodup_append, List.nodup_cons, List.nodup_nil] <;> grind

theorem ptr_mem_ptrs {t : T K} (h : t ≠ .nil) : t.ptr ∈ t.ptrs := by
  cases t with
  | nil => exact absurd rfl h
  | node p c l k r => simp [T.ptr, T.ptrs, T.nodes]

theorem root_mem_ctxPtrs {f : Frame K} {fs : Ctx K} {t : T K} :
    (plug (f :: fs) t).ptr ∈ ctxPtrs (f :: fs) := by
  induction fs generalizing f t with
  | nil => simp [plug, mem_ctxPtrs_cons]
  | cons g gs ih =>
    rw [plug, mem_ctxPtrs_cons]
    exact Or.inr (Or.inr ih)

theorem ctxPtrs_irrel {ctx : Ctx K} {t t' : T K} (h : t.nodes = t'.nodes) :
    (plug ctx t).ptrs = (plug ctx t').ptrs := by
  simp [T.ptrs, plug_nodes, h]

/-- `H` represents the zipper `(ctx, t)` with header `hdr`, and agrees with `H0` outside its nodes. -/
structure Z (H0 : Ptr → Option (TNode K)) (hdr : Ptr) (hi : Hd) (ctx : Ctx K) (t : T K)
    (H : Ptr → Option (TNode K)) : Prop where
  intro ::
  crep : CtxRep H hdr hi ctx t.ptr
  rep : Rep H hi.own (par hdr ctx) t
  ok : PtrsOk hdr (plug ctx t).ptrs
  frame : ∀ p, p ≠ hdr → p ∉ (plug ctx t).ptrs → H p = H0 p

section zlemmas
variable {H0 H : Ptr → Option (TNode K)} {hdr : Ptr} {hi : Hd} {ctx fs : Ctx K} {f : Frame K} {t : T K}
  {s : Side} {p : Ptr} {c : Color} {a b : T K} {k : K}

theorem Z.up (h : Z H0 hdr hi (f :: fs) t H) : Z H0 hdr hi fs (mk f.s f.p f.c t f.k f.sib) H where
  crep := by have := h.crep; simp only [CtxRep] at this; simpa using this.2.2
  rep := by
    have h1 := h.crep; simp only [CtxRep] at h1
    rw [Rep_mk]; exact ⟨h1.1, by simpa using h.rep, h1.2.1⟩
  ok := h.ok
  frame := h.frame

theorem Z.down (h : Z H0 hdr hi ctx (mk s p c a k b) H) : Z H0 hdr hi (⟨s, p, c, k, b⟩ :: ctx) a H where
  crep := by
    have h1 := h.rep; rw [Rep_mk] at h1
    have h2 := h.crep; rw [mk_ptr] at h2
    exact ⟨h1.1, h1.2.2, h2⟩
  rep := by
    have h1 := h.rep; rw [Rep_mk] at h1; exact h1.2.1
  ok := h.ok
  frame := h.frame

theorem Z.toPlug (h : Z H0 hdr hi ctx t H) : Z H0 hdr hi [] (plug ctx t) H where
  crep := (plug_rep.1 ⟨h.crep, h.rep⟩).1
  rep := (plug_rep.1 ⟨h.crep, h.rep⟩).2
  ok := h.ok
  frame := h.frame

theorem Z.ofPlug (h : Z H0 hdr hi [] (plug ctx t) H) : Z H0 hdr hi ctx t H where
  crep := (plug_rep.2 ⟨h.crep, h.rep⟩).1
  rep := (plug_rep.2 ⟨h.crep, h.rep⟩).2
  ok := h.ok
  frame := h.frame

theorem Z.hdrCell (h : Z H0 hdr hi ctx t H) : H hdr = some (hdCell hi (plug ctx t).ptr) :=
  (plug_rep.1 ⟨h.crep, h.rep⟩).1

theorem Z.focus (h : Z H0 hdr hi ctx (mk s p c a k b) H) :
    H p = some (cellS s c (par hdr ctx) a.ptr b.ptr k hi.own) := (Rep_mk.1 h.rep).1

theorem Z.parCell (h : Z H0 hdr hi (f :: fs) t H) :
    H f.p = some (cellS f.s f.c (par hdr fs) t.ptr f.sib.ptr f.k hi.own) := h.crep.1

theorem Z.hdr_ne (h : Z H0 hdr hi ctx t H) : hdr ≠ .null := by
  obtain ⟨i, rfl⟩ := h.ok.hdr; simp

theorem Z.ne_null (h : Z H0 hdr hi ctx t H) (hp : p ∈ (plug ctx t).ptrs) : p ≠ .null := by
  obtain ⟨i, rfl⟩ := h.ok.dyn p hp; simp

theorem Z.ne_hdr (h : Z H0 hdr hi ctx t H) (hp : p ∈ (plug ctx t).ptrs) : p ≠ hdr := by
  obtain ⟨i, rfl⟩ := h.ok.dyn p hp
  obtain ⟨j, rfl⟩ := h.ok.hdr; simp

theorem Z.focus_mem (_h : Z H0 hdr hi ctx (mk s p c a k b) H) : p ∈ (plug ctx (mk s p c a k b)).ptrs := by
  rw [mem_plug_ptrs, mem_ptrs_mk]; simp

theorem Z.focus_ne_null (h : Z H0 hdr hi ctx (mk s p c a k b) H) : p ≠ .null := h.ne_null h.focus_mem
theorem Z.focus_ne_hdr (h : Z H0 hdr hi ctx (mk s p c a k b) H) : p ≠ hdr := h.ne_hdr h.focus_mem
theorem Z.par_mem (_h : Z H0 hdr hi (f :: fs) t H) : f.p ∈ (plug (f :: fs) t).ptrs := by
  rw [mem_plug_ptrs, mem_ctxPtrs_cons]; simp
theorem Z.par_ne_null (h : Z H0 hdr hi (f :: fs) t H) : f.p ≠ .null := h.ne_null h.par_mem
theorem Z.par_ne_hdr (h : Z H0 hdr hi (f :: fs) t H) : f.p ≠ hdr := h.ne_hdr h.par_mem

/-- The focus is the root exactly when the context is empty. -/
theorem Z.eq_root_iff (h : Z H0 hdr hi ctx t H) : t.ptr = (plug ctx t).ptr ↔ ctx = [] := by
  cases ctx with
  | nil => simp [plug]
  | cons f fs =>
    simp only [reduceCtorEq, iff_false]
    intro e
    have hm := root_mem_ctxPtrs (f := f) (fs := fs) (t := t)
    rw [← e] at hm
    by_cases ht : t = .nil
    · subst ht
      exact h.ne_null (mem_plug_ptrs.2 (Or.inl hm)) rfl
    · exact (nodup_plug_ptrs.1 h.ok.nodup).2.2 _ (ptr_mem_ptrs ht) hm

theorem Z.eq_root_iff' (h : Z H0 hdr hi ctx (mk s p c a k b) H) :
    p = (plug ctx (mk s p c a k b)).ptr ↔ ctx = [] := by
  have := h.eq_root_iff; simpa using this

/-- The focus and its sibling are different addresses, unless both are null. -/
theorem Z.ne_sib (h : Z H0 hdr hi (f :: fs) t H) (hn : t ≠ .nil ∨ f.sib ≠ .nil) : t.ptr ≠ f.sib.ptr := by
  intro e
  have h2 := h.up
  have hn2 := nodup_ptrs_mk.1 (nodup_plug_ptrs.1 h2.ok.nodup).2.1
  by_cases ht : t = .nil
  · subst ht
    have hs : f.sib ≠ .nil := by simpa using hn
    have : f.sib.ptr ≠ .null := h2.ne_null (mem_plug_ptrs.2 (Or.inr (mem_ptrs_mk.2 (Or.inr (Or.inr (ptr_mem_ptrs hs))))))
    exact this e.symm
  · by_cases hs : f.sib = .nil
    · rw [hs] at e
      have : t.ptr ≠ .null := h2.ne_null (mem_plug_ptrs.2 (Or.inr (mem_ptrs_mk.2 (Or.inr (Or.inl (ptr_mem_ptrs ht))))))
      exact this e
    · exact hn2.2.2.2.2 _ (ptr_mem_ptrs ht) (e ▸ ptr_mem_ptrs hs)

/-- Recolour the focus. -/
theorem Z.recolor (h : Z H0 hdr hi ctx (mk s p c a k b) H) (c' : Color) :
    Z H0 hdr hi ctx (mk s p c' a k b) (upd H p (some (cellS s c' (par hdr ctx) a.ptr b.ptr k hi.own))) := by
  have hn := nodup_plug_ptrs.1 h.ok.nodup
  have hm := nodup_ptrs_mk.1 hn.2.1
  have hrep := Rep_mk.1 h.rep
  have hnodes : (mk s p c' a k b).nodes = (mk s p c a k b).nodes := by cases s <;> rfl
  have hp := h.focus_ne_hdr
  refine ⟨?_, ?_, ?_, ?_⟩
  · have := h.crep
    rw [mk_ptr] at this ⊢
    refine CtxRep_congr (upd_other _ _ (Ne.symm hp)) (fun q hq => upd_other _ _ ?_) this
    rintro rfl
    exact hn.2.2 _ (mem_ptrs_mk.2 (Or.inl rfl)) hq
  · rw [Rep_mk]
    refine ⟨upd_same _ _ _, Rep_congr (fun q hq => upd_other _ _ ?_) hrep.2.1,
      Rep_congr (fun q hq => upd_other _ _ ?_) hrep.2.2⟩
    · rintro rfl; exact hm.1 hq
    · rintro rfl; exact hm.2.1 hq
  · rw [ctxPtrs_irrel hnodes]; exact h.ok
  · intro q hq hq2
    rw [ctxPtrs_irrel hnodes] at hq2
    rw [upd_other]
    · exact h.frame q hq hq2
    · rintro rfl; exact hq2 h.focus_mem

/-- Changing the header-only data. -/
theorem Z.setHd (h : Z H0 hdr hi ctx t H) (hi' : Hd) (ho : hi'.own = hi.own) :
    Z H0 hdr hi' ctx t (upd H hdr (some (hdCell hi' (plug ctx t).ptr))) := by
  have h' := h.toPlug
  apply Z.ofPlug
  refine ⟨?_, ?_, h.ok, ?_⟩
  · simp [CtxRep]
  · rw [ho]
    refine Rep_congr (fun q hq => upd_other _ _ ?_) h'.rep
    exact h.ne_hdr hq
  · intro q hq hq2; rw [upd_other _ _ hq]; exact h.frame q hq hq2

end zlemmas

section ops
variable {H0 : Ptr → Option (TNode K)} {hdr : Ptr} {hi : Hd} {ctx fs : Ctx K} {f : Frame K} {t : T K}
  {s : Side} {p x y : Ptr} {c cx cy : Color} {a b e : T K} {k kx ky : K} {w : W K} {Q : Unit → W K → Prop}

theorem wp_setColor_focus {c' : Color} (h : Z H0 hdr hi ctx (mk s p c a k b) w.heap)
    (hQ : ∀ H', Z H0 hdr hi ctx (mk s p c' a k b) H' → Q () (w.setHeap H')) :
    wp (setColor p c') w Q := by
  unfold setColor
  rw [wp_modCell h.focus h.focus_ne_null]
  refine hQ _ ?_
  have := h.recolor c'
  cases s <;> exact this

/-- Generic form of `relinkL` / `relinkR`. -/
def relinkG (s : Side) (hdr x y : Ptr) : M (W K) Unit := do
  if x = (← rd hdr).parent then
    setParent hdr y
  else if x = (← rd (← rd x).parent).child s then
    modCell (← rd x).parent (fun n => n.setChild s y)
  else
    modCell (← rd x).parent (fun n => n.setChild s.other y)

theorem relinkL_eq (hdr x y : Ptr) : (relinkL hdr x y : M (W K) Unit) = relinkG .L hdr x y := rfl
theorem relinkR_eq (hdr x y : Ptr) : (relinkR hdr x y : M (W K) Unit) = relinkG .R hdr x y := rfl

/-- Generic rotation: `rotateLeft = rotG .L`. -/
def rotG (s : Side) (hdr x : Ptr) : M (W K) Unit := do
  let y := (← rd x).child s.other
  let yl := (← rd y).child s
  modCell x (fun n => n.setChild s.other yl)
  reparent ((← rd y).child s) x
  setParent y (← rd x).parent
  relinkG s hdr x y
  modCell y (fun n => n.setChild s x)
  setParent x y

theorem rotateLeft_eq (hdr x : Ptr) : (rotateLeft hdr x : M (W K) Unit) = rotG .L hdr x := rfl
theorem rotateRight_eq (hdr x : Ptr) : (rotateRight hdr x : M (W K) Unit) = rotG .R hdr x := rfl

theorem Rep_upd {H : Ptr → Option (TNode K)} {o q n par} {t : T K} (hr : Rep H o par t) (hq : q ∉ t.ptrs) :
    Rep (upd H q n) o par t :=
  Rep_congr (fun p hp => upd_other _ _ (by rintro rfl; exact hq hp)) hr

theorem CtxRep_upd {H : Ptr → Option (TNode K)} {q n r} (hr : CtxRep H hdr hi ctx r) (hh : q ≠ hdr)
    (hq : q ∉ ctxPtrs ctx) : CtxRep (upd H q n) hdr hi ctx r :=
  CtxRep_congr (upd_other _ _ (Ne.symm hh)) (fun p hp => upd_other _ _ (by rintro rfl; exact hq hp)) hr

theorem wp_reparent {o : Nat} {y : Ptr} (hr : Rep w.heap o y b) (hn : b.ptrs.Nodup) (h0 : Ptr.null ∉ b.ptrs)
    (hQ : ∀ H', Rep H' o x b → (∀ q, q ∉ b.ptrs → H' q = w.heap q) → Q () (w.setHeap H')) :
    wp (reparent b.ptr x) w Q := by
  cases b with
  | nil => simp [reparent, T.ptr]; exact hQ _ trivial (fun _ _ => rfl)
  | node p c l k r =>
    have hne : p ≠ .null := by rintro rfl; simp [T.ptrs, T.nodes] at h0
    have hn' := (nodup_ptrs_mk (s := .L) (p := p) (c := c) (a := l) (k := k) (b := r)).1 hn
    obtain ⟨h1, h2, h3⟩ := hr
    simp only [reparent, T.ptr, ne_eq, hne, not_false_eq_true, if_true, setParent]
    rw [wp_modCell h1 hne]
    refine hQ _ ⟨upd_same _ _ _, Rep_upd h2 hn'.1, Rep_upd h3 hn'.2.1⟩ ?_
    intro q hq
    rw [upd_other]
    rintro rfl
    simp [T.ptrs, T.nodes] at hq

def rootPtr : Ctx K → Ptr → Ptr
  | [], q => q
  | f :: fs, _ => rootPtr fs f.p

theorem CtxRep_hdr {H : Ptr → Option (TNode K)} {q} (h : CtxRep H hdr hi ctx q) :
    H hdr = some (hdCell hi (rootPtr ctx q)) := by
  induction ctx generalizing q with
  | nil => exact h
  | cons f fs ih => exact ih h.2.2

theorem rootPtr_mem {f : Frame K} {fs : Ctx K} {q : Ptr} : rootPtr (f :: fs) q ∈ ctxPtrs (f :: fs) := by
  induction fs generalizing f q with
  | nil => simp [rootPtr, mem_ctxPtrs_cons]
  | cons g gs ih => rw [mem_ctxPtrs_cons]; exact Or.inr (Or.inr (ih (q := f.p)))

theorem wp_relinkG {n : TNode K} (hc : CtxRep w.heap hdr hi ctx x) (hx : w.heap x = some n)
    (hp : n.parent = par hdr ctx) (hx1 : x ∉ ctxPtrs ctx) (hx2 : x ≠ .null)
    (hok : PtrsOk hdr (ctxPtrs ctx))
    (hQ : ∀ H', CtxRep H' hdr hi ctx y → (∀ q, q ≠ par hdr ctx → H' q = w.heap q) → Q () (w.setHeap H')) :
    wp (relinkG s hdr x y) w Q := by
  have hh : hdr ≠ .null := by obtain ⟨i, rfl⟩ := hok.hdr; simp
  unfold relinkG
  simp only [wp_bind, wp_rd (CtxRep_hdr hc) hh, wp_ite]
  cases ctx with
  | nil =>
    simp only [hdCell, rootPtr, if_true, setParent]
    rw [wp_modCell hc hh]
    refine hQ _ (upd_same _ _ _) (fun q hq => upd_other _ _ hq)
  | cons f fs =>
    have hfp : f.p ∈ ctxPtrs (f :: fs) := by simp [mem_ctxPtrs_cons]
    have hfn : f.p ≠ .null := by obtain ⟨i, hi⟩ := hok.dyn _ hfp; simp [hi]
    have hfh : f.p ≠ hdr := by
      obtain ⟨i, hi⟩ := hok.dyn _ hfp; obtain ⟨j, hj⟩ := hok.hdr; simp [hi, hj]
    have hne : x ≠ rootPtr (f :: fs) x := fun e => hx1 (e ▸ rootPtr_mem)
    have hnod := nodup_ctxPtrs_cons.1 hok.nodup
    have hsib : x ≠ f.sib.ptr := by
      intro e
      by_cases hs : f.sib = .nil
      · rw [hs] at e; exact hx2 e
      · exact hx1 (mem_ctxPtrs_cons.2 (Or.inr (Or.inl (e ▸ ptr_mem_ptrs hs))))
    obtain ⟨h1, h2, h3⟩ := hc
    have key : ∀ H' : Ptr → Option (TNode K), H' = upd w.heap f.p (some (cellS f.s f.c (par hdr fs) y f.sib.ptr f.k hi.own)) →
        Q () (w.setHeap H') := by
      rintro H' rfl
      refine hQ _ ⟨upd_same _ _ _, Rep_upd h2 hnod.1, CtxRep_upd h3 hfh hnod.2.1⟩ (fun q hq => upd_other _ _ hq)
    simp only [hdCell, hne, if_false, wp_rd hx hx2, hp, par_cons, wp_rd h1 hfn]
    by_cases hs : f.s = s
    · subst hs
      simp only [cellS_child, if_true]
      rw [wp_modCell h1 hfn]
      exact key _ (by simp)
    · have hs' : s = f.s.other := by cases s <;> cases hfs : f.s <;> simp_all [Side.other]
      subst hs'
      simp only [cellS_child_other, hsib, if_false, Side.other_other]
      rw [wp_modCell h1 hfn]
      exact key _ (by simp)

theorem rot_nodes {s : Side} {x y cx cy} {a b e : T K} {kx ky} :
    (mk s y cy (mk s x cx a kx b) ky e).nodes = (mk s x cx a kx (mk s y cy b ky e)).nodes := by
  cases s <;> simp [mk, T.nodes]

theorem wp_rotG (h : Z H0 hdr hi ctx (mk s x cx a kx (mk s y cy b ky e)) w.heap)
    (hQ : ∀ H', Z H0 hdr hi ctx (mk s y cy (mk s x cx a kx b) ky e) H' → Q () (w.setHeap H')) :
    wp (rotG s hdr x) w Q := by
  have hx := h.focus
  have hxn := h.focus_ne_null
  have hxh := h.focus_ne_hdr
  have hrep := Rep_mk.1 h.rep
  have hrep2 := Rep_mk.1 hrep.2.2
  have hy := hrep2.1
  have hym : y ∈ (plug ctx (mk s x cx a kx (mk s y cy b ky e))).ptrs := by
    rw [mem_plug_ptrs, mem_ptrs_mk, mem_ptrs_mk]; simp
  have hyn := h.ne_null hym
  have hyh := h.ne_hdr hym
  have hn := nodup_plug_ptrs.1 h.ok.nodup
  have hd := hn.2.2
  have hm := nodup_ptrs_mk.1 hn.2.1
  simp only [mem_ptrs_mk] at hd hm
  have hm2 := nodup_ptrs_mk.1 hm.2.2.2.1
  have hcr := h.crep
  rw [mk_ptr] at hcr hx
  have hxy : x ≠ y := fun e => hm.2.1 (Or.inl e)
  have h0b : Ptr.null ∉ b.ptrs := fun hh => h.ne_null (p := .null) (by
    rw [mem_plug_ptrs, mem_ptrs_mk, mem_ptrs_mk]; exact Or.inr (Or.inr (Or.inr (Or.inr (Or.inl hh))))) rfl
  have hokc : PtrsOk hdr (ctxPtrs ctx) := ⟨hn.1, fun p hp => h.ok.dyn p (mem_plug_ptrs.2 (Or.inl hp)), h.ok.hdr⟩
  have hP : par hdr ctx = hdr ∨ par hdr ctx ∈ ctxPtrs ctx := by
    cases ctx with
    | nil => exact Or.inl rfl
    | cons f fs => exact Or.inr (by simp [mem_ctxPtrs_cons])
  have hPx : par hdr ctx ≠ x := by rcases hP with e | e <;> grind
  have hPy : par hdr ctx ≠ y := by rcases hP with e | e <;> grind
  have hxc : x ∉ ctxPtrs ctx := hd x (Or.inl rfl)
  have hyc : y ∉ ctxPtrs ctx := hd y (Or.inr (Or.inr (Or.inl rfl)))
  unfold rotG
  simp only [wp_bind, wp_rd hx hxn, cellS_child_other, wp_rd hy hyn, cellS_child]
  rw [wp_modCell hx hxn]
  simp only [cellS_setChild_other]
  have hy1 : upd w.heap x (some (cellS s cx (par hdr ctx) a.ptr b.ptr kx hi.own)) y = _ :=
    (upd_other _ _ (Ne.symm hxy)).trans hy
  rw [wp_rd (by exact hy1) hyn]
  simp only [cellS_child]
  have hb1 : Rep (upd w.heap x (some (cellS s cx (par hdr ctx) a.ptr b.ptr kx hi.own))) hi.own y b :=
    Rep_upd hrep2.2.1 (fun hh => hm.2.1 (Or.inr (Or.inl hh)))
  refine wp_reparent (b := b) (y := y) (o := hi.own) hb1 hm2.2.2.1 h0b ?_
  intro H2 hb2 hH2
  simp only [World.setHeap_heap, World.setHeap_setHeap] at hH2 ⊢
  have hx2 : H2 x = some (cellS s cx (par hdr ctx) a.ptr b.ptr kx hi.own) := by
    rw [hH2 x (fun hh => hm.2.1 (Or.inr (Or.inl hh))), upd_same]
  have hy2 : H2 y = some (cellS s cy x b.ptr e.ptr ky hi.own) := by
    rw [hH2 y hm2.1, hy1]
  have ha2 : Rep H2 hi.own x a := by
    refine Rep_congr (fun q hq => ?_) hrep.2.1
    rw [hH2 q (fun hh => hm.2.2.2.2 q hq (Or.inr (Or.inl hh))), upd_other]
    rintro rfl; exact hm.1 hq
  have he2 : Rep H2 hi.own y e := by
    refine Rep_congr (fun q hq => ?_) hrep2.2.2
    rw [hH2 q (fun hh => hm2.2.2.2.2 q hh hq), upd_other]
    rintro rfl; exact hm.2.1 (Or.inr (Or.inr hq))
  have hc2 : CtxRep H2 hdr hi ctx x := by
    refine CtxRep_congr ?_ (fun q hq => ?_) hcr
    · rw [hH2 hdr, upd_other _ _ (Ne.symm hxh)]
      intro hh
      exact h.ne_hdr (p := hdr) (by rw [mem_plug_ptrs, mem_ptrs_mk, mem_ptrs_mk]; exact Or.inr (Or.inr (Or.inr (Or.inr (Or.inl hh))))) rfl
    · rw [hH2 q (fun hh => hd q (Or.inr (Or.inr (Or.inr (Or.inl hh)))) hq), upd_other]
      rintro rfl; exact hxc hq
  have hf2 : ∀ q, q ≠ x → q ∉ b.ptrs → H2 q = w.heap q := by
    intro q h1 h2; rw [hH2 q h2, upd_other _ _ h1]
  clear hH2
  rw [wp_rd (by exact hx2) hxn]
  simp only [cellS_parent, setParent]
  rw [wp_modCell (by exact hy2) hyn]
  simp only [World.setHeap_heap, World.setHeap_setHeap]
  have hcy : ({ cellS s cy x b.ptr e.ptr ky hi.own with parent := par hdr ctx } : TNode K)
      = cellS s cy (par hdr ctx) b.ptr e.ptr ky hi.own := by cases s <;> rfl
  rw [hcy]
  refine wp_relinkG (y := y) (ctx := ctx) (hi := hi) (n := cellS s cx (par hdr ctx) a.ptr b.ptr kx hi.own)
    (CtxRep_upd hc2 hyh hyc) ((upd_other _ _ hxy).trans hx2) (by simp) hxc hxn hokc ?_
  intro H3 hc3 hH3
  simp only [World.setHeap_heap, World.setHeap_setHeap] at hH3 ⊢
  have hy3 : H3 y = some (cellS s cy (par hdr ctx) b.ptr e.ptr ky hi.own) := by
    rw [hH3 y (Ne.symm hPy), upd_same]
  have hx3 : H3 x = some (cellS s cx (par hdr ctx) a.ptr b.ptr kx hi.own) := by
    rw [hH3 x (Ne.symm hPx), upd_other _ _ hxy, hx2]
  rw [wp_modCell (by exact hy3) hyn]
  simp only [World.setHeap_heap, World.setHeap_setHeap, cellS_setChild]
  rw [wp_modCell (by exact (upd_other _ _ hxy).trans hx3) hxn]
  simp only [World.setHeap_heap, World.setHeap_setHeap]
  have hcx : ({ cellS s cx (par hdr ctx) a.ptr b.ptr kx hi.own with parent := y } : TNode K)
      = cellS s cx y a.ptr b.ptr kx hi.own := by cases s <;> rfl
  rw [hcx]
  have hPn : ∀ q, (q ∈ a.ptrs ∨ q ∈ b.ptrs ∨ q ∈ e.ptrs) → q ≠ par hdr ctx := by
    intro q hq heq
    rcases hP with e' | e'
    · have : q ∈ (plug ctx (mk s x cx a kx (mk s y cy b ky e))).ptrs := by
        rw [mem_plug_ptrs, mem_ptrs_mk, mem_ptrs_mk]; grind
      exact h.ne_hdr this (heq.trans e')
    · rw [← heq] at e'
      exact hd q (by grind) e'
  apply hQ
  refine ⟨?_, ?_, ?_, ?_⟩
  · rw [mk_ptr]
    exact CtxRep_upd (CtxRep_upd hc3 hyh hyc) hxh hxc
  · rw [Rep_mk, Rep_mk]
    refine ⟨?_, ⟨?_, ?_, ?_⟩, ?_⟩
    · rw [mk_ptr, upd_other _ _ (Ne.symm hxy), upd_same]
    · rw [upd_same]
    · refine Rep_congr (fun q hq => ?_) ha2
      rw [upd_other, upd_other, hH3 q (hPn q (Or.inl hq)), upd_other]
      all_goals (rintro rfl; grind)
    · refine Rep_congr (fun q hq => ?_) hb2
      rw [upd_other, upd_other, hH3 q (hPn q (Or.inr (Or.inl hq))), upd_other]
      all_goals (rintro rfl; grind)
    · refine Rep_congr (fun q hq => ?_) he2
      rw [upd_other, upd_other, hH3 q (hPn q (Or.inr (Or.inr hq))), upd_other]
      all_goals (rintro rfl; grind)
  · rw [ctxPtrs_irrel rot_nodes]; exact h.ok
  · intro q hqh hq
    rw [ctxPtrs_irrel rot_nodes] at hq
    rw [← h.frame q hqh hq]
    rw [mem_plug_ptrs, mem_ptrs_mk, mem_ptrs_mk] at hq
    have hqP : q ≠ par hdr ctx := by rcases hP with e' | e' <;> grind
    rw [upd_other _ _ (by grind), upd_other _ _ (by grind), hH3 q hqP, upd_other _ _ (by grind), hf2 q (by grind) (by grind)]

end ops
end Nestl.RB
