import Verif.RBTree.CompareOps
set_option autoImplicit false
/-
The self check of a tree whose nodes are linked correctly but whose colours and keys are arbitrary.
-/
namespace Nestl.RB
variable {K : Type}

/-- The object `hdr` holds a well linked binary tree; nothing is said about colours, keys, and the data `hd` kept in the header
(the recorded first and last element and the recorded number of elements). -/
structure LinkedH (H : Ptr → Option (TNode K)) (hdr : Ptr) (hd : Hd) (t : T K) : Prop where
  cell : H hdr = some (hdCell hd t.ptr)
  rep : Rep H hd.own hdr t
  ok : PtrsOk hdr t.ptrs

/-- The object `hdr` holds a well linked binary tree with correct data in the header; nothing is said about colours and keys. -/
abbrev Linked (H : Ptr → Option (TNode K)) (hdr : Ptr) (o : Nat) (t : T K) : Prop :=
  LinkedH H hdr ⟨firstP hdr t.nodes, lastP hdr t.nodes, o, t.nodes.length⟩ t

section
variable {x y hdr : Ptr} {w : W K} {t u l r : T K} {o o' : Nat} {hd : Hd} {lt : K → K → Bool} {ctx : Ctx K} {k : K}

theorem Tree.linked {H : Ptr → Option (TNode K)} (h : Tree H hdr o t) : Linked H hdr o t := ⟨h.cell, h.rep, h.ok⟩

theorem LinkedH.toZ {H : Ptr → Option (TNode K)} (h : LinkedH H hdr hd (plug ctx t)) :
    Z H hdr hd ctx t H :=
  Z.ofPlug ⟨h.cell, h.rep, h.ok, fun _ _ _ => rfl⟩

theorem LinkedH.toZ' {H : Ptr → Option (TNode K)} (h : LinkedH H hdr hd t) {A B : List (Ptr × K)} {p k}
    (hn : t.nodes = A ++ (p, k) :: B) : ∃ ctx c l r, t = plug ctx (.node p c l k r) ∧ A = pre ctx ++ l.nodes ∧
      B = r.nodes ++ post ctx ∧
      Z H hdr hd ctx (.node p c l k r) H := by
  obtain ⟨ctx, zc, l, r, rfl, hA, hB⟩ := exists_zipper hn
  exact ⟨ctx, zc, l, r, rfl, hA, hB, h.toZ⟩

theorem LinkedH.hdr_ne {H : Ptr → Option (TNode K)} (h : LinkedH H hdr hd t) : hdr ≠ .null := by
  obtain ⟨i, rfl⟩ := h.ok.hdr; simp

theorem LinkedH.node_ne_null {H : Ptr → Option (TNode K)} {p} (h : LinkedH H hdr hd t) (hp : p ∈ t.ptrs) : p ≠ .null := by
  obtain ⟨i, rfl⟩ := h.ok.dyn p hp; simp

theorem LinkedH.null_notMem {H : Ptr → Option (TNode K)} (h : LinkedH H hdr hd t) : Ptr.null ∉ t.ptrs :=
  fun hh => h.node_ne_null hh rfl

theorem LinkedH.node_ne_hdr {H : Ptr → Option (TNode K)} {p} (h : LinkedH H hdr hd t) (hp : p ∈ t.ptrs) : p ≠ hdr := by
  obtain ⟨i, rfl⟩ := h.ok.dyn p hp
  obtain ⟨j, rfl⟩ := h.ok.hdr; simp

theorem LinkedH.focus {H : Ptr → Option (TNode K)} {p c} (h : LinkedH H hdr hd (plug ctx (.node p c l k r))) :
    H p = some (cellS .L c (par hdr ctx) l.ptr r.ptr k hd.own) := h.toZ.focus (s := .L)

theorem LinkedH.focus_ne {H : Ptr → Option (TNode K)} {p c} (h : LinkedH H hdr hd (plug ctx (.node p c l k r))) :
    p ≠ .null := h.toZ.focus_ne_null (s := .L)

theorem LinkedH.wp_increment {p : Ptr} {k : K} {A B : List (Ptr × K)} {Q : Ptr → W K → Prop} (h : LinkedH w.heap hdr hd t)
    (hn : t.nodes = A ++ (p, k) :: B) (hQ : Q (firstP hdr B) w) : wp (increment p) w Q := by
  obtain ⟨ctx, c, l, r, rfl, -, rfl, hz⟩ := h.toZ' hn
  exact Nestl.RB.wp_increment hz hQ

/-- Number of black nodes above the hole. -/
def blk : Ctx K → Nat
  | [] => 0
  | f :: fs => blk fs + (if f.c = .black then 1 else 0)

theorem plug_ptr_mem {f : Frame K} {fs : Ctx K} {t : T K} : (plug (f :: fs) t).ptr ∈ ctxPtrs (f :: fs) := by
  induction fs generalizing f t with
  | nil =>
    rcases f with ⟨_ | _, p, c, k, sib⟩ <;> simp [plug, ctxPtrs, pre, post]
  | cons g gs ih =>
    have := ih (f := g) (t := mk f.s f.p f.c t f.k f.sib)
    rw [plug]
    rcases f with ⟨_ | _, p, c, k, sib⟩ <;> (simp only [ctxPtrs, pre, post, List.map_append, List.mem_append] at this ⊢; grind)

theorem wp_blackCount {ctx : Ctx K} {s : Side} {p : Ptr} {c : Color} {a b : T K} {k : K} {Q : Nat → W K → Prop}
    (h : LinkedH w.heap hdr hd (plug ctx (mk s p c a k b))) (hQ : Q (blk ctx + if c = .black then 1 else 0) w) :
    wp (blackCount p (plug ctx (mk s p c a k b)).ptr) w Q := by
  induction ctx generalizing s p c a b k Q with
  | nil =>
    rw [blackCount]
    have hf : w.heap p = some _ := h.toZ.focus
    have hp : p ≠ .null := h.node_ne_null (by cases s <;> simp [plug, mk, T.ptrs, T.nodes])
    simp only [wp_bind]
    rw [wp_rd hf hp]
    refine wp_if_pos (by simp [plug]) ?_
    simpa [wp_pure, blk] using hQ
  | cons f fs ih =>
    have hf : w.heap p = some _ := h.toZ.focus
    have hm : p ∈ (mk s p c a k b).ptrs := by cases s <;> simp [mk, T.ptrs, T.nodes]
    have hp : p ≠ .null := h.node_ne_null (mem_plug_ptrs.2 (Or.inr hm))
    have hne : p ≠ (plug (f :: fs) (mk s p c a k b)).ptr := by
      intro e
      exact (nodup_plug_ptrs.1 h.ok.nodup).2.2 p hm (by rw [e]; exact plug_ptr_mem)
    rw [blackCount]
    simp only [wp_bind]
    rw [wp_rd hf hp]
    refine wp_if_neg hne ?_
    simp only [wp_bind, cellS_parent, par_cons, cellS_color]
    refine ih (s := f.s) (p := f.p) (c := f.c) (a := mk s p c a k b) (k := f.k) (b := f.sib) h ?_
    rw [wp_pure]
    exact hQ

/-- In a red-black tree all paths down to a missing child have the same number of black nodes. -/
theorem RB.blk {ctx : Ctx K} {t : T K} {n : Nat} (h : RB (plug ctx t) n) : ∃ m, RB t m ∧ n = m + blk ctx := by
  induction ctx generalizing t n with
  | nil => exact ⟨n, h, rfl⟩
  | cons f fs ih =>
    obtain ⟨m, h1, h2⟩ := ih h
    cases hc : f.c with
    | red =>
      rw [hc, RB_red] at h1
      exact ⟨m, h1.2.2.1, by simp [RB.blk, hc, h2, Nestl.RB.blk]⟩
    | black =>
      rw [hc] at h1
      cases m with
      | zero =>
        rcases f with ⟨_ | _, p, c, k, sib⟩ <;> simp [mk, RB] at h1
      | succ m =>
        rw [RB_black] at h1
        exact ⟨m, h1.1, by simp [hc, h2, Nestl.RB.blk]; omega⟩

theorem RB.red_child {ctx : Ctx K} {p : Ptr} {l r : T K} {k : K} {n : Nat} (h : RB (plug ctx (.node p .red l k r)) n) :
    l.color = .black ∧ r.color = .black := by
  obtain ⟨m, h1, -⟩ := h.blk
  exact ⟨h1.1, h1.2.1⟩

theorem RB.open_count {ctx : Ctx K} {p : Ptr} {c : Color} {l r : T K} {k : K} {n : Nat} (h : RB (plug ctx (.node p c l k r)) n)
    (he : l = .nil ∨ r = .nil) : n = Nestl.RB.blk ctx + if c = .black then 1 else 0 := by
  obtain ⟨m, h1, rfl⟩ := h.blk
  cases c with
  | red =>
    obtain ⟨-, -, h2, h3⟩ := h1
    have : m = 0 := by
      rcases he with rfl | rfl
      · exact h2
      · exact h3
    simp [this]
  | black =>
    obtain ⟨j, rfl, h2, h3⟩ := h1
    have : j = 0 := by
      rcases he with rfl | rfl
      · exact h2
      · exact h3
    simp [this]; omega

theorem addCmp_add (w : W K) (m n : Nat) : (w.addCmp m).addCmp n = w.addCmp (m + n) := by
  simp [World.addCmp, Nat.add_assoc]

theorem ptr_eq_null {t : T K} (h : Ptr.null ∉ t.ptrs) : t.ptr = .null ↔ t = .nil := by
  constructor
  · intro e
    cases t with
    | nil => rfl
    | node p c l k r => exact absurd (by simp only [T.ptr] at e; simp [T.ptrs, T.nodes, e]) h
  · rintro rfl; rfl

/-- The key at the root of `l` is not after `k`. -/
def okLeft (lt : K → K → Bool) (k : K) : T K → Prop
  | .nil => True
  | .node _ _ _ j _ => lt k j = false

/-- The key at the root of `r` is not before `k`. -/
def okRight (lt : K → K → Bool) (k : K) : T K → Prop
  | .nil => True
  | .node _ _ _ j _ => lt j k = false

instance (lt : K → K → Bool) (k : K) (t : T K) : Decidable (okLeft lt k t) := by
  cases t <;> (unfold okLeft; infer_instance)

instance (lt : K → K → Bool) (k : K) (t : T K) : Decidable (okRight lt k t) := by
  cases t <;> (unfold okRight; infer_instance)

/-- What the self check tests at the node `p`; `n` is the number of black nodes it expects on the path to a leaf. -/
def SoundAt (lt : K → K → Bool) (n : Nat) (t : T K) (p : Ptr) : Prop :=
  ∀ ctx c l k r, t = plug ctx (.node p c l k r) → (c = .red → l.color = .black ∧ r.color = .black) ∧ okLeft lt k l ∧ okRight lt k r ∧
    (l = .nil → r = .nil → blk ctx + (if c = .black then 1 else 0) = n)

theorem wp_verifyNode {A B : List (Ptr × K)} {p : Ptr} {k : K} {n : Nat} {Q : Bool → W K → Prop} (h : LinkedH w.heap hdr hd t)
    (hn : t.nodes = A ++ (p, k) :: B)
    (hQ : ∀ b m, m ≤ 2 → (b = true ↔ SoundAt lt n t p) → Q b (w.addCmp m)) : wp (verifyNode lt hdr p n) w Q := by
  obtain ⟨ctx, c, l, r, rfl, hA, hB, hz⟩ := h.toZ' hn
  have hp := h.focus_ne
  have hfoc := h.focus
  have hnd := nodup_plug_ptrs.1 h.ok.nodup
  have h0 := h.null_notMem
  have hl0 : Ptr.null ∉ l.ptrs := fun e => h0 (mem_plug_ptrs.2 (Or.inr (by simp only [T.ptrs, T.nodes, List.map_append, List.mem_append] at e ⊢; exact Or.inl e)))
  have hr0 : Ptr.null ∉ r.ptrs := fun e => h0 (mem_plug_ptrs.2 (Or.inr (by simp only [T.ptrs, T.nodes, List.map_append, List.map_cons, List.mem_append, List.mem_cons] at e ⊢; exact Or.inr (Or.inr e))))
  have hrep : Rep w.heap hd.own (par hdr ctx) (.node p c l k r) := hz.rep
  have hloc : SoundAt lt n (plug ctx (.node p c l k r)) p ↔ (c = .red → l.color = .black ∧ r.color = .black) ∧ okLeft lt k l ∧
      okRight lt k r ∧ (l = .nil → r = .nil → blk ctx + (if c = .black then 1 else 0) = n) := by
    constructor
    · intro hh; exact hh ctx c l k r rfl
    · intro hh ctx' c' l' k' r' e
      have hz' := (e ▸ h : LinkedH w.heap hdr hd (plug ctx' (.node p c' l' k' r'))).toZ
      have hm : ∀ {c : Ctx K} {t : T K}, Ptr.null ∉ (plug c t).ptrs → Ptr.null ∉ t.ptrs :=
        fun hh e => hh (mem_plug_ptrs.2 (Or.inr e))
      have := Rep.unique hz.rep hz'.rep (hm h0) (hm (e ▸ h0)) rfl
      simp only [T.node.injEq] at this
      obtain ⟨-, e2, e3, e4, e5⟩ := this
      have hblk : blk ctx' + (if c' = .black then 1 else 0) = blk ctx + (if c = .black then 1 else 0) := by
        obtain ⟨n1, w1, k1, k2⟩ := (wp_blackCount (w := w) (s := .L) (ctx := ctx) (p := p) (c := c) (a := l) (k := k) (b := r)
          (hdr := hdr) (hd := hd) (Q := fun n w' => n = blk ctx + (if c = .black then 1 else 0)) h rfl).runs
        obtain ⟨n2, w2, k3, k4⟩ := (wp_blackCount (w := w) (s := .L) (ctx := ctx') (p := p) (c := c') (a := l') (k := k') (b := r')
          (hdr := hdr) (hd := hd) (Q := fun n w' => n = blk ctx' + (if c' = .black then 1 else 0)) (e ▸ h) rfl).runs
        rw [show (plug ctx' (mk .L p c' l' k' r')) = plug ctx (.node p c l k r) from e.symm] at k3
        rw [← k4, ← k2]
        exact (Nestl.Runs.det k3 k1).1
      rw [hblk, ← e2, ← e3, ← e4, ← e5]; exact hh
  -- a child as a cell
  have child : ∀ {d : T K}, d ≠ .nil → Rep w.heap hd.own p d → Ptr.null ∉ d.ptrs → ∃ cell kk, w.heap d.ptr = some cell ∧ d.ptr ≠ .null ∧ cell.color = d.color ∧
      cell.val = some kk ∧ (okLeft lt k d ↔ lt k kk = false) ∧ (okRight lt k d ↔ lt kk k = false) := by
    intro d hd hr hd0
    cases d with
    | nil => exact absurd rfl hd
    | node q cq lq kq rq =>
      refine ⟨_, kq, hr.1, ?_, rfl, rfl, Iff.rfl, Iff.rfl⟩
      intro e
      exact hd0 (by rw [← e]; simp [T.ptrs, T.nodes, T.ptr])
  have leaf : ∀ m, m ≤ 2 → (c = .red → l.color = .black ∧ r.color = .black) → okLeft lt k l → okRight lt k r → wp (do
        if l.ptr = .null ∧ r.ptr = .null then
          let c ← blackCount p (← rd hdr).parent
          pure (decide (c = n))
        else pure true) (w.addCmp m) Q := by
    intro m hm hcol hok1 hok2
    by_cases e : l.ptr = .null ∧ r.ptr = .null
    · refine wp_if_pos e ?_
      simp only [wp_bind]
      rw [wp_rd (by exact h.cell) h.hdr_ne]
      simp only [hdCell]
      refine wp_blackCount (w := w.addCmp m) (s := .L) (hdr := hdr) (hd := hd) (by exact h) ?_
      rw [wp_pure]
      refine hQ _ m hm ?_
      rw [hloc, decide_eq_true_eq]
      exact ⟨fun hh => ⟨hcol, hok1, hok2, fun _ _ => hh⟩, fun hh => hh.2.2.2 ((ptr_eq_null hl0).1 e.1) ((ptr_eq_null hr0).1 e.2)⟩
    · refine wp_if_neg e (hQ _ m hm ?_)
      simp only [hloc, true_iff]
      refine ⟨hcol, hok1, hok2, fun h1 h2 => absurd ⟨?_, ?_⟩ e⟩
      · rw [h1]; rfl
      · rw [h2]; rfl
  have color1 : ∀ {d : T K} {R : Bool → W K → Prop}, Rep w.heap hd.own p d → Ptr.null ∉ d.ptrs → R (decide (d.color = .red)) w →
      wp (redChild d.ptr) w R := by
    intro d R hr hd0 hR
    unfold redChild
    by_cases e : d = .nil
    · subst e
      exact wp_if_neg (by simp [T.ptr]) (by simpa [T.color] using hR)
    · obtain ⟨cell, kk, g1, g2, g3, g4, g5, g6⟩ := child e hr hd0
      refine wp_if_pos g2 ?_
      simp only [wp_bind]
      rw [wp_rd g1 g2, wp_pure, g3]
      exact hR
  have left1 : ∀ {R : Bool → W K → Prop}, (∀ b m, m ≤ 1 → (b = false ↔ okLeft lt k l) → R b (w.addCmp m)) → wp (misordered lt l.ptr p l.ptr) w R := by
    intro R hR
    unfold misordered
    by_cases e : l = .nil
    · subst e
      exact wp_if_neg (by simp [T.ptr]) (hR _ 0 (by omega) (by simp [okLeft]))
    · obtain ⟨cell, kk, g1, g2, g3, g4, g5, g6⟩ := child e hrep.2.1 hl0
      refine wp_if_pos g2 ?_
      simp only [wp_bind]
      rw [wp_keyOf hfoc hp rfl, wp_keyOf g1 g2 g4, wp_cmp]
      exact hR _ 1 (by omega) g5.symm
  have right1 : ∀ {R : Bool → W K → Prop} (m : Nat), m ≤ 1 → (∀ b m, m ≤ 2 → (b = false ↔ okRight lt k r) → R b (w.addCmp m)) →
      wp (misordered lt r.ptr r.ptr p) (w.addCmp m) R := by
    intro R m hm hR
    unfold misordered
    by_cases e : r = .nil
    · subst e
      exact wp_if_neg (by simp [T.ptr]) (hR _ m (by omega) (by simp [okRight]))
    · obtain ⟨cell, kk, g1, g2, g3, g4, g5, g6⟩ := child e hrep.2.2 hr0
      refine wp_if_pos g2 ?_
      simp only [wp_bind]
      rw [wp_keyOf (w := w.addCmp m) (by exact g1) g2 g4, wp_keyOf (w := w.addCmp m) (by exact hfoc) hp rfl, wp_cmp]
      exact hR _ (m + 1) (by omega) g6.symm
  unfold verifyNode
  simp only [wp_bind]
  rw [wp_rd hfoc hp]
  simp only [cellS]
  refine color1 hrep.2.1 hl0 ?_
  refine color1 hrep.2.2 hr0 ?_
  by_cases hcol : c = .red ∧ (decide (l.color = .red) = true ∨ decide (r.color = .red) = true)
  · refine wp_if_pos hcol (hQ _ 0 (by omega) ?_)
    simp only [hloc, Bool.false_eq_true, false_iff]
    intro hh
    have := hh.1 hcol.1
    simp [this.1, this.2] at hcol
  refine wp_if_neg hcol ?_
  have hcol' : c = .red → l.color = .black ∧ r.color = .black := by
    intro e
    have h1 : ¬ (l.color = .red ∨ r.color = .red) := fun hh => hcol ⟨e, by simpa using hh⟩
    constructor
    · cases hl : l.color with
      | red => exact absurd (Or.inl hl) h1
      | black => rfl
    · cases hr : r.color with
      | red => exact absurd (Or.inr hr) h1
      | black => rfl
  simp only [wp_bind]
  refine left1 ?_
  intro b m hm hb
  cases b with
  | true =>
    refine wp_if_pos rfl (hQ _ m (by omega) ?_)
    simp only [hloc, Bool.false_eq_true, false_iff]
    intro hh; exact absurd (hb.2 hh.2.1) (by simp)
  | false =>
    refine wp_if_neg (by simp) ?_
    simp only [wp_bind]
    refine right1 m hm ?_
    intro b m hm hb'
    cases b with
    | true =>
      refine wp_if_pos rfl (hQ _ m (by omega) ?_)
      simp only [hloc, Bool.false_eq_true, false_iff]
      intro hh; exact absurd (hb'.2 hh.2.2.1) (by simp)
    | false =>
      refine wp_if_neg (by simp) ?_
      exact leaf m hm hcol' (hb.1 rfl) (hb'.1 rfl)

theorem wp_verifyFrom {A B : List (Ptr × K)} {n : Nat} {Q : Bool → W K → Prop} (h : LinkedH w.heap hdr hd t)
    (hn : t.nodes = A ++ B)
    (hQ : ∀ b m, m ≤ 2 * B.length → (b = true ↔ ∀ q ∈ B, SoundAt lt n t q.1) → Q b (w.addCmp m)) :
    wp (verifyFrom lt hdr (firstP hdr B) n) w Q := by
  induction B generalizing A w with
  | nil =>
    rw [verifyFrom]
    exact wp_if_pos rfl (hQ _ 0 (by omega) (by simp))
  | cons b B ih =>
    rcases b with ⟨p, k⟩
    have hp : p ∈ t.ptrs := by rw [T.ptrs, hn]; simp
    rw [verifyFrom]
    refine wp_if_neg (h.node_ne_hdr hp) ?_
    simp only [wp_bind, firstP_cons]
    refine wp_verifyNode h hn ?_
    intro b m hm hb
    cases b with
    | false =>
      refine wp_if_neg (by simp) (hQ _ m (by simp only [List.length_cons]; omega) ?_)
      simp only [Bool.false_eq_true, false_iff]
      intro hh; exact absurd (hb.2 (hh (p, k) (by simp))) (by simp)
    | true =>
      refine wp_if_pos rfl ?_
      simp only [wp_bind]
      refine LinkedH.wp_increment (w := w.addCmp m) (by exact h) hn ?_
      refine ih (w := w.addCmp m) (A := A ++ [(p, k)]) (by exact h) (by simp [hn]) ?_
      intro b' m' hm' hb'
      rw [addCmp_add]
      refine hQ _ _ (by simp only [List.length_cons]; omega) ?_
      rw [hb', List.forall_mem_cons]
      exact ⟨fun hh => ⟨hb.1 rfl, hh⟩, fun hh => hh.2⟩

/-- Number of black nodes on the path to the first element. -/
def leftBlack : T K → Nat
  | .nil => 0
  | .node _ c l _ _ => leftBlack l + if c = .black then 1 else 0

theorem plug_leftmost {ctx : Ctx K} {t : T K} (h : pre ctx = []) (ht : t ≠ .nil) : leftBlack (plug ctx t) = leftBlack t + blk ctx := by
  induction ctx generalizing t with
  | nil => simp [plug, blk]
  | cons f fs ih =>
    rcases f with ⟨_ | _, p, c, k, sib⟩
    · rw [plug, ih (by simpa [pre] using h) (by simp [mk])]
      simp only [mk, leftBlack, blk]
      omega
    · simp [pre] at h

/-- The self check of an object that records no elements or no first element. -/
theorem wp_rbVerify_empty {cell : TNode K} {Q : Bool → W K → Prop} (hc : w.heap hdr = some cell) (h0 : hdr ≠ .null)
    (he : cell.count = 0 ∨ cell.left = hdr)
    (hQ : ∀ b, (b = true ↔ cell.count = 0 ∧ cell.left = hdr ∧ cell.right = hdr) → Q b w) : wp (rbVerify lt hdr) w Q := by
  unfold rbVerify
  simp only [wp_bind]
  rw [wp_rd hc h0]
  exact wp_if_pos he (hQ _ (by simp))

/-- The self check of a well linked tree that records some element as the first one. -/
theorem wp_rbVerifyH {Q : Bool → W K → Prop} (h : LinkedH w.heap hdr hd t) (hcnt : hd.cnt ≠ 0) (hlm : hd.lm ∈ t.ptrs)
    (hQ : ∀ b m, m ≤ 2 * t.nodes.length → (b = true ↔ hd.lm = firstP hdr t.nodes ∧ hd.rm = lastP hdr t.nodes ∧
      ∀ p ∈ t.ptrs, SoundAt lt (leftBlack t) t p) → Q b (w.addCmp m)) : wp (rbVerify lt hdr) w Q := by
  have e : t ≠ .nil := by rintro rfl; simp [T.ptrs, T.nodes] at hlm
  unfold rbVerify
  simp only [wp_bind]
  rw [wp_rd h.cell h.hdr_ne]
  simp only [hdCell]
  refine wp_if_neg (fun e1 => e1.elim hcnt (h.node_ne_hdr hlm)) ?_
  simp only [wp_bind]
  obtain ⟨⟨p, k⟩, hmem, hpe⟩ := List.mem_map.1 hlm
  obtain ⟨A, B, hL⟩ := List.append_of_mem hmem
  simp only at hpe
  obtain ⟨ctx, c, l, r, e0, hA, hB, hz⟩ := h.toZ' hL
  have hfirst : p = firstP hdr t.nodes → A = [] := by
    intro hp
    cases A with
    | nil => rfl
    | cons a A =>
      have hnd := h.ok.nodup
      rw [T.ptrs, hL] at hnd
      rw [hL] at hp
      simp only [List.cons_append, firstP_cons] at hp
      simp [hp] at hnd
  have hlb : p = firstP hdr t.nodes → leftBlack t = blk ctx + if c = .black then 1 else 0 := by
    intro hp
    have hA' : pre ctx = [] ∧ l.nodes = [] := by simpa [hfirst hp] using hA.symm
    have hl : l = .nil := by
      cases l with
      | nil => rfl
      | node => simp [T.nodes] at hA'
    rw [e0, plug_leftmost hA'.1 (by simp), hl]
    simp only [leftBlack]; omega
  have hbc := wp_blackCount (w := w) (s := .L) (ctx := ctx) (p := p) (c := c) (a := l) (k := k) (b := r) (hdr := hdr) (hd := hd)
    (Q := fun n w' => n = (blk ctx + if c = .black then 1 else 0) ∧ w' = w) (e0 ▸ h) ⟨rfl, rfl⟩
  rw [show plug ctx (mk .L p c l k r) = t from e0.symm, hpe] at hbc
  refine wp_mono hbc ?_
  rintro n w' ⟨hn, rfl⟩
  have hvf := wp_verifyFrom (lt := lt) (A := A) (B := (p, k) :: B) (n := n) h hL
    (Q := fun b w1 => (b = true ↔ ∀ q ∈ (p, k) :: B, SoundAt lt n t q.1) ∧
      ∃ m, m ≤ 2 * t.nodes.length ∧ w1 = w'.addCmp m)
    (fun b m hm hb => ⟨hb, m, by rw [hL, List.length_append]; omega, rfl⟩)
  rw [firstP_cons, hpe] at hvf
  refine wp_mono hvf ?_
  rintro b' w1 ⟨hb', m, hm, rfl⟩
  have hall : p = firstP hdr t.nodes → (b' = true ↔ ∀ q ∈ t.ptrs, SoundAt lt (leftBlack t) t q) := by
    intro hp
    have hL' : t.nodes = (p, k) :: B := by rw [hL, hfirst hp]; rfl
    rw [hb', hlb hp, ← hn, ← hpe, ← hL']
    simp only [T.ptrs, List.forall_mem_map]
  cases b' with
  | false =>
    refine wp_if_neg (by simp) (hQ _ m hm ?_)
    simp only [Bool.false_eq_true, false_iff]
    rintro ⟨h1, -, h2⟩
    exact absurd ((hall (hpe.trans h1)).2 h2) (by simp)
  | true =>
    refine wp_if_pos rfl ?_
    have hpn : t.ptr ≠ .null := h.node_ne_null (ptr_mem_ptrs e)
    unfold sMinimum sMaximum
    simp only [wp_bind]
    rw [wp_assertM]
    refine ⟨decide_eq_true hpn, ?_⟩
    refine wp_minLoop (w := w'.addCmp m) (by exact h.rep) e h.null_notMem hdr ?_
    by_cases h1 : hd.lm = firstP hdr t.nodes
    · refine wp_if_neg (by simpa using h1) ?_
      simp only [wp_bind]
      rw [wp_assertM]
      refine ⟨decide_eq_true hpn, ?_⟩
      refine wp_maxLoop (w := w'.addCmp m) (by exact h.rep) e h.null_notMem hdr ?_
      by_cases h2 : hd.rm = lastP hdr t.nodes
      · refine wp_if_neg (by simpa using h2) ?_
        exact hQ _ m hm ⟨fun _ => ⟨h1, h2, (hall (hpe.trans h1)).1 rfl⟩, fun _ => rfl⟩
      · refine wp_if_pos h2 (hQ _ m hm ?_)
        simp [h2]
    · refine wp_if_pos h1 (hQ _ m hm ?_)
      simp [h1]

/-- The self check of a well linked tree. -/
theorem wp_rbVerify {Q : Bool → W K → Prop} (h : Linked w.heap hdr o t)
    (hQ : ∀ b m, m ≤ 2 * t.nodes.length → (b = true ↔ ∀ p ∈ t.ptrs, SoundAt lt (leftBlack t) t p) → Q b (w.addCmp m)) :
    wp (rbVerify lt hdr) w Q := by
  by_cases e : t = .nil
  · subst e
    refine wp_rbVerify_empty h.cell h.hdr_ne (Or.inl rfl) ?_
    intro b hb
    refine hQ b 0 (by omega) (hb.trans ?_)
    simp [hdCell, T.nodes, T.ptrs, firstP, lastP]
  · have hne := nodes_ne_nil e
    refine wp_rbVerifyH h (fun e1 => hne (List.length_eq_zero_iff.1 e1)) (by rw [T.ptrs]; exact firstP_mem hne) ?_
    intro b m hm hb
    exact hQ b m hm (hb.trans (by simp))

theorem RB.leftBlack {n : Nat} (h : RB t n) : Nestl.RB.leftBlack t = n := by
  induction t generalizing n with
  | nil => exact h.symm
  | node p c l k r ihl ihr =>
    cases c with
    | red =>
      obtain ⟨-, -, h2, h3⟩ := h
      simp [Nestl.RB.leftBlack, ihl h2]
    | black =>
      obtain ⟨j, rfl, h2, h3⟩ := h
      simp [Nestl.RB.leftBlack, ihl h2]

/-- Sorted trees are in order locally. -/
theorem WSorted.local {p : Ptr} {c : Color} (h : WSorted lt (plug ctx (.node p c l k r)).nodes) : okLeft lt k l ∧ okRight lt k r := by
  rw [WSorted, plug_nodes] at h
  simp only [T.nodes, List.append_assoc, List.cons_append] at h
  rw [List.pairwise_append, List.pairwise_append] at h
  have h1 := h.2.1.2.2
  have h2 := (List.pairwise_cons.1 h.2.1.2.1).1
  constructor
  · cases l with
    | nil => trivial
    | node q cq lq kq rq => exact h1 (q, kq) (by simp [T.nodes]) (p, k) (by simp)
  · cases r with
    | nil => trivial
    | node q cq lq kq rq => exact h2 (q, kq) (by simp [T.nodes])

/-- The self check finds nothing in a red-black tree in order. -/
theorem RB.sound {n : Nat} (h : RB t n) (hsort : WSorted lt t.nodes) (p : Ptr) : SoundAt lt (Nestl.RB.leftBlack t) t p := by
  rintro ctx c l k r rfl
  refine ⟨?_, (WSorted.local hsort).1, (WSorted.local hsort).2, ?_⟩
  · rintro rfl; exact h.red_child
  · intro hl _
    rw [h.leftBlack, h.open_count (Or.inl hl)]

/-- Trees with elements in the opposite order are not in order locally. -/
theorem reversed_not_local {n : Nat} (h : t.nodes.Pairwise (fun a b => lt b.2 a.2 = true)) (hl : 2 ≤ t.nodes.length) :
    ¬ ∀ p ∈ t.ptrs, SoundAt lt n t p := by
  intro hh
  cases t with
  | nil => simp [T.nodes] at hl
  | node p c l k r =>
    have hk := hh p (by simp [T.ptrs, T.nodes]) [] c l k r rfl
    simp only [T.nodes] at h
    rw [List.pairwise_append] at h
    cases l with
    | node q cq lq kq rq =>
      have := h.2.2 (q, kq) (by simp [T.nodes]) (p, k) (by simp)
      exact absurd (hk.2.1.symm.trans this) (by simp)
    | nil =>
      cases r with
      | nil => simp [T.nodes] at hl
      | node q cq lq kq rq =>
        have := (List.pairwise_cons.1 h.2.1).1 (q, kq) (by simp [T.nodes])
        exact absurd (hk.2.2.1.symm.trans this) (by simp)

/-- The conditions at the nodes of a subtree with `a` black nodes above it, recursively. -/
def Sound (lt : K → K → Bool) (n : Nat) (a : Nat) : T K → Prop
  | .nil => True
  | .node _ c l k r => ((c = .red → l.color = .black ∧ r.color = .black) ∧ okLeft lt k l ∧ okRight lt k r ∧
      (l = .nil → r = .nil → a + (if c = .black then 1 else 0) = n)) ∧
      Sound lt n (a + if c = .black then 1 else 0) l ∧ Sound lt n (a + if c = .black then 1 else 0) r

theorem Sound.inner {n : Nat} {ctx : Ctx K} {t : T K} (h : Sound lt n 0 (plug ctx t)) : Sound lt n (blk ctx) t := by
  induction ctx generalizing t with
  | nil => exact h
  | cons f fs ih =>
    have := ih h
    rcases f with ⟨_ | _, p, c, k, sib⟩
    · exact this.2.1
    · exact this.2.2

theorem sound_iff {n : Nat} : (∀ p ∈ t.ptrs, SoundAt lt n t p) ↔ Sound lt n 0 t := by
  constructor
  · intro h
    have key : ∀ (u : T K) (ctx : Ctx K), plug ctx u = t → Sound lt n (blk ctx) u := by
      intro u
      induction u with
      | nil => intro _ _; trivial
      | node p c l k r ihl ihr =>
        intro ctx e
        refine ⟨h p ?_ ctx c l k r e.symm, ?_, ?_⟩
        · rw [← e, mem_plug_ptrs]
          exact Or.inr (by simp [T.ptrs, T.nodes])
        · exact ihl (⟨.L, p, c, k, r⟩ :: ctx) e
        · exact ihr (⟨.R, p, c, k, l⟩ :: ctx) e
    exact key t [] rfl
  · rintro h p - ctx c l k r rfl
    exact h.inner.1

end
end Nestl.RB
