import Verif.RBTree.ModelSteps
import Verif.RBTree.Erase
import Verif.RBTree.Bounds
import Verif.RBTree.HintOps
set_option autoImplicit false
/-
The number of links followed by iterators.  `gpos t i` is the number of links on the way from the root to the element with
number `i` if the elements before it are visited first.
-/
namespace Nestl.RB
variable {K : Type}

/-- Specification (no code): the place of element `i` in a walk around the tree that follows every link twice. -/
def gpos : T K → Nat → Nat
  | .nil, _ => 0
  | .node _ _ l _ r, i =>
    if i < l.nodes.length then gpos l i + 1
    else if i = l.nodes.length then 2 * l.nodes.length
    else 2 * l.nodes.length + 1 + gpos r (i - l.nodes.length - 1)

/-- What the frames above the focus add to `gpos`. -/
def base : Ctx K → Nat
  | [] => 0
  | f :: fs => match f.s with
    | .L => base fs + 1
    | .R => base fs + 2 * f.sib.nodes.length + 1

theorem nodes_len {p : Ptr} {c : Color} {l r : T K} {k : K} :
    (T.node p c l k r).nodes.length = l.nodes.length + 1 + r.nodes.length := by
  simp [T.nodes]; omega

theorem gpos_plug (ctx : Ctx K) (t : T K) (i : Nat) (hi : i < t.nodes.length) :
    gpos (plug ctx t) ((pre ctx).length + i) = base ctx + gpos t i := by
  induction ctx generalizing t i with
  | nil => simp [plug, pre, base]
  | cons f fs ih =>
    obtain ⟨s, p, c, k, sib⟩ := f
    cases s with
    | L =>
      have := ih (.node p c t k sib) i (by rw [nodes_len]; omega)
      simp only [plug, pre, base, mk]
      rw [this, gpos, if_pos hi]; omega
    | R =>
      have := ih (.node p c sib k t) (sib.nodes.length + 1 + i) (by rw [nodes_len]; omega)
      simp only [plug, pre, base, mk, List.length_append, List.length_singleton]
      rw [show (pre fs).length + sib.nodes.length + 1 + i = (pre fs).length + (sib.nodes.length + 1 + i) by omega, this, gpos,
        if_neg (by omega), if_neg (by omega), show sib.nodes.length + 1 + i - sib.nodes.length - 1 = i by omega]
      omega

theorem plug_len (ctx : Ctx K) (t : T K) :
    (plug ctx t).nodes.length = (pre ctx).length + t.nodes.length + (post ctx).length := by
  rw [plug_nodes]; simp; omega

theorem gpos_le (t : T K) {i : Nat} (hi : i < t.nodes.length) : gpos t i + 1 ≤ 2 * i + t.height := by
  induction t generalizing i with
  | nil => simp [T.nodes] at hi
  | node p c l k r ihl ihr =>
    rw [nodes_len] at hi
    rw [gpos, T.height]
    split
    · have := ihl (by assumption); omega
    · split
      · omega
      · have := ihr (i := i - l.nodes.length - 1) (by omega)
        omega

theorem le_gpos (t : T K) {i : Nat} (hi : i < t.nodes.length) : 2 * i + 1 ≤ gpos t i + t.height := by
  induction t generalizing i with
  | nil => simp [T.nodes] at hi
  | node p c l k r ihl ihr =>
    rw [nodes_len] at hi
    rw [gpos, T.height]
    split
    · have := ihl (by assumption); omega
    · split
      · omega
      · have := ihr (i := i - l.nodes.length - 1) (by omega)
        omega

theorem gpos_lt (t : T K) {i : Nat} (hi : i < t.nodes.length) : gpos t i + 2 ≤ 2 * t.nodes.length := by
  induction t generalizing i with
  | nil => simp [T.nodes] at hi
  | node p c l k r ihl ihr =>
    rw [nodes_len] at hi ⊢
    rw [gpos]
    split
    · have := ihl (by assumption); omega
    · split
      · omega
      · have := ihr (i := i - l.nodes.length - 1) (by omega)
        omega

theorem height_plug (ctx : Ctx K) (t : T K) : ctx.length + t.height ≤ (plug ctx t).height := by
  induction ctx generalizing t with
  | nil => simp [plug]
  | cons f fs ih =>
    obtain ⟨s, p, c, k, sib⟩ := f
    simp only [plug, List.length_cons]
    have := ih (mk s p c t k sib)
    have : t.height + 1 ≤ (mk s p c t k sib).height := by
      cases s <;> simp only [mk, T.height] <;> omega
    omega

/-- `g` links lead to the element with number `i`, or to the end. -/
def At (t : T K) (i g : Nat) : Prop :=
  (i < t.nodes.length ∧ g = gpos t i) ∨ (i = t.nodes.length ∧ (g + 1 = 2 * i ∨ g = 2 * i))

section
variable {H0 : Ptr → Option (TNode K)} {hdr : Ptr} {hi : Hd} {w : W K} {ctx : Ctx K} {t l r : T K}

theorem wp_minLoopN {o pr : _} {t : T K} {Q : Ptr × Nat → W K → Prop} (h : Rep w.heap o pr t) (ht : t ≠ .nil)
    (h0 : Ptr.null ∉ t.ptrs) (d : Ptr) (hQ : ∀ n, n + 1 ≤ t.height → n = gpos t 0 → Q (firstP d t.nodes, n) w) : wp (minLoopN t.ptr) w Q := by
  induction t generalizing pr Q with
  | nil => exact absurd rfl ht
  | node p c l k r ihl _ =>
    have h0' : p ≠ .null ∧ Ptr.null ∉ l.ptrs := by
      simp only [T.ptrs, T.nodes, List.map_append, List.mem_append, List.map_cons, List.mem_cons] at h0 ⊢
      grind
    rw [T.ptr, minLoopN]
    simp only [wp_bind, wp_rd h.1 h0'.1, wp_ite]
    by_cases hl : l = .nil
    · subst hl
      have := hQ 0 (by simp [T.height]) (by simp [gpos, T.nodes])
      simpa [cellS, T.ptr, T.nodes] using this
    · have hlp : l.ptr ≠ .null := fun e => h0'.2 (e ▸ ptr_mem_ptrs hl)
      have hl1 := nodes_ne_nil hl
      have : firstP d (T.node p c l k r).nodes = firstP d l.nodes := by
        simp only [T.nodes]
        cases hh : l.nodes with
        | nil => exact absurd hh hl1
        | cons a L => simp
      rw [this] at hQ
      rw [if_pos (by simpa [cellS] using hlp)]
      refine ihl h.2.1 hl h0'.2 fun n h1 h2 => ?_
      rw [wp_pure]
      refine hQ _ (by rw [T.height]; omega) ?_
      rw [gpos, if_pos (List.length_pos_iff.2 hl1), h2]

theorem gpos_last {t : T K} (ht : t ≠ .nil) {p : Ptr} {c : Color} {l r : T K} {k : K} (e : t = .node p c l k r) (hr : r ≠ .nil) :
    gpos t (t.nodes.length - 1) = 2 * l.nodes.length + 1 + gpos r (r.nodes.length - 1) := by
  subst e
  have := List.length_pos_iff.2 (nodes_ne_nil hr)
  rw [nodes_len, gpos, if_neg (by omega), if_neg (by omega)]
  congr 2
  omega

theorem wp_maxLoopN {o pr : _} {t : T K} {Q : Ptr × Nat → W K → Prop} (h : Rep w.heap o pr t) (ht : t ≠ .nil)
    (h0 : Ptr.null ∉ t.ptrs) (d : Ptr)
    (hQ : ∀ n, n + 1 ≤ t.height → gpos t (t.nodes.length - 1) + n + 2 = 2 * t.nodes.length → Q (lastP d t.nodes, n) w) :
    wp (maxLoopN t.ptr) w Q := by
  induction t generalizing pr Q with
  | nil => exact absurd rfl ht
  | node p c l k r _ ihr =>
    have h0' : p ≠ .null ∧ Ptr.null ∉ r.ptrs := by
      simp only [T.ptrs, T.nodes, List.map_append, List.mem_append, List.map_cons, List.mem_cons] at h0 ⊢
      grind
    rw [T.ptr, maxLoopN]
    simp only [wp_bind, wp_rd h.1 h0'.1, wp_ite]
    by_cases hr : r = .nil
    · subst hr
      have := hQ 0 (by simp [T.height]) (by
        rw [nodes_len, gpos, if_neg (by simp [T.nodes]), if_pos (by simp [T.nodes])]; simp [T.nodes]; omega)
      simpa [cellS, T.ptr, T.nodes] using this
    · have hrp : r.ptr ≠ .null := fun e => h0'.2 (e ▸ ptr_mem_ptrs hr)
      have hr1 := nodes_ne_nil hr
      have : lastP d (T.node p c l k r).nodes = lastP d r.nodes := by
        simp only [T.nodes, lastP_append_cons]
        obtain ⟨L, a, hh⟩ := List.eq_nil_or_concat r.nodes |>.resolve_left hr1
        rw [hh]; simp
      rw [this] at hQ
      rw [if_pos (by simpa [cellS] using hrp)]
      refine ihr h.2.2 hr h0'.2 fun n h1 h2 => ?_
      rw [wp_pure]
      refine hQ _ (by rw [T.height]; omega) ?_
      rw [gpos_last (by simp) rfl hr, nodes_len]
      omega

theorem wp_incClimbN {t : T K} {Q : Ptr × Nat → W K → Prop}
    (h : Z H0 hdr hi ctx t w.heap) (ht : t ≠ .nil)
    (hQ : ∀ n g, n ≤ ctx.length + 1 → At (plug ctx t) ((pre ctx).length + t.nodes.length) g → g + 1 = base ctx + 2 * t.nodes.length + n →
      Q (firstP hdr (post ctx), n) w) :
    wp (incClimbN t.ptr (par hdr ctx)) w (fun a w' => wp (rd a.1.1) w' fun n w'' =>
      if ¬n.right = a.1.2 then Q (a.1.2, a.2) w'' else Q (a.1.1, a.2) w'') := by
  induction ctx generalizing t Q with
  | nil =>
    have ht1 := List.length_pos_iff.2 (nodes_ne_nil ht)
    obtain ⟨p, c, l, k, r, rfl⟩ := exists_mk .L ht
    have hf := h.focus
    have hr : r.ptr ≠ hdr := h.right_ne (Or.inl rfl)
    rw [incClimbN]
    simp only [par_nil, wp_bind, wp_rd h.hdrCell h.hdr_ne, wp_ite]
    by_cases e : (mk .L p c l k r).ptr = (hdCell (K := K) hi (plug [] (mk .L p c l k r)).ptr).right
    · have hQ := hQ 1 (2 * (mk .L p c l k r).nodes.length) (by simp) (Or.inr ⟨by simp [plug, pre], Or.inr (by simp [pre])⟩) (by simp [base])
      rw [if_pos e, incClimbN]
      rw [mk_ptr] at e
      simp only [hdCell, plug, mk_ptr] at e ⊢
      simp only [wp_bind, wp_rd hf h.focus_ne_null, wp_ite]
      rw [if_neg (by simpa [cellS] using Ne.symm hr)]
      simp only [wp_pure]
      simp only [wp_rd h.hdrCell h.hdr_ne]
      rw [if_neg (by simpa [hdCell] using e.symm)]
      simpa [post] using hQ
    · have hQ := hQ 0 (2 * (mk .L p c l k r).nodes.length - 1) (by simp)
        (Or.inr ⟨by simp [plug, pre], Or.inl (by simp only [pre, List.length_nil]; omega)⟩) (by simp only [base]; omega)
      rw [if_neg e, wp_pure, mk_ptr]
      simp only [wp_rd hf h.focus_ne_null]
      rw [if_pos (by simpa [cellS] using hr)]
      simpa [post] using hQ
  | cons f fs ih =>
    rw [incClimbN]
    simp only [par_cons, wp_bind, wp_rd h.parCell h.par_ne_null, wp_ite]
    have hch := h.child_eq ht .R
    simp only [TNode.child] at hch
    rcases (show f.s = .L ∨ f.s = .R by cases f.s <;> simp) with hs | hs
    · rw [if_neg (by rw [hch, hs]; simp), wp_pure]
      have hpost : firstP hdr (post (f :: fs)) = f.p := by simp [post, hs]
      have ht1 := List.length_pos_iff.2 (nodes_ne_nil ht)
      have hQ' := hQ 0 (base fs + 2 * t.nodes.length) (by simp) (by
        have hlen : t.nodes.length < (mk f.s f.p f.c t f.k f.sib).nodes.length := by
          rw [hs]; simp only [mk, nodes_len]; omega
        have h1 := gpos_plug fs (mk f.s f.p f.c t f.k f.sib) t.nodes.length hlen
        have h2 := plug_len fs (mk f.s f.p f.c t f.k f.sib)
        have h3 : (pre (f :: fs)).length = (pre fs).length := by simp [pre, hs]
        refine Or.inl ⟨?_, ?_⟩
        · rw [plug, h2, h3]; omega
        · rw [plug, h3, h1, hs]
          simp [mk, gpos]) (by simp only [base, hs]; omega)
      rw [hpost] at hQ'
      clear hQ
      obtain ⟨p, c, l, k, r, rfl⟩ := exists_mk .L ht
      have hr : r.ptr ≠ f.p := h.right_ne (Or.inr (by simp [mem_ctxPtrs_cons]))
      simp only [mk_ptr, wp_rd h.focus h.focus_ne_null]
      rw [if_pos (by simpa [cellS] using hr)]
      exact hQ'
    · rw [if_pos (by rw [hch, hs])]
      simp only [cellS_parent]
      have hpost : post (f :: fs) = post fs := by simp [post, hs]
      rw [hpost] at hQ
      have := ih (Q := fun a w => Q (a.1, a.2 + 1) w) h.up mk_ne_nil (by
        intro n g h1 h2 h3
        have hl : (mk f.s f.p f.c t f.k f.sib).nodes.length = f.sib.nodes.length + 1 + t.nodes.length := by
          rw [hs]; simp only [mk, nodes_len]
        refine hQ (n + 1) g (by simp only [List.length_cons]; omega) ?_ ?_
        · rw [hl] at h2
          have e : (pre (f :: fs)).length + t.nodes.length = (pre fs).length + (f.sib.nodes.length + 1 + t.nodes.length) := by
            simp only [pre, hs, List.length_append, List.length_singleton]
            omega
          rw [plug, e]
          exact h2
        · rw [hl] at h3
          simp only [base, hs]
          omega)
      simpa using this

/-- `++` with the number of links followed. -/
theorem wp_incrementN {p c k} {Q : Ptr × Nat → W K → Prop} (h : Z H0 hdr hi ctx (.node p c l k r) w.heap)
    (hQ : ∀ n g, n ≤ (plug ctx (.node p c l k r)).height + 1 → At (plug ctx (.node p c l k r)) ((pre ctx ++ l.nodes).length + 1) g →
      g = gpos (plug ctx (.node p c l k r)) (pre ctx ++ l.nodes).length + n → Q (firstP hdr (r.nodes ++ post ctx), n) w) :
    wp (incrementN p) w Q := by
  have hf := h.focus (s := .L)
  have hn := h.focus_ne_null (s := .L)
  have h0 : Ptr.null ∉ r.ptrs := fun hh => h.null_notMem_focus (by
    rw [ptrs_mk_L, mem_ptrs_mk]; exact Or.inr (Or.inr hh))
  have hlen := nodes_len (p := p) (c := c) (l := l) (r := r) (k := k)
  have hg := gpos_plug ctx (.node p c l k r) l.nodes.length (by omega)
  have hpl := plug_len ctx (.node p c l k r)
  have hht := height_plug ctx (.node p c l k r)
  rw [← List.length_append] at hg
  have hg0 : gpos (T.node p c l k r) l.nodes.length = 2 * l.nodes.length := by simp [gpos]
  rw [hg, hg0] at hQ
  rw [T.height] at hht
  unfold incrementN
  simp only [wp_bind, wp_rd hf hn, wp_ite]
  by_cases hr : r = .nil
  · subst hr
    simp only [cellS, T.ptr, ne_eq, not_true, if_false, wp_pure]
    simp only [T.nodes, List.nil_append] at hQ
    refine wp_incClimbN (Q := fun a w => Q (a.1, a.2 + 1) w) h (by simp) ?_
    intro n g h1 h2 h3
    rw [hlen] at h2 h3
    refine hQ (n + 1) g (by omega) ?_ ?_
    · have e : (pre ctx ++ l.nodes).length + 1 = (pre ctx).length + (l.nodes.length + 1 + (T.nil : T K).nodes.length) := by
        simp only [T.nodes, List.length_nil, List.length_append]; omega
      rw [e]
      exact h2
    · simp only [T.nodes, List.length_nil] at h3; omega
  · have hrp : r.ptr ≠ .null := fun e => h0 (e ▸ ptr_mem_ptrs hr)
    have hrep : Rep w.heap hi.own p r := (Rep_mk (s := .L).1 h.rep).2.2
    have hr1 := List.length_pos_iff.2 (nodes_ne_nil hr)
    simp only [cellS, ne_eq, hrp, not_false_eq_true, if_true]
    refine wp_minLoopN hrep hr h0 hdr ?_
    intro n h1 h2
    have : firstP hdr (r.nodes ++ post ctx) = firstP hdr r.nodes := by
      have := nodes_ne_nil hr
      cases hh : r.nodes with
      | nil => exact absurd hh this
      | cons a L => simp
    rw [this] at hQ
    rw [wp_pure]
    have hg1 := gpos_plug ctx (.node p c l k r) (l.nodes.length + 1) (by omega)
    have hg2 : gpos (T.node p c l k r) (l.nodes.length + 1) = 2 * l.nodes.length + 1 + gpos r 0 := by
      rw [gpos, if_neg (by omega), if_neg (by omega)]
      congr 2; omega
    refine hQ (n + 1) (base ctx + 2 * l.nodes.length + (n + 1)) (by omega) (Or.inl ⟨?_, ?_⟩) rfl
    · rw [hpl, List.length_append]; omega
    · rw [List.length_append, Nat.add_assoc (pre ctx).length, hg1, hg2]; omega

theorem wp_decClimbN {t : T K} {Q : Ptr × Nat → W K → Prop}
    (h : Z H0 hdr hi ctx t w.heap) (ht : t ≠ .nil) (hne : pre ctx ≠ [])
    (hQ : ∀ n, n + 1 ≤ ctx.length → base ctx = gpos (plug ctx t) ((pre ctx).length - 1) + n + 1 → Q (lastP hdr (pre ctx), n) w) :
    wp (decClimbN t.ptr (par hdr ctx)) w Q := by
  induction ctx generalizing t Q with
  | nil => simp [pre] at hne
  | cons f fs ih =>
    rw [decClimbN]
    simp only [par_cons, wp_bind, wp_rd h.parCell h.par_ne_null, wp_ite]
    have hch := h.child_eq ht .L
    simp only [TNode.child] at hch
    rcases (show f.s = .L ∨ f.s = .R by cases f.s <;> simp) with hs | hs
    · rw [if_pos (by rw [hch, hs])]
      have hpre : pre (f :: fs) = pre fs := by simp [pre, hs]
      rw [hpre] at hQ hne
      simp only [cellS_parent]
      have := ih (Q := fun a w => Q (a.1, a.2 + 1) w) h.up mk_ne_nil hne (by
        intro n h1 h2
        refine hQ (n + 1) (by simp only [List.length_cons]; omega) ?_
        rw [plug]
        simp only [base, hs]
        rw [hs] at h2
        omega)
      simpa using this
    · rw [if_neg (by rw [hch, hs]; simp), wp_pure]
      have hl : f.sib.nodes.length < (mk f.s f.p f.c t f.k f.sib).nodes.length := by
        rw [hs]; simp only [mk, nodes_len]; omega
      have h1 := gpos_plug fs (mk f.s f.p f.c t f.k f.sib) f.sib.nodes.length hl
      have h2 : (pre (f :: fs)).length - 1 = (pre fs).length + f.sib.nodes.length := by simp [pre, hs]
      have := hQ 0 (by simp) (by
        rw [plug, h2, h1, hs]
        simp [base, hs, mk, gpos])
      simpa [pre, hs, lastP_append] using this

/-- `--` with the number of links followed. -/
theorem wp_decrementN {p c k} {Q : Ptr × Nat → W K → Prop} (h : Z H0 hdr hi ctx (.node p c l k r) w.heap)
    (hblack : (plug ctx (.node p c l k r)).color = .black) (hne : pre ctx ++ l.nodes ≠ [])
    (hQ : ∀ n, n ≤ (plug ctx (.node p c l k r)).height → gpos (plug ctx (.node p c l k r)) (pre ctx ++ l.nodes).length =
      gpos (plug ctx (.node p c l k r)) ((pre ctx ++ l.nodes).length - 1) + n → Q (lastP hdr (pre ctx ++ l.nodes), n) w) :
    wp (decrementN p) w Q := by
  have hf := h.focus (s := .L)
  have hn := h.focus_ne_null (s := .L)
  have h0 : Ptr.null ∉ l.ptrs := fun hh => h.null_notMem_focus (by
    rw [ptrs_mk_L, mem_ptrs_mk]; exact Or.inr (Or.inl hh))
  have hlen := nodes_len (p := p) (c := c) (l := l) (r := r) (k := k)
  have hg := gpos_plug ctx (.node p c l k r) l.nodes.length (by omega)
  have hht := height_plug ctx (.node p c l k r)
  rw [← List.length_append] at hg
  have hg0 : gpos (T.node p c l k r) l.nodes.length = 2 * l.nodes.length := by simp [gpos]
  rw [hg, hg0] at hQ
  rw [T.height] at hht
  have hrest : wp (if l.ptr ≠ .null then (do let r ← maxLoopN l.ptr; pure (r.1, r.2 + 1))
      else (do let r ← decClimbN p (par hdr ctx); pure (r.1, r.2 + 1))) w Q := by
    by_cases hl : l = .nil
    · subst hl
      simp only [T.nodes, List.append_nil, List.length_nil] at hne hQ
      simp only [T.ptr, ne_eq, not_true, if_false, wp_bind]
      refine wp_decClimbN h (by simp) hne fun n h1 h2 => ?_
      rw [wp_pure]
      exact hQ (n + 1) (by omega) (by omega)
    · have hlp : l.ptr ≠ .null := fun e => h0 (e ▸ ptr_mem_ptrs hl)
      have hrep : Rep w.heap hi.own p l := (Rep_mk (s := .L).1 h.rep).2.1
      have hl1 := List.length_pos_iff.2 (nodes_ne_nil hl)
      simp only [ne_eq, hlp, not_false_eq_true, if_true, wp_bind]
      refine wp_maxLoopN hrep hl h0 (lastP hdr (pre ctx)) fun n h1 h2 => ?_
      rw [wp_pure, ← lastP_append]
      have hg1 := gpos_plug ctx (.node p c l k r) (l.nodes.length - 1) (by omega)
      have hg2 : gpos (T.node p c l k r) (l.nodes.length - 1) = gpos l (l.nodes.length - 1) + 1 := by
        rw [gpos, if_pos (by omega)]
      refine hQ (n + 1) (by omega) ?_
      rw [List.length_append, Nat.add_sub_assoc (by omega), hg1, hg2]
      omega
  unfold decrementN
  simp only [wp_bind, wp_rd hf hn, wp_ite]
  simp only [cellS, wp_pure]
  rw [wp_ite] at hrest
  simp only [wp_bind, wp_pure] at hrest
  by_cases hc : c = .red
  · subst hc
    cases ctx with
    | nil => simp [plug, T.color] at hblack
    | cons f fs =>
      simp only [if_true, par_cons, wp_rd h.parCell h.par_ne_null, cellS_parent]
      have hpn : par hdr fs ≠ p := by
        have hpm := h.focus_mem (s := .L)
        cases fs with
        | nil => exact fun e => h.ne_hdr hpm e.symm
        | cons g gs =>
          rintro rfl
          have := (nodup_plug_ptrs.1 h.ok.nodup).2.2 g.p (by rw [ptrs_mk_L, mem_ptrs_mk]; exact Or.inl rfl)
          simp [mem_ctxPtrs_cons] at this
      simp only [hpn, decide_false, Bool.false_eq_true, if_false]
      exact hrest
  · simp only [hc, Bool.false_eq_true, if_false]
    exact hrest

/-- `--end()` follows one link. -/
theorem wp_decrementN_end {t : T K} {Q : Ptr × Nat → W K → Prop} (h : Z H0 hdr hi [] t w.heap) (ht : t ≠ .nil)
    (hQ : Q (hi.rm, 1) w) : wp (decrementN hdr) w Q := by
  obtain ⟨p, c, l, k, r, rfl⟩ := exists_mk .L ht
  unfold decrementN
  simp only [wp_bind, wp_rd h.hdrCell h.hdr_ne, wp_ite]
  simp only [hdCell, plug, mk_ptr, if_true, wp_rd h.focus h.focus_ne_null, wp_pure, cellS_parent, par_nil, decide_true]
  exact hQ

end

/-! The counts change nothing else. -/
section
variable {w w' : W K} {x y z : Ptr} {n : Nat}

theorem minLoopN_run (h : Runs (minLoopN x) w (z, n) w') : Runs (minLoop x) w z w' := by
  induction n generalizing x w with
  | zero =>
    rw [minLoopN] at h
    rw [minLoop]
    obtain ⟨c, w1, h1, h2⟩ := runs_seq_inv h
    refine runs_seq h1 ?_
    split at h2
    · obtain ⟨r, w2, h3, h4⟩ := runs_seq_inv h2
      cases h4
    · rename_i hc
      rw [if_neg hc]
      cases h2; rfl
  | succ n ih =>
    rw [minLoopN] at h
    rw [minLoop]
    obtain ⟨c, w1, h1, h2⟩ := runs_seq_inv h
    refine runs_seq h1 ?_
    split at h2
    · rename_i hc
      rw [if_pos hc]
      obtain ⟨⟨r, m⟩, w2, h3, h4⟩ := runs_seq_inv h2
      cases h4
      exact ih h3
    · cases h2

theorem maxLoopN_run (h : Runs (maxLoopN x) w (z, n) w') : Runs (maxLoop x) w z w' := by
  induction n generalizing x w with
  | zero =>
    rw [maxLoopN] at h
    rw [maxLoop]
    obtain ⟨c, w1, h1, h2⟩ := runs_seq_inv h
    refine runs_seq h1 ?_
    split at h2
    · obtain ⟨r, w2, h3, h4⟩ := runs_seq_inv h2
      cases h4
    · rename_i hc
      rw [if_neg hc]
      cases h2; rfl
  | succ n ih =>
    rw [maxLoopN] at h
    rw [maxLoop]
    obtain ⟨c, w1, h1, h2⟩ := runs_seq_inv h
    refine runs_seq h1 ?_
    split at h2
    · rename_i hc
      rw [if_pos hc]
      obtain ⟨⟨r, m⟩, w2, h3, h4⟩ := runs_seq_inv h2
      cases h4
      exact ih h3
    · cases h2

theorem decClimbN_run (h : Runs (decClimbN x y) w (z, n) w') : Runs (decClimb x y) w z w' := by
  induction n generalizing x y w with
  | zero =>
    rw [decClimbN] at h
    rw [decClimb]
    obtain ⟨c, w1, h1, h2⟩ := runs_seq_inv h
    refine runs_seq h1 ?_
    split at h2
    · obtain ⟨r, w2, h3, h4⟩ := runs_seq_inv h2
      cases h4
    · rename_i hc
      rw [if_neg hc]
      cases h2; rfl
  | succ n ih =>
    rw [decClimbN] at h
    rw [decClimb]
    obtain ⟨c, w1, h1, h2⟩ := runs_seq_inv h
    refine runs_seq h1 ?_
    split at h2
    · rename_i hc
      rw [if_pos hc]
      obtain ⟨⟨r, m⟩, w2, h3, h4⟩ := runs_seq_inv h2
      cases h4
      exact ih h3
    · cases h2

theorem incClimbN_run {z : Ptr × Ptr} (h : Runs (incClimbN x y) w (z, n) w') : Runs (incClimb x y) w z w' := by
  induction n generalizing x y w with
  | zero =>
    rw [incClimbN] at h
    rw [incClimb]
    obtain ⟨c, w1, h1, h2⟩ := runs_seq_inv h
    refine runs_seq h1 ?_
    split at h2
    · obtain ⟨r, w2, h3, h4⟩ := runs_seq_inv h2
      cases h4
    · rename_i hc
      rw [if_neg hc]
      cases h2; rfl
  | succ n ih =>
    rw [incClimbN] at h
    rw [incClimb]
    obtain ⟨c, w1, h1, h2⟩ := runs_seq_inv h
    refine runs_seq h1 ?_
    split at h2
    · rename_i hc
      rw [if_pos hc]
      obtain ⟨⟨r, m⟩, w2, h3, h4⟩ := runs_seq_inv h2
      cases h4
      exact ih h3
    · cases h2

/-- `++` and its count. -/
theorem incrementN_run (h : Runs (incrementN x) w (z, n) w') : Runs (increment x) w z w' := by
  unfold incrementN at h
  unfold increment
  obtain ⟨c, w1, h1, h2⟩ := runs_seq_inv h
  refine runs_seq h1 ?_
  split at h2
  · rename_i hc
    rw [if_pos hc]
    obtain ⟨⟨r, m⟩, w2, h3, h4⟩ := runs_seq_inv h2
    cases h4
    exact minLoopN_run h3
  · rename_i hc
    rw [if_neg hc]
    obtain ⟨⟨r, m⟩, w2, h3, h4⟩ := runs_seq_inv h2
    refine runs_seq (incClimbN_run h3) ?_
    obtain ⟨d, w3, h5, h6⟩ := runs_seq_inv h4
    refine runs_seq h5 ?_
    split at h6
    · rename_i hd
      rw [if_pos hd]
      cases h6; rfl
    · rename_i hd
      rw [if_neg hd]
      cases h6; rfl

/-- `--` and its count. -/
theorem decrementN_run (h : Runs (decrementN x) w (z, n) w') : Runs (decrement x) w z w' := by
  unfold decrementN at h
  unfold decrement
  obtain ⟨c, w1, h1, h2⟩ := runs_seq_inv h
  refine runs_seq h1 ?_
  obtain ⟨b, w2, h3, h4⟩ := runs_seq_inv h2
  refine runs_seq h3 ?_
  split at h4
  · rename_i hb
    rw [if_pos hb]
    cases h4; rfl
  · rename_i hb
    rw [if_neg hb]
    split at h4
    · rename_i hc
      rw [if_pos hc]
      obtain ⟨⟨r, m⟩, w2, h3, h4⟩ := runs_seq_inv h4
      cases h4
      exact maxLoopN_run h3
    · rename_i hc
      rw [if_neg hc]
      obtain ⟨⟨r, m⟩, w2, h3, h4⟩ := runs_seq_inv h4
      cases h4
      exact decClimbN_run h3

end
end Nestl.RB
