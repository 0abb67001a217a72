import Verif.RBTree.Insert
set_option autoImplicit false
/-
Iterators: `rb_tree_increment` / `rb_tree_decrement` move to the in-order neighbours.
-/
namespace Nestl.RB
variable {K : Type}

/-- Address of the first element, or `d` for an empty sequence. -/
def firstP (d : Ptr) : List (Ptr × K) → Ptr
  | [] => d
  | a :: _ => a.1

/-- Address of the last element, or `d` for an empty sequence. -/
def lastP (d : Ptr) (L : List (Ptr × K)) : Ptr := firstP d L.reverse

@[simp] theorem firstP_nil (d : Ptr) : firstP d ([] : List (Ptr × K)) = d := rfl
@[simp] theorem firstP_cons (d : Ptr) (a : Ptr × K) (L) : firstP d (a :: L) = a.1 := rfl
@[simp] theorem lastP_nil (d : Ptr) : lastP d ([] : List (Ptr × K)) = d := rfl
@[simp] theorem lastP_append_cons (d : Ptr) (a : Ptr × K) (A B) : lastP d (A ++ a :: B) = lastP a.1 B := by
  simp only [lastP, List.reverse_append, List.reverse_cons, List.append_assoc]
  cases h : B.reverse <;> simp
@[simp] theorem lastP_cons (d : Ptr) (a : Ptr × K) (B) : lastP d (a :: B) = lastP a.1 B := by
  simpa using lastP_append_cons d a [] B

theorem firstP_append (d : Ptr) (A B : List (Ptr × K)) : firstP d (A ++ B) = firstP (firstP d B) A := by
  cases A <;> simp
theorem lastP_append (d : Ptr) (A B : List (Ptr × K)) : lastP d (A ++ B) = lastP (lastP d A) B := by
  simp [lastP, firstP_append]

theorem firstP_mem {d : Ptr} {L : List (Ptr × K)} (h : L ≠ []) : firstP d L ∈ L.map Prod.fst := by
  cases L with
  | nil => exact absurd rfl h
  | cons a L => simp
theorem lastP_mem {d : Ptr} {L : List (Ptr × K)} (h : L ≠ []) : lastP d L ∈ L.map Prod.fst := by
  have : lastP d L ∈ L.reverse.map Prod.fst := firstP_mem (by simpa using h)
  simpa using this

theorem nodes_ne_nil {t : T K} (h : t ≠ .nil) : t.nodes ≠ [] := by
  cases t with
  | nil => exact absurd rfl h
  | node p c l k r => simp [T.nodes]

theorem ptrs_mk_L (p : Ptr) (c : Color) (l : T K) (k : K) (r : T K) : T.node p c l k r = mk .L p c l k r := rfl

section
variable {H0 : Ptr → Option (TNode K)} {hdr : Ptr} {hi : Hd} {w : W K} {ctx : Ctx K} {t l r : T K}

theorem wp_minLoop {o pr : _} {t : T K} {Q : Ptr → W K → Prop} (h : Rep w.heap o pr t) (ht : t ≠ .nil)
    (h0 : Ptr.null ∉ t.ptrs) (d : Ptr) (hQ : Q (firstP d t.nodes) w) : wp (minLoop t.ptr) w Q := by
  induction t generalizing pr with
  | nil => exact absurd rfl ht
  | node p c l k r ihl _ =>
    have h0' : p ≠ .null ∧ Ptr.null ∉ l.ptrs := by
      simp only [T.ptrs, T.nodes, List.map_append, List.mem_append, List.map_cons, List.mem_cons] at h0 ⊢
      grind
    rw [T.ptr, minLoop]
    simp only [wp_bind, wp_rd h.1 h0'.1, wp_ite]
    by_cases hl : l = .nil
    · subst hl; simpa [cellS, T.ptr, T.nodes] using hQ
    · have hlp : l.ptr ≠ .null := fun e => h0'.2 (e ▸ ptr_mem_ptrs hl)
      have : firstP d (T.node p c l k r).nodes = firstP d l.nodes := by
        have := nodes_ne_nil hl
        simp only [T.nodes]
        cases hh : l.nodes with
        | nil => exact absurd hh this
        | cons a L => simp
      rw [this] at hQ
      simpa [cellS, hlp] using ihl h.2.1 hl h0'.2 hQ

theorem wp_maxLoop {o pr : _} {t : T K} {Q : Ptr → W K → Prop} (h : Rep w.heap o pr t) (ht : t ≠ .nil)
    (h0 : Ptr.null ∉ t.ptrs) (d : Ptr) (hQ : Q (lastP d t.nodes) w) : wp (maxLoop t.ptr) w Q := by
  induction t generalizing pr with
  | nil => exact absurd rfl ht
  | node p c l k r _ ihr =>
    have h0' : p ≠ .null ∧ Ptr.null ∉ r.ptrs := by
      simp only [T.ptrs, T.nodes, List.map_append, List.mem_append, List.map_cons, List.mem_cons] at h0 ⊢
      grind
    rw [T.ptr, maxLoop]
    simp only [wp_bind, wp_rd h.1 h0'.1, wp_ite]
    by_cases hr : r = .nil
    · subst hr; simpa [cellS, T.ptr, T.nodes] using hQ
    · have hrp : r.ptr ≠ .null := fun e => h0'.2 (e ▸ ptr_mem_ptrs hr)
      have : lastP d (T.node p c l k r).nodes = lastP d r.nodes := by
        have := nodes_ne_nil hr
        simp only [T.nodes, lastP_append_cons]
        obtain ⟨L, a, hh⟩ := List.eq_nil_or_concat r.nodes |>.resolve_left this
        rw [hh]; simp
      rw [this] at hQ
      simpa [cellS, hrp] using ihr h.2.2 hr h0'.2 hQ

theorem Z.right_ne {H p c k q} (h : Z H0 hdr hi ctx (.node p c l k r) H)
    (hq : q = hdr ∨ q ∈ ctxPtrs ctx) : r.ptr ≠ q := by
  intro e
  by_cases hr : r = .nil
  · subst hr
    rcases hq with rfl | hq
    · exact h.hdr_ne e.symm
    · exact h.ne_null (mem_plug_ptrs.2 (Or.inl hq)) e.symm
  · have hm : r.ptr ∈ (T.node p c l k r).ptrs := by
      rw [ptrs_mk_L, mem_ptrs_mk]; exact Or.inr (Or.inr (ptr_mem_ptrs hr))
    rcases hq with rfl | hq
    · exact h.ne_hdr (mem_plug_ptrs.2 (Or.inr hm)) e
    · exact (nodup_plug_ptrs.1 h.ok.nodup).2.2 _ hm (e ▸ hq)

/-- The second loop of `++` and the test behind it, for any data in the header. -/
theorem wp_incClimb {t : T K} {Q : Ptr → W K → Prop}
    (h : Z H0 hdr hi ctx t w.heap) (ht : t ≠ .nil) (hQ : Q (firstP hdr (post ctx)) w) :
    wp (incClimb t.ptr (par hdr ctx)) w (fun a w' => wp (rd a.1) w' fun n w'' => if ¬n.right = a.2 then Q a.2 w'' else Q a.1 w'') := by
  induction ctx generalizing t with
  | nil =>
    obtain ⟨p, c, l, k, r, rfl⟩ := exists_mk .L ht
    have hf := h.focus
    have hr : r.ptr ≠ hdr := h.right_ne (Or.inl rfl)
    rw [incClimb]
    simp only [par_nil, wp_bind, wp_rd h.hdrCell h.hdr_ne, wp_ite]
    by_cases e : (mk .L p c l k r).ptr = (hdCell (K := K) hi (plug [] (mk .L p c l k r)).ptr).right
    · rw [if_pos e, incClimb]
      rw [mk_ptr] at e
      simp only [hdCell, plug, mk_ptr] at e ⊢
      simp only [wp_bind, wp_rd hf h.focus_ne_null, wp_ite]
      rw [if_neg (by simpa [cellS] using Ne.symm hr), wp_pure]
      simp only [wp_rd h.hdrCell h.hdr_ne]
      rw [if_neg (by simpa [hdCell] using e.symm)]
      simpa [post] using hQ
    · rw [if_neg e, wp_pure, mk_ptr]
      simp only [wp_rd hf h.focus_ne_null]
      rw [if_pos (by simpa [cellS] using hr)]
      simpa [post] using hQ
  | cons f fs ih =>
    rw [incClimb]
    simp only [par_cons, wp_bind, wp_rd h.parCell h.par_ne_null, wp_ite]
    have hch := h.child_eq ht .R
    simp only [TNode.child] at hch
    rcases (show f.s = .L ∨ f.s = .R by cases f.s <;> simp) with hs | hs
    · rw [if_neg (by rw [hch, hs]; simp), wp_pure]
      have hpost : firstP hdr (post (f :: fs)) = f.p := by simp [post, hs]
      rw [hpost] at hQ
      obtain ⟨p, c, l, k, r, rfl⟩ := exists_mk .L ht
      have hr : r.ptr ≠ f.p := h.right_ne (Or.inr (by simp [mem_ctxPtrs_cons]))
      simp only [mk_ptr, wp_rd h.focus h.focus_ne_null]
      rw [if_pos (by simpa [cellS] using hr)]
      exact hQ
    · rw [if_pos (by rw [hch, hs])]
      simp only [cellS_parent]
      have hpost : post (f :: fs) = post fs := by simp [post, hs]
      rw [hpost] at hQ
      simpa using ih h.up mk_ne_nil hQ

/-- `++` moves to the in-order successor (or to `end()`), whatever the header records about the first and last element. -/
theorem wp_increment {p c k} {Q : Ptr → W K → Prop} (h : Z H0 hdr hi ctx (.node p c l k r) w.heap)
    (hQ : Q (firstP hdr (r.nodes ++ post ctx)) w) : wp (increment p) w Q := by
  have hf := h.focus (s := .L)
  have hn := h.focus_ne_null (s := .L)
  have h0 : Ptr.null ∉ r.ptrs := fun hh => h.null_notMem_focus (by
    rw [ptrs_mk_L, mem_ptrs_mk]; exact Or.inr (Or.inr hh))
  unfold increment
  simp only [wp_bind, wp_rd hf hn, wp_ite]
  by_cases hr : r = .nil
  · subst hr
    simp only [cellS, T.ptr, ne_eq, not_true, if_false, wp_pure]
    simp only [T.nodes, List.nil_append] at hQ
    exact wp_incClimb h (by simp) hQ
  · have hrp : r.ptr ≠ .null := fun e => h0 (e ▸ ptr_mem_ptrs hr)
    have hrep : Rep w.heap hi.own p r := (Rep_mk (s := .L).1 h.rep).2.2
    simp only [cellS, ne_eq, hrp, not_false_eq_true, if_true]
    refine wp_minLoop hrep hr h0 hdr ?_
    have : firstP hdr (r.nodes ++ post ctx) = firstP hdr r.nodes := by
      have := nodes_ne_nil hr
      cases hh : r.nodes with
      | nil => exact absurd hh this
      | cons a L => simp
    rwa [← this]

theorem wp_decClimb {t : T K} {Q : Ptr → W K → Prop}
    (h : Z H0 hdr hi ctx t w.heap) (ht : t ≠ .nil) (hne : pre ctx ≠ [])
    (hQ : Q (lastP hdr (pre ctx)) w) :
    wp (decClimb t.ptr (par hdr ctx)) w Q := by
  induction ctx generalizing t with
  | nil => simp [pre] at hne
  | cons f fs ih =>
    rw [decClimb]
    simp only [par_cons, wp_bind, wp_rd h.parCell h.par_ne_null, wp_ite]
    have hch := h.child_eq ht .L
    simp only [TNode.child] at hch
    rcases (show f.s = .L ∨ f.s = .R by cases f.s <;> simp) with hs | hs
    · rw [if_pos (by rw [hch, hs])]
      have hpre : pre (f :: fs) = pre fs := by simp [pre, hs]
      rw [hpre] at hQ hne
      simp only [cellS_parent]
      simpa using ih h.up mk_ne_nil hne hQ
    · rw [if_neg (by rw [hch, hs]; simp), wp_pure]
      simpa [pre, hs, lastP_append] using hQ

/-- `--` moves to the in-order predecessor. -/
theorem wp_decrement {p c k} {Q : Ptr → W K → Prop} (h : Z H0 hdr hi ctx (.node p c l k r) w.heap)
    (hblack : (plug ctx (.node p c l k r)).color = .black) (hne : pre ctx ++ l.nodes ≠ [])
    (hQ : Q (lastP hdr (pre ctx ++ l.nodes)) w) : wp (decrement p) w Q := by
  have hf := h.focus (s := .L)
  have hn := h.focus_ne_null (s := .L)
  have h0 : Ptr.null ∉ l.ptrs := fun hh => h.null_notMem_focus (by
    rw [ptrs_mk_L, mem_ptrs_mk]; exact Or.inr (Or.inl hh))
  have hrest : wp (if l.ptr ≠ .null then maxLoop l.ptr else decClimb p (par hdr ctx)) w Q := by
    by_cases hl : l = .nil
    · subst hl
      simp only [T.nodes, List.append_nil] at hne hQ
      simp only [T.ptr, ne_eq, not_true, if_false]
      simpa [T.ptr] using wp_decClimb h (by simp) hne hQ
    · have hlp : l.ptr ≠ .null := fun e => h0 (e ▸ ptr_mem_ptrs hl)
      have hrep : Rep w.heap hi.own p l := (Rep_mk (s := .L).1 h.rep).2.1
      simp only [ne_eq, hlp, not_false_eq_true, if_true]
      refine wp_maxLoop hrep hl h0 (lastP hdr (pre ctx)) ?_
      rwa [← lastP_append]
  unfold decrement
  simp only [wp_bind, wp_rd hf hn, wp_ite]
  simp only [cellS, wp_pure]
  rw [wp_ite] at hrest
  by_cases hc : c = .red
  · subst hc
    cases ctx with
    | nil => simp [plug, T.color] at hblack
    | cons f fs =>
      simp only [if_true, par_cons, wp_rd h.parCell h.par_ne_null, cellS_parent]
      have hpn : par hdr fs ≠ p := by
        have hpm := h.focus_mem (s := .L)
        cases fs with
        | nil => exact fun e => h.ne_hdr hpm e.symm
        | cons g gs =>
          rintro rfl
          have := (nodup_plug_ptrs.1 h.ok.nodup).2.2 g.p (by rw [ptrs_mk_L, mem_ptrs_mk]; exact Or.inl rfl)
          simp [mem_ctxPtrs_cons] at this
      simp only [hpn, decide_false, Bool.false_eq_true, if_false]
      exact hrest
  · simp only [hc, Bool.false_eq_true, if_false]
    exact hrest

/-- `--end()` is the last element of a non-empty tree. -/
theorem wp_decrement_end {t : T K} {Q : Ptr → W K → Prop} (h : Z H0 hdr hi [] t w.heap) (ht : t ≠ .nil)
    (hQ : Q hi.rm w) : wp (decrement hdr) w Q := by
  obtain ⟨p, c, l, k, r, rfl⟩ := exists_mk .L ht
  unfold decrement
  simp only [wp_bind, wp_rd h.hdrCell h.hdr_ne, wp_ite]
  simp only [hdCell, plug, mk_ptr, if_true, wp_rd h.focus h.focus_ne_null, wp_pure, cellS_parent, par_nil, decide_true]
  exact hQ

end
end Nestl.RB
