import Verif.RBTree.InsertOps
set_option autoImplicit false
/-
Descents: insertion position, lower/upper bound, equal range, find.
-/
namespace Nestl.RB
variable {K : Type}

/-- Strictly increasing sequence of keys. -/
def Sorted (lt : K → K → Bool) (L : List (Ptr × K)) : Prop := L.Pairwise (fun a b => lt a.2 b.2 = true)

/-- Non-decreasing sequence of keys. -/
def WSorted (lt : K → K → Bool) (L : List (Ptr × K)) : Prop := L.Pairwise (fun a b => lt b.2 a.2 = false)

theorem Sorted.weak {lt : K → K → Bool} {L : List (Ptr × K)} (hs : SWO lt) (h : Sorted lt L) : WSorted lt L :=
  List.Pairwise.imp (fun {a b} h => by
    cases hh : lt b.2 a.2
    · rfl
    · rw [hs.asymm h] at hh; cases hh) h

theorem _root_.Nestl.SWO.lt_of_le_lt {lt : K → K → Bool} (hs : SWO lt) {a b c : K} (h1 : lt b a = false) (h2 : lt b c = true) :
    lt a c = true := by
  rcases hs.cotrans b a c h2 with h | h
  · rw [h1] at h; cases h
  · exact h

theorem _root_.Nestl.SWO.lt_of_lt_le {lt : K → K → Bool} (hs : SWO lt) {a b c : K} (h1 : lt a b = true) (h2 : lt c b = false) :
    lt a c = true := by
  rcases hs.cotrans a c b h1 with h | h
  · exact h
  · rw [h2] at h; cases h

theorem _root_.Nestl.SWO.le_trans {lt : K → K → Bool} (hs : SWO lt) {a b c : K} (h1 : lt b a = false) (h2 : lt c b = false) :
    lt c a = false := by
  cases hh : lt c a
  · rfl
  · rw [hs.lt_of_le_lt h2 hh] at h1; cases h1

/-- Height of a tree. -/
def T.height : T K → Nat
  | .nil => 0
  | .node _ _ l _ r => max l.height r.height + 1

section
variable {H0 : Ptr → Option (TNode K)} {hdr : Ptr} {hi : Hd} {w : W K} {ctx : Ctx K} {t l r : T K} {o : Nat}
  {lt : K → K → Bool} {k : K}

theorem Tree.hdr_ne {H : Ptr → Option (TNode K)} (h : Tree H hdr o t) : hdr ≠ .null := by
  obtain ⟨i, rfl⟩ := h.ok.hdr; simp

theorem Tree.node_ne_null {H : Ptr → Option (TNode K)} {p} (h : Tree H hdr o t) (hp : p ∈ t.ptrs) : p ≠ .null := by
  obtain ⟨i, rfl⟩ := h.ok.dyn p hp; simp

theorem Tree.node_ne_hdr {H : Ptr → Option (TNode K)} {p} (h : Tree H hdr o t) (hp : p ∈ t.ptrs) : p ≠ hdr := by
  obtain ⟨i, rfl⟩ := h.ok.dyn p hp
  obtain ⟨j, rfl⟩ := h.ok.hdr; simp

/-- Cell of the node in focus. -/
theorem Tree.focus {H : Ptr → Option (TNode K)} {p c} (h : Tree H hdr o (plug ctx (.node p c l k r))) :
    H p = some (cellS .L c (par hdr ctx) l.ptr r.ptr k o) := h.toZ.focus (s := .L)

theorem Tree.focus_ne {H : Ptr → Option (TNode K)} {p c} (h : Tree H hdr o (plug ctx (.node p c l k r))) :
    p ≠ .null := h.toZ.focus_ne_null (s := .L)

/-- Key of a node in the in-order sequence. -/
theorem wp_keyOf_mem {A B p k'} {Q : K → W K → Prop} (h : Tree w.heap hdr o t) (hn : t.nodes = A ++ (p, k') :: B) :
    wp (keyOf p) w Q ↔ Q k' w := by
  obtain ⟨ctx, c, l, r, rfl, -, -⟩ := exists_zipper hn
  exact wp_keyOf h.focus h.focus_ne (by simp)

/-- The descent towards `k` takes the left branch exactly where `lt k` holds. -/
def Path (lt : K → K → Bool) (k : K) (ctx : Ctx K) : Prop := ∀ f ∈ ctx, lt k f.k = decide (f.s = .L)

theorem Path.wcut (hs : SWO lt) (hp : Path lt k ctx)
    (hsort : WSorted lt (pre ctx ++ post ctx)) :
    (∀ a ∈ pre ctx, lt k a.2 = false) ∧ (∀ b ∈ post ctx, lt k b.2 = true) := by
  induction ctx with
  | nil => simp [pre, post]
  | cons f fs ih =>
    have h1 := hp f (by simp)
    have h2 : Path lt k fs := fun g hg => hp g (by simp [hg])
    rcases (show f.s = .L ∨ f.s = .R by cases f.s <;> simp) with hs' | hs'
    · simp only [pre, post, hs', List.cons_append] at hsort h1 ⊢
      simp only [decide_true] at h1
      simp only [WSorted, List.pairwise_append, List.pairwise_cons, List.mem_append, List.mem_cons] at hsort ih
      have ih' := ih h2 (by grind)
      refine ⟨ih'.1, ?_⟩
      intro b hb
      simp only [List.mem_cons, List.mem_append] at hb
      rcases hb with rfl | hb | hb
      · exact h1
      · exact hs.lt_of_lt_le h1 (by grind)
      · exact ih'.2 b hb
    · simp only [pre, post, hs'] at hsort h1 ⊢
      simp only [reduceCtorEq, decide_false] at h1
      simp only [WSorted, List.pairwise_append, List.pairwise_cons, List.mem_append, List.mem_cons] at hsort ih
      have ih' := ih h2 (by grind)
      refine ⟨?_, ih'.2⟩
      intro a ha
      simp only [List.mem_cons, List.mem_append, List.not_mem_nil, or_false] at ha
      rcases ha with (ha | ha) | rfl
      · exact ih'.1 a ha
      · cases hh : lt k a.2
        · rfl
        · have : lt k f.k = true := hs.lt_of_lt_le hh (hsort.1.2.2 a (Or.inr ha) (f.p, f.k) (Or.inl rfl))
          rw [h1] at this; cases this
      · exact h1

theorem Path.cut (hs : SWO lt) (hp : Path lt k ctx)
    (hsort : Sorted lt (pre ctx ++ post ctx)) :
    (∀ a ∈ pre ctx, lt k a.2 = false) ∧ (∀ b ∈ post ctx, lt k b.2 = true) := hp.wcut hs (hsort.weak hs)

theorem wp_insDescend {Q : Ptr × Bool → W K → Prop} (h : Tree w.heap hdr o (plug ctx t)) (hp : Path lt k ctx)
    (hQ : ∀ ctx' n, plug ctx' .nil = plug ctx t → Path lt k ctx' → n ≤ t.height →
      Q (par hdr ctx', isL ctx') (w.addCmp n)) :
    wp (insDescend lt k t.ptr (par hdr ctx) (isL ctx)) w Q := by
  induction t generalizing ctx w with
  | nil =>
    rw [insDescend]
    simpa [T.ptr] using hQ ctx 0 rfl hp (Nat.zero_le _)
  | node p c l k' r ihl ihr =>
    rw [insDescend]
    have hpn := h.focus_ne
    have hc := h.focus
    simp only [T.ptr, ne_eq, hpn, not_false_eq_true, if_true, wp_bind, wp_keyOf hc hpn (cellS_val ..), wp_cmp]
    rw [wp_rd (by exact hc) hpn]
    simp only [cellS]
    cases hl : lt k k'
    · have := ihr (w := w.addCmp 1) (ctx := ⟨.R, p, c, k', l⟩ :: ctx) (by exact h) ?_ ?_
      · simpa [isL] using this
      · intro f hf
        simp only [List.mem_cons] at hf
        rcases hf with rfl | hf
        · simp [hl]
        · exact hp f hf
      · intro ctx' n h1 h2 h3
        rw [World.addCmp_addCmp]
        exact hQ ctx' _ h1 h2 (by simp only [T.height]; omega)
    · have := ihl (w := w.addCmp 1) (ctx := ⟨.L, p, c, k', r⟩ :: ctx) (by exact h) ?_ ?_
      · simpa [isL] using this
      · intro f hf
        simp only [List.mem_cons] at hf
        rcases hf with rfl | hf
        · simp [hl]
        · exact hp f hf
      · intro ctx' n h1 h2 h3
        rw [World.addCmp_addCmp]
        exact hQ ctx' _ h1 h2 (by simp only [T.height]; omega)

/-- The insertion position: either a hole whose left neighbour is smaller than `k` (or absent), or the
element just left of the hole, which is not smaller than `k`. -/
theorem wp_getInsertUniquePos {Q : Ptr × Ptr → W K → Prop} (h : Tree w.heap hdr o t)
    (hnew : ∀ ctx n, plug ctx .nil = t → Path lt k ctx → n ≤ t.height + 1 →
      (∀ A a, pre ctx = A ++ [a] → lt a.2 k = true) → Q (.null, par hdr ctx) (w.addCmp n))
    (hold : ∀ ctx n A p k', plug ctx .nil = t → Path lt k ctx → n ≤ t.height + 1 →
      pre ctx = A ++ [(p, k')] → lt k' k = false → Q (p, .null) (w.addCmp n)) :
    wp (getInsertUniquePos lt hdr k) w Q := by
  unfold getInsertUniquePos
  simp only [wp_bind]
  rw [wp_rd h.cell h.hdr_ne]
  simp only [hdCell]
  refine wp_insDescend (ctx := []) (t := t) (by exact h) (by intro f hf; simp at hf) ?_
  rintro ctx n hpl hpath hn
  simp only [plug] at hpl
  have hnod : t.nodes = pre ctx ++ post ctx := by rw [← hpl, plug_nodes]; simp [T.nodes]
  have htree : Tree (w.addCmp n).heap hdr o (plug ctx .nil) := by rw [hpl]; exact h
  have hnd : ((pre ctx ++ post ctx).map Prod.fst).Nodup := by rw [← hnod]; exact h.ok.nodup
  cases ctx with
  | nil =>
    simp only [isL, par_nil, if_true, wp_bind]
    rw [wp_rd (by exact h.cell) h.hdr_ne]
    simp only [hdCell]
    have : firstP hdr t.nodes = hdr := by rw [hnod]; rfl
    simp only [this, if_true]
    exact hnew [] n hpl hpath (by omega) (by simp [pre])
  | cons f fs =>
    rcases (show f.s = .L ∨ f.s = .R by cases f.s <;> simp) with hs | hs
    · have hb : isL (f :: fs) = true := by simp [isL, hs]
      have hpost : post (f :: fs) = (f.p, f.k) :: (f.sib.nodes ++ post fs) := by simp [post, hs]
      have hpre : pre (f :: fs) = pre fs := by simp [pre, hs]
      simp only [hb, if_true, wp_bind, par_cons]
      rw [wp_rd (by exact h.cell) h.hdr_ne]
      simp only [hdCell]
      by_cases hp0 : pre fs = []
      · have : f.p = firstP hdr t.nodes := by rw [hnod, hpre, hp0, hpost]; rfl
        refine wp_if_pos this ?_
        exact hnew (f :: fs) n hpl hpath (by omega) (by rw [hpre, hp0]; simp)
      · obtain ⟨A, a, ha⟩ := (List.eq_nil_or_concat (pre fs)).resolve_left hp0
        rw [List.concat_eq_append] at ha
        have : ¬ f.p = firstP hdr t.nodes := by
          rw [hnod, hpre, hpost]
          intro e
          rw [hpre, hpost] at hnd
          have hmem : firstP hdr (pre fs ++ (f.p, f.k) :: (f.sib.nodes ++ post fs)) ∈ (pre fs).map Prod.fst := by
            rw [firstP_append]; exact firstP_mem hp0
          rw [← e] at hmem
          simp only [List.map_append, List.nodup_append, List.map_cons, List.mem_cons] at hnd
          exact hnd.2.2 _ hmem _ (Or.inl rfl) rfl
        refine wp_if_neg this ?_
        have htz : Tree (w.addCmp n).heap hdr o (plug fs (.node f.p f.c .nil f.k f.sib)) := by
          have := htree
          rw [plug, hs] at this
          exact this
        simp only [wp_bind]
        refine wp_decrement htz.toZ htz.black (by simp [hp0]) ?_
        have hla : lastP hdr (pre fs ++ (T.nil : T K).nodes) = a.1 := by simp [T.nodes, ha]
        rw [hla]
        have hnod' : t.nodes = A ++ (a.1, a.2) :: post (f :: fs) := by rw [hnod, hpre, ha]; simp
        rw [wp_keyOf_mem (w := w.addCmp n) (by exact h) hnod']
        simp only [wp_cmp, wp_ite, wp_pure, World.addCmp_addCmp]
        cases hlt : lt a.2 k
        · simp only [Bool.false_eq_true, if_false]
          exact hold (f :: fs) (n + 1) A a.1 a.2 hpl hpath (by omega) (by rw [hpre, ha]) hlt
        · simp only [if_true]
          refine hnew (f :: fs) (n + 1) hpl hpath (by omega) ?_
          intro B b hb
          rw [hpre, ha] at hb
          have := List.append_inj_right' hb rfl
          simp only [List.cons.injEq, and_true] at this
          rw [← this]; exact hlt
    · have hb : isL (f :: fs) = false := by simp [isL, hs]
      have hpre : pre (f :: fs) = (pre fs ++ f.sib.nodes) ++ [(f.p, f.k)] := by simp [pre, hs]
      simp only [hb, Bool.false_eq_true, if_false, wp_bind, par_cons]
      have hnod' : t.nodes = (pre fs ++ f.sib.nodes) ++ (f.p, f.k) :: post (f :: fs) := by rw [hnod, hpre]; simp
      rw [wp_keyOf_mem (w := w.addCmp n) (by exact h) hnod']
      simp only [wp_cmp, wp_ite, wp_pure, World.addCmp_addCmp]
      cases hlt : lt f.k k
      · simp only [Bool.false_eq_true, if_false]
        exact hold (f :: fs) (n + 1) _ f.p f.k hpl hpath (by omega) hpre hlt
      · simp only [if_true]
        refine hnew (f :: fs) (n + 1) hpl hpath (by omega) ?_
        intro B b hb
        rw [hpre] at hb
        have := List.append_inj_right' hb rfl
        simp only [List.cons.injEq, and_true] at this
        rw [← this]; exact hlt

/-- `m_insert_` at a hole found by the descent. -/
theorem wp_insert_ {Q : Ptr → W K → Prop} (h : Tree w.heap hdr o (plug ctx .nil)) (hp : Path lt k ctx)
    (herr : w.err = none)
    (hfail : ∀ w' e, Refused w → Ext w w' → w'.nCmp ≤ w.nCmp + 1 → w'.heap = w.heap → w'.err = some e → Q hdr w')
    (hok : ∀ w' a t', ¬ Refused w → Ext w w' → w'.nCmp ≤ w.nCmp + 1 → w'.err = none → Fresh w w' (.dyn a) →
      Tree w'.heap hdr o t' → t'.nodes = pre ctx ++ (.dyn a, k) :: post ctx →
      (∀ q, q ≠ hdr → q ∉ t'.ptrs → w'.heap q = w.heap q) → Q (.dyn a) w') :
    wp (insert_ lt hdr .null (par hdr ctx) k) w Q := by
  have main : ∀ n, n ≤ 1 → wp (do
      let l ← createNode hdr k
      if (← hasErr) then pure hdr else do
      insertAndRebalance (isL ctx) l (par hdr ctx) hdr
      setCount hdr (· + 1)
      pure l) (w.addCmp n) Q := by
    intro n hn
    rw [wp_bind]
    refine wp_createNode (w := w.addCmp n) (by exact h.cell) h.ok.hdr herr ?_ ?_
    · intro w' e hrf he hc hh hw
      simp only [wp_bind, wp_hasErr, hw, Option.isSome_some, if_true, wp_pure]
      exact hfail w' e hrf ((Ext.addCmp w n).trans he) (by rw [hc]; simp; omega) hh hw
    · intro a c w' hnr ha he hc hh hv ho hcnt hw
      simp only [wp_bind, wp_hasErr, hw, Option.isSome_none, Bool.false_eq_true, if_false, wp_ite]
      have hw' : w' = (w'.setHeap w.heap).setHeap w'.heap := rfl
      rw [hw']
      refine wp_insertAndRebalance (o := o) (w := w'.setHeap w.heap) (ctx := ctx) (by exact h) _ hh ha.none hv ho hcnt ?_
      intro H' t' ht' hcell hnod hfr
      have hlen : (pre ctx ++ post ctx).length + 1 = t'.nodes.length := by rw [hnod]; simp; omega
      unfold setCount
      rw [wp_modCell (by exact hcell) h.hdr_ne]
      simp only [World.setHeap_heap, World.setHeap_setHeap, wp_pure]
      refine hok _ a t' hnr ?_ ?_ hw ⟨ha.none, ha.req⟩ ?_ hnod ?_
      · exact ((Ext.addCmp w n).trans he).trans (Ext.setHeap _ _)
      · simp only [World.setHeap_nCmp]; rw [hc]; simp; omega
      · simp only [World.setHeap_heap]
        have : ({ hdCell ⟨firstP hdr t'.nodes, lastP hdr t'.nodes, o, (pre ctx ++ post ctx).length⟩ t'.ptr with count := (pre ctx ++ post ctx).length + 1 } : TNode K)
            = hdCell ⟨firstP hdr t'.nodes, lastP hdr t'.nodes, o, t'.nodes.length⟩ t'.ptr := by rw [← hlen]; rfl
        simp only [hdCell] at this ⊢
        rw [this]
        exact ht'
      · intro q h1 h2
        simp only [World.setHeap_heap]
        rw [upd_other _ _ h1]
        exact hfr q h1 h2
  unfold insert_
  rw [wp_bind]
  simp only [ne_eq, not_true, if_false]
  cases ctx with
  | nil =>
    simp only [par_nil, if_true, wp_pure]
    exact main 0 (by omega)
  | cons f fs =>
    have hne : ¬ f.p = hdr := h.toZ.par_ne_hdr
    have hc := h.toZ.parCell
    simp only [par_cons, hne, if_false, wp_bind]
    rw [wp_keyOf hc h.toZ.par_ne_null (cellS_val ..), wp_cmp]
    have hlt : lt k f.k = isL (f :: fs) := hp f (by simp)
    rw [hlt]
    have := main 1 (by omega)
    simp only [wp_bind] at this
    exact this

/-- `set::insert`: the three outcomes. -/
theorem wp_insertUnique {Q : Ptr × Bool → W K → Prop} (h : Tree w.heap hdr o t) (herr : w.err = none)
    (hold : ∀ n A p k' B, t.nodes = A ++ (p, k') :: B → lt k' k = false → n ≤ t.height + 1 →
      (SWO lt → WSorted lt t.nodes → lt k k' = false) → Q (p, false) (w.addCmp n))
    (hfail : ∀ w' e A B, Refused w → Ext w w' → w'.nCmp ≤ w.nCmp + t.height + 2 → w'.heap = w.heap → w'.err = some e →
      t.nodes = A ++ B →
      (SWO lt → WSorted lt t.nodes → (∀ a ∈ A, lt a.2 k = true) ∧ (∀ b ∈ B, lt k b.2 = true)) → Q (hdr, true) w')
    (hok : ∀ w' a t' A B, ¬ Refused w → Ext w w' → w'.nCmp ≤ w.nCmp + t.height + 2 → w'.err = none → Fresh w w' (.dyn a) →
      Tree w'.heap hdr o t' → t.nodes = A ++ B → t'.nodes = A ++ (.dyn a, k) :: B →
      (SWO lt → WSorted lt t.nodes → (∀ a ∈ A, lt a.2 k = true) ∧ (∀ b ∈ B, lt k b.2 = true)) →
      (∀ q, q ≠ hdr → q ∉ t'.ptrs → w'.heap q = w.heap q) → Q (.dyn a, true) w') :
    wp (insertUnique lt hdr k) w Q := by
  unfold insertUnique
  rw [wp_bind]
  refine wp_getInsertUniquePos h ?_ ?_
  · intro ctx n hpl hpath hn hlast
    have hnod : t.nodes = pre ctx ++ post ctx := by rw [← hpl, plug_nodes]; simp [T.nodes]
    have hpn : par hdr ctx ≠ .null := by
      cases ctx with
      | nil => exact h.hdr_ne
      | cons f fs => rw [← hpl] at h; exact h.toZ.par_ne_null
    have hcut : SWO lt → WSorted lt t.nodes → (∀ a ∈ pre ctx, lt a.2 k = true) ∧ (∀ b ∈ post ctx, lt k b.2 = true) := by
      intro hs hsort
      rw [hnod] at hsort
      refine ⟨?_, (hpath.wcut hs hsort).2⟩
      intro a ha
      rcases List.eq_nil_or_concat (pre ctx) with h0 | ⟨A, x, h0⟩
      · rw [h0] at ha; simp at ha
      · rw [List.concat_eq_append] at h0
        have hx := hlast A x h0
        rw [h0] at ha hsort
        simp only [List.mem_append, List.mem_singleton] at ha
        rcases ha with ha | rfl
        · refine hs.lt_of_le_lt ?_ hx
          simp only [WSorted, List.pairwise_append] at hsort
          exact hsort.1.2.2 a ha x (by simp)
        · exact hx
    simp only [ne_eq, hpn, not_false_eq_true, if_true, wp_bind, wp_pure, wp_ite]
    refine wp_insert_ (w := w.addCmp n) (o := o) (by rw [hpl]; exact h) hpath herr ?_ ?_
    · intro w' e hrf he hc hh hw
      exact hfail w' e _ _ hrf ((Ext.addCmp w n).trans he) (by simp at hc; omega) hh hw hnod hcut
    · intro w' a t' hnr he hc hw ha ht' hn' hfr
      exact hok w' a t' _ _ hnr ((Ext.addCmp w n).trans he) (by simp at hc; omega) hw ⟨ha.none, ha.req⟩ ht' hnod hn' hcut hfr
  · intro ctx n A p k' hpl hpath hn hA hlt
    have hnod : t.nodes = pre ctx ++ post ctx := by rw [← hpl, plug_nodes]; simp [T.nodes]
    simp only [ne_eq, not_true, if_false, wp_pure]
    refine hold n A p k' (post ctx) (by rw [hnod, hA]; simp) hlt hn ?_
    intro hs hsort
    rw [hnod] at hsort
    exact (hpath.wcut hs hsort).1 (p, k') (by rw [hA]; simp)

end
end Nestl.RB
