import Verif.RBTree.ModelEqual
import Verif.RBTree.HintOps
set_option autoImplicit false
/-
Insertion next to equivalent elements: where the new element goes.
-/
namespace Nestl.RB
variable {K : Type}

/-- `k` may stand between `A` and `B`. -/
def WCut (lt : K → K → Bool) (k : K) (A B : List (Ptr × K)) : Prop :=
  (∀ a ∈ A, lt k a.2 = false) ∧ ∀ b ∈ B, lt b.2 k = false

/-- `A ++ B` is the place for `k` nearest to the gap between `A0` and `B0`. -/
def Near (lt : K → K → Bool) (k : K) (A0 B0 A B : List (Ptr × K)) : Prop :=
  WCut lt k A B ∧ (WCut lt k A0 B0 → A = A0 ∧ B = B0) ∧
  ((∃ a ∈ A0, lt k a.2 = true) → UCut lt k A B) ∧ ((∃ b ∈ B0, lt b.2 k = true) → LCut lt k A B)

section
variable {hdr : Ptr} {w : W K} {ctx : Ctx K} {t : T K} {o : Nat} {lt : K → K → Bool} {k : K} {pos x : Ptr}
  {A B A0 B0 : List (Ptr × K)}

theorem UCut.weak (hs : SWO lt) (h : UCut lt k A B) : WCut lt k A B := ⟨h.1, fun b hb => hs.asymm (h.2 b hb)⟩

theorem LCut.weak (hs : SWO lt) (h : LCut lt k A B) : WCut lt k A B := ⟨fun a ha => hs.asymm (h.1 a ha), h.2⟩

theorem UCut.unique {A' B' : List (Ptr × K)} (h : UCut lt k A B) (h' : UCut lt k A' B')
    (e : A ++ B = A' ++ B') : A = A' ∧ B = B' := by
  have key : ∀ {A B A' B' : List (Ptr × K)}, UCut lt k A B → UCut lt k A' B' → (∃ m, A' = A ++ m ∧ B = m ++ B') →
      A = A' ∧ B = B' := by
    rintro A B A' B' h h' ⟨m, rfl, rfl⟩
    cases m with
    | nil => simp
    | cons x m =>
      have h1 := h.2 x (by simp)
      have h2 := h'.1 x (by simp)
      rw [h1] at h2; cases h2
  rcases List.append_eq_append_iff.1 e with ⟨m, h1, h2⟩ | ⟨m, h1, h2⟩
  · exact key h h' ⟨m, h1, h2⟩
  · obtain ⟨e1, e2⟩ := key h' h ⟨m, h1, h2⟩
    exact ⟨e1.symm, e2.symm⟩

/-- The descent of the lower insertion takes the right branch exactly where the key is smaller than `k`. -/
def LPath (lt : K → K → Bool) (k : K) (ctx : Ctx K) : Prop := ∀ f ∈ ctx, lt f.k k = decide (f.s = .R)

theorem LPath.cut (hs : SWO lt) (hp : LPath lt k ctx) (hsort : WSorted lt (pre ctx ++ post ctx)) :
    LCut lt k (pre ctx) (post ctx) := by
  induction ctx with
  | nil => simp [pre, post, LCut]
  | cons f fs ih =>
    have h1 := hp f (by simp)
    have h2 : LPath lt k fs := fun g hg => hp g (by simp [hg])
    rcases f with ⟨_ | _, p, c, kf, sib⟩
    · simp only [pre, post, List.cons_append] at hsort h1 ⊢
      simp only [reduceCtorEq, decide_false] at h1
      simp only [WSorted, List.pairwise_append, List.pairwise_cons, List.mem_append, List.mem_cons] at hsort ih
      have ih' := ih h2 (by grind)
      refine ⟨ih'.1, ?_⟩
      intro b hb
      simp only [List.mem_cons, List.mem_append] at hb
      rcases hb with rfl | hb | hb
      · exact h1
      · exact hs.le_trans h1 (by grind)
      · exact ih'.2 b hb
    · simp only [pre, post] at hsort h1 ⊢
      simp only [decide_true] at h1
      simp only [WSorted, List.pairwise_append, List.pairwise_cons, List.mem_append, List.mem_cons] at hsort ih
      have ih' := ih h2 (by grind)
      refine ⟨?_, ih'.2⟩
      intro a ha
      simp only [List.mem_cons, List.mem_append, List.not_mem_nil, or_false] at ha
      rcases ha with (ha | ha) | rfl
      · exact ih'.1 a ha
      · exact hs.lt_of_le_lt (hsort.1.2.2 a (Or.inr ha) (p, kf) (Or.inl rfl)) h1
      · exact h1

theorem wp_lowerDescend {Q : Ptr → W K → Prop} (h : Tree w.heap hdr o (plug ctx t)) (hp : LPath lt k ctx)
    (hQ : ∀ ctx' n, plug ctx' .nil = plug ctx t → LPath lt k ctx' → n ≤ t.height → Q (par hdr ctx') (w.addCmp n)) :
    wp (lowerDescend lt k t.ptr (par hdr ctx)) w Q := by
  induction t generalizing ctx w with
  | nil =>
    rw [lowerDescend]
    simpa [T.ptr] using hQ ctx 0 rfl hp (Nat.zero_le _)
  | node p c l k' r ihl ihr =>
    rw [lowerDescend]
    have hpn := h.focus_ne
    have hc := h.focus
    simp only [T.ptr, ne_eq, hpn, not_false_eq_true, if_true, wp_bind, wp_keyOf hc hpn (cellS_val ..), wp_cmp]
    rw [wp_rd (by exact hc) hpn]
    simp only [cellS]
    cases hl : lt k' k
    · have := ihl (w := w.addCmp 1) (ctx := ⟨.L, p, c, k', r⟩ :: ctx) (by exact h) ?_ ?_
      · simpa using this
      · intro f hf
        simp only [List.mem_cons] at hf
        rcases hf with rfl | hf
        · simp [hl]
        · exact hp f hf
      · intro ctx' n h1 h2 h3
        rw [World.addCmp_addCmp]
        exact hQ ctx' _ h1 h2 (by simp only [T.height]; omega)
    · have := ihr (w := w.addCmp 1) (ctx := ⟨.R, p, c, k', l⟩ :: ctx) (by exact h) ?_ ?_
      · simpa using this
      · intro f hf
        simp only [List.mem_cons] at hf
        rcases hf with rfl | hf
        · simp [hl]
        · exact hp f hf
      · intro ctx' n h1 h2 h3
        rw [World.addCmp_addCmp]
        exact hQ ctx' _ h1 h2 (by simp only [T.height]; omega)

/-- `m_insert_node` with the result `(x, parent)` of a search links on the side of the hole. -/
def HoleSide (lt : K → K → Bool) (k : K) (ctx : Ctx K) (x : Ptr) : Prop :=
  (x ≠ .null → isL ctx = true) ∧ (x = .null → ∀ f fs, ctx = f :: fs → lt k f.k = isL ctx)

/-- The search for the upper position. -/
theorem wp_getInsertEqualPos {Q : Ptr × Ptr → W K → Prop} (h : Tree w.heap hdr o t)
    (hQ : ∀ ctx n, plug ctx .nil = t → HoleSide lt k ctx .null → (SWO lt → WSorted lt t.nodes → UCut lt k (pre ctx) (post ctx)) →
      n ≤ t.height → Q (.null, par hdr ctx) (w.addCmp n)) :
    wp (getInsertEqualPos lt hdr k) w Q := by
  unfold getInsertEqualPos
  simp only [wp_bind]
  rw [wp_rd h.cell h.hdr_ne]
  simp only [hdCell]
  refine wp_insDescend (ctx := []) (t := t) (by exact h) (by intro f hf; simp at hf) ?_
  rintro ctx n hpl hpath hn
  simp only [plug] at hpl
  simp only [wp_pure]
  refine hQ ctx n hpl ⟨by simp, ?_⟩ ?_ hn
  · rintro - f fs rfl
    rw [hpath f (by simp)]; rfl
  · intro hs hsort
    rw [hole_nodes hpl] at hsort
    exact hpath.wcut hs hsort

/-- Linking a new node into a hole. -/
theorem wp_link {Q : Ptr → W K → Prop} {H : Ptr → Option (TNode K)} {a : Nat} {c : TNode K} (h : Tree H hdr o (plug ctx .nil))
    (hw : w.heap = upd H (.dyn a) (some c)) (hnone : H (.dyn a) = none) (hv : c.val = some k) (ho : c.owner = o)
    (hcnt : c.count = 0)
    (hQ : ∀ H' t', Tree H' hdr o t' → t'.nodes = pre ctx ++ (.dyn a, k) :: post ctx →
      (∀ q, q ≠ hdr → q ∉ t'.ptrs → H' q = H q) → Q (.dyn a) (w.setHeap H')) :
    wp (link hdr (par hdr ctx) (isL ctx) (.dyn a)) w Q := by
  unfold link
  rw [wp_bind]
  have hw' : w = (w.setHeap H).setHeap w.heap := rfl
  rw [hw']
  refine wp_insertAndRebalance (o := o) (w := w.setHeap H) (ctx := ctx) (by exact h) _ hw hnone hv ho hcnt ?_
  intro H' t' ht' hcell hnod hfr
  have hlen : (pre ctx ++ post ctx).length + 1 = t'.nodes.length := by rw [hnod]; simp; omega
  unfold setCount
  rw [wp_bind, wp_modCell (by exact hcell) h.hdr_ne]
  simp only [World.setHeap_heap, World.setHeap_setHeap, wp_pure]
  refine hQ _ t' ?_ hnod ?_
  · have : ({ hdCell ⟨firstP hdr t'.nodes, lastP hdr t'.nodes, o, (pre ctx ++ post ctx).length⟩ t'.ptr with count := (pre ctx ++ post ctx).length + 1 } : TNode K)
        = hdCell ⟨firstP hdr t'.nodes, lastP hdr t'.nodes, o, t'.nodes.length⟩ t'.ptr := by rw [← hlen]; rfl
    simp only [hdCell] at this ⊢
    rw [this]
    exact ht'
  · intro q h1 h2
    rw [upd_other _ _ h1]
    exact hfr q h1 h2

theorem wp_insertNode_side {Q : Ptr → W K → Prop} {z : Ptr} {c : TNode K} (h : Tree w.heap hdr o (plug ctx .nil))
    (hside : HoleSide lt k ctx x) (hz : w.heap z = some c) (hzn : z ≠ .null) (hv : c.val = some k)
    (hQ : ∀ m, m ≤ 1 → wp (link hdr (par hdr ctx) (isL ctx) z) (w.addCmp m) Q) :
    wp (insertNode lt hdr x (par hdr ctx) z) w Q := by
  unfold insertNode
  rw [wp_bind]
  by_cases hxn : x = .null
  · simp only [hxn, ne_eq, not_true, if_false]
    cases ctx with
    | nil =>
      simp only [par_nil, if_true, wp_pure]
      exact hQ 0 (by omega)
    | cons f fs =>
      have hne : ¬ f.p = hdr := h.toZ.par_ne_hdr
      have hcl := h.toZ.parCell
      simp only [par_cons, hne, if_false, wp_bind]
      rw [wp_keyOf hz hzn hv, wp_keyOf hcl h.toZ.par_ne_null (cellS_val ..), wp_cmp, hside.2 hxn f fs rfl]
      have := hQ 1 (by omega)
      unfold link at this
      simp only [wp_bind] at this
      exact this
  · simp only [ne_eq, hxn, not_false_eq_true, if_true, wp_pure]
    have := hQ 0 (by omega)
    rw [hside.1 hxn] at this
    exact this

theorem wp_insertLowerNode_side {Q : Ptr → W K → Prop} {z : Ptr} {c : TNode K} (h : Tree w.heap hdr o (plug ctx .nil))
    (hp : LPath lt k ctx) (hz : w.heap z = some c) (hzn : z ≠ .null) (hv : c.val = some k)
    (hQ : ∀ m, m ≤ 1 → wp (link hdr (par hdr ctx) (isL ctx) z) (w.addCmp m) Q) :
    wp (insertLowerNode lt hdr (par hdr ctx) z) w Q := by
  unfold insertLowerNode
  rw [wp_bind]
  cases ctx with
  | nil =>
    simp only [par_nil, if_true, wp_pure]
    exact hQ 0 (by omega)
  | cons f fs =>
    have hne : ¬ f.p = hdr := h.toZ.par_ne_hdr
    have hcl := h.toZ.parCell
    simp only [par_cons, hne, if_false, wp_bind]
    rw [wp_keyOf hcl h.toZ.par_ne_null (cellS_val ..), wp_keyOf hz hzn hv, wp_cmp, wp_pure]
    have := hQ 1 (by omega)
    unfold link at this
    simp only [wp_bind] at this
    have e : (!lt f.k k) = isL (f :: fs) := by
      rw [hp f (by simp)]
      rcases f with ⟨_ | _, p, c, kf, sib⟩ <;> rfl
    rw [e]
    exact this

theorem wp_insertEqualLowerNode {Q : Ptr → W K → Prop} {z : Ptr} {c : TNode K} (h : Tree w.heap hdr o t)
    (hz : w.heap z = some c) (hzn : z ≠ .null) (hv : c.val = some k)
    (hQ : ∀ ctx m, plug ctx .nil = t → m ≤ t.height + 1 → (SWO lt → WSorted lt t.nodes → LCut lt k (pre ctx) (post ctx)) →
      wp (link hdr (par hdr ctx) (isL ctx) z) (w.addCmp m) Q) :
    wp (insertEqualLowerNode lt hdr z) w Q := by
  unfold insertEqualLowerNode
  simp only [wp_bind]
  rw [wp_keyOf hz hzn hv, wp_rd h.cell h.hdr_ne]
  simp only [hdCell]
  refine wp_lowerDescend (ctx := []) (t := t) (by exact h) (by intro f hf; simp at hf) ?_
  intro ctx n hpl hpath hn
  simp only [plug] at hpl
  refine wp_insertLowerNode_side (o := o) (by rw [hpl]; exact h) hpath hz hzn hv ?_
  intro m hm
  rw [World.addCmp_addCmp]
  refine hQ ctx _ hpl (by omega) ?_
  intro hs hsort
  rw [hole_nodes hpl] at hsort
  exact hpath.cut hs hsort

theorem WSorted.le_mem {a b : Ptr × K} (hs : SWO lt) (h : WSorted lt (A ++ B)) (ha : a ∈ A) (hb : b ∈ B) : lt b.2 a.2 = false := by
  simp only [WSorted, List.pairwise_append] at h
  exact h.2.2 a ha b hb

/-- The search with a hint: the nearest place, or the order to insert at the lower position. -/
theorem wp_hintEqual_spec {Q : Ptr × Ptr → W K → Prop} (hs : SWO lt) (h : Tree w.heap hdr o t) (hsort : WSorted lt t.nodes)
    (hn0 : t.nodes = A0 ++ B0) (hpos : pos = firstP hdr B0)
    (hhole : ∀ ctx x n, plug ctx .nil = t → HoleSide lt k ctx x → Near lt k A0 B0 (pre ctx) (post ctx) → n ≤ t.height + 2 →
      (WCut lt k A0 B0 → n ≤ 2 ∨ t.nodes = []) → par hdr ctx ≠ .null → Q (x, par hdr ctx) (w.addCmp n))
    (hlow : (∃ b ∈ B0, lt b.2 k = true) → (∀ A B, t.nodes = A ++ B → LCut lt k A B → Near lt k A0 B0 A B) →
      Q (.null, .null) (w.addCmp 2)) :
    wp (getInsertHintEqualPos lt hdr pos k) w Q := by
  unfold getInsertHintEqualPos
  have hnd := h.nodup
  have hparn : ∀ {ctx : Ctx K}, plug ctx .nil = t → par hdr ctx ≠ .null := by
    intro ctx hpl
    cases ctx with
    | nil => exact h.hdr_ne
    | cons f fs => rw [← hpl] at h; exact h.toZ.par_ne_null
  -- the fallback from the root
  have fall : ∀ m, m ≤ 2 → (∃ a ∈ A0, lt k a.2 = true) → wp (getInsertEqualPos lt hdr k) (w.addCmp m) Q := by
    intro m hm hex
    refine wp_getInsertEqualPos (w := w.addCmp m) h ?_
    intro ctx n hpl hside hcut hn
    rw [World.addCmp_addCmp]
    have hu := hcut hs hsort
    obtain ⟨a, ha, hka⟩ := hex
    refine hhole ctx .null _ hpl hside ⟨hu.weak hs, ?_, fun _ => hu, ?_⟩ (by omega) ?_ (hparn hpl)
    · intro hw; rw [hw.1 a ha] at hka; cases hka
    · rintro ⟨b, hb, hbk⟩
      exfalso
      have h1 := WSorted.le_mem hs (hn0 ▸ hsort) ha hb
      rw [hs.trans _ _ _ hbk hka] at h1; cases h1
    · intro hw; rw [hw.1 a ha] at hka; cases hka
  cases B0 with
  | nil =>
    simp only [firstP_nil] at hpos
    subst hpos
    simp only [List.append_nil] at hn0
    simp only [if_true, wp_bind, size]
    rw [wp_rd h.cell h.hdr_ne]
    simp only [hdCell, wp_pure]
    rcases List.eq_nil_or_concat t.nodes with h0 | ⟨A, a, h0⟩
    · simp only [h0, List.length_nil, Nat.lt_irrefl, if_false]
      refine wp_getInsertEqualPos h ?_
      intro ctx n hpl hside hcut hn
      have hu := hcut hs hsort
      have e := hole_nodes hpl
      rw [h0] at e
      obtain ⟨e1, e2⟩ := List.append_eq_nil_iff.1 e.symm
      have e0 : A0 = [] := by rw [← hn0, h0]
      rw [e1, e2] at hu
      refine hhole ctx .null n hpl hside ?_ (by omega) (fun _ => Or.inr h0) (hparn hpl)
      rw [e1, e2, e0]
      exact ⟨hu.weak hs, fun _ => ⟨rfl, rfl⟩, by simp, by simp⟩
    · rw [List.concat_eq_append] at h0
      have hlen : 0 < t.nodes.length := by rw [h0]; simp
      simp only [hlen, if_true, wp_bind]
      rw [wp_rd h.cell h.hdr_ne]
      have hl : lastP pos t.nodes = a.1 := by rw [h0]; simp
      simp only [hdCell, hl]
      rw [wp_keyOf_mem (A := A) (B := []) (k' := a.2) h h0]
      simp only [wp_cmp, wp_ite, wp_bind]
      have hA0 : A0 = A ++ [a] := by rw [← hn0, h0]
      cases hlt : lt k a.2
      · simp only [Bool.not_false, if_true]
        rw [wp_rd (by exact h.cell) h.hdr_ne]
        simp only [hdCell, hl, wp_pure]
        obtain ⟨ctx, e1, e2, e3⟩ := exists_hole (t := t) (A := A ++ [a]) (B := []) (by rw [h0]; simp)
        have hL := isL_false_of_post_nil e3 (by rw [e2]; simp)
        have hp := (isL_par_false (hdr := pos) hL).1
        rw [e2] at hp
        simp only [lastP_append_cons, lastP_nil] at hp
        rw [← hp]
        have hw : WCut lt k A0 [] := by
          refine ⟨?_, by simp⟩
          intro x hx
          rw [hA0] at hx
          simp only [List.mem_append, List.mem_singleton] at hx
          rcases hx with hx | rfl
          · refine hs.le_trans ?_ hlt
            rw [h0] at hsort
            exact WSorted.le_mem hs hsort hx (by simp)
          · exact hlt
        refine hhole ctx .null 1 e1 ⟨by simp, ?_⟩ ?_ (by omega) (fun _ => Or.inl (by omega)) (hparn e1)
        · rintro - f fs rfl
          rw [hL]
          rcases f with ⟨_ | _, p, c, kf, sib⟩
          · simp [isL] at hL
          · simp only [pre] at e2
            have := List.append_inj_right' e2 rfl
            simp only [List.cons.injEq, and_true] at this
            rw [← this] at hlt; exact hlt
        · rw [e2, e3, ← hA0]
          exact ⟨hw, fun _ => ⟨rfl, rfl⟩, (fun ⟨x, hx, hx2⟩ => by rw [hw.1 x hx] at hx2; cases hx2), by simp⟩
      · simp only [Bool.not_true, Bool.false_eq_true, if_false]
        exact fall 1 (by omega) ⟨a, by rw [hA0]; simp, hlt⟩
  | cons q B =>
    rcases q with ⟨q, kp⟩
    simp only [firstP_cons] at hpos
    subst hpos
    have hn := hn0
    obtain ⟨cp, hcp, hpn, hph⟩ := h.mem_cell hn
    rw [hn] at hnd
    simp only [hph, if_false, wp_bind]
    rw [wp_keyOf_mem h hn, wp_cmp, wp_ite]
    cases hlt : lt kp k
    · -- k ≤ pos
      have hB : ∀ b ∈ ((pos, kp) :: B : List (Ptr × K)), lt b.2 k = false := by
        intro b hb
        simp only [List.mem_cons] at hb
        rcases hb with rfl | hb
        · exact hlt
        · refine hs.le_trans hlt ?_
          rw [hn] at hsort
          simp only [WSorted, List.pairwise_append, List.pairwise_cons] at hsort
          exact hsort.2.1.1 b hb
      have hnob : ¬ ∃ b ∈ ((pos, kp) :: B : List (Ptr × K)), lt b.2 k = true := by
        rintro ⟨b, hb, hb2⟩; rw [hB b hb] at hb2; cases hb2
      simp only [Bool.not_false, if_true, wp_bind]
      rw [wp_rd (by exact h.cell) h.hdr_ne]
      simp only [hdCell, wp_ite]
      rcases List.eq_nil_or_concat A0 with h0 | ⟨A, b, h0⟩
      · subst h0
        have hl : firstP hdr t.nodes = pos := by rw [hn]; rfl
        simp only [hl, if_true, wp_bind]
        rw [wp_rd (by exact h.cell) h.hdr_ne]
        rw [wp_rd (by exact h.cell) h.hdr_ne]
        simp only [hdCell, hl, wp_pure]
        obtain ⟨ctx, e1, e2, e3⟩ := exists_hole (t := t) (A := []) (B := (pos, kp) :: B) (by rw [hn])
        have hL := isL_true_of_pre_nil e2
        have hp := (isL_par_true (hdr := hdr) hL).resolve_right (by rintro rfl; simp [post] at e3)
        rw [e3] at hp
        simp only [firstP_cons] at hp
        rw [show (pos, pos) = (pos, par hdr ctx) by rw [hp]]
        refine hhole ctx pos 1 e1 ⟨fun _ => hL, fun e => absurd e hpn⟩ ?_ (by omega) (fun _ => Or.inl (by omega)) (hparn e1)
        rw [e2, e3]
        exact ⟨⟨by simp, hB⟩, fun _ => ⟨rfl, rfl⟩, by simp, fun hb => absurd hb hnob⟩
      · rw [List.concat_eq_append] at h0
        subst h0
        have hl : ¬ pos = firstP hdr t.nodes := by
          rw [hn, firstP_append]
          intro e
          have hm := firstP_mem (d := firstP hdr ((pos, kp) :: B)) (L := A ++ [b]) (by simp)
          rw [← e] at hm
          simp only [List.map_append, List.map_cons, List.nodup_append] at hnd hm
          exact hnd.2.2 _ hm pos (by simp) rfl
        simp only [hl, if_false, wp_bind]
        refine wp_decrement' (w := w.addCmp 1) h hn (by simp) ?_
        simp only [lastP_append_cons, lastP_nil]
        have hnb : t.nodes = A ++ (b.1, b.2) :: ((pos, kp) :: B) := by rw [hn]; simp
        rw [wp_keyOf_mem (w := w.addCmp 1) h hnb, wp_cmp, World.addCmp_addCmp, wp_ite]
        cases hlt3 : lt k b.2
        · simp only [Bool.not_false, if_true, wp_bind]
          obtain ⟨cb, hcb, hbn, -⟩ := h.mem_cell hnb
          obtain ⟨ctx, e1, e2, e3⟩ := exists_hole (t := t) (A := A ++ [b]) (B := (pos, kp) :: B) hn
          have hA : ∀ a ∈ A ++ [b], lt k a.2 = false := by
            intro a ha
            simp only [List.mem_append, List.mem_singleton] at ha
            rcases ha with ha | rfl
            · refine hs.le_trans ?_ hlt3
              rw [hnb] at hsort
              exact WSorted.le_mem hs hsort ha (by simp)
            · exact hlt3
          have hnear : Near lt k (A ++ [b]) ((pos, kp) :: B) (pre ctx) (post ctx) := by
            rw [e2, e3]
            exact ⟨⟨hA, hB⟩, fun _ => ⟨rfl, rfl⟩, (fun ⟨a, ha, ha2⟩ => by rw [hA a ha] at ha2; cases ha2), fun hb => absurd hb hnob⟩
          have hL := hole_after h e1 e2 hcb
          rw [wp_rd (by exact hcb) hbn, wp_ite]
          by_cases hrn : cb.right = .null
          · have hL' : isL ctx = false := by rw [hL]; simp [hrn]
            have hp := (isL_par_false (hdr := hdr) hL').1
            rw [e2] at hp
            simp only [lastP_append_cons, lastP_nil] at hp
            simp only [hrn, if_true, wp_pure]
            rw [show (Ptr.null, b.1) = (Ptr.null, par hdr ctx) by rw [hp]]
            refine hhole ctx .null 2 e1 ⟨by simp, ?_⟩ hnear (by omega) (fun _ => Or.inl (by omega)) (hparn e1)
            rintro - f fs rfl
            rw [hL']
            rcases f with ⟨_ | _, p, c, kf, sib⟩
            · simp [isL] at hL'
            · simp only [pre] at e2
              have := List.append_inj_right' e2 rfl
              simp only [List.cons.injEq, and_true] at this
              rw [← this] at hlt3; exact hlt3
          · have hL' : isL ctx = true := by rw [hL]; simp [hrn]
            have hp := (isL_par_true (hdr := hdr) hL').resolve_right (by rintro rfl; simp [post] at e3)
            rw [e3] at hp
            simp only [firstP_cons] at hp
            simp only [hrn, if_false, wp_pure]
            rw [show (pos, pos) = (pos, par hdr ctx) by rw [hp]]
            exact hhole ctx pos 2 e1 ⟨fun _ => hL', fun e => absurd e hpn⟩ hnear (by omega) (fun _ => Or.inl (by omega)) (hparn e1)
        · simp only [Bool.not_true, Bool.false_eq_true, if_false]
          exact fall 2 (by omega) ⟨b, by simp, hlt3⟩
    · -- pos < k
      have hA : ∀ a ∈ A0 ++ [(pos, kp)], lt a.2 k = true := by
        intro a ha
        simp only [List.mem_append, List.mem_singleton] at ha
        rcases ha with ha | rfl
        · refine hs.lt_of_le_lt ?_ hlt
          rw [hn] at hsort
          exact WSorted.le_mem hs hsort ha (b := (pos, kp)) (by simp)
        · exact hlt
      have hnoa : ¬ ∃ a ∈ A0, lt k a.2 = true := by
        rintro ⟨a, ha, ha2⟩; rw [hs.asymm (hA a (by simp [ha]))] at ha2; cases ha2
      have hnow : ¬ WCut lt k A0 ((pos, kp) :: B) := by
        intro hw; have := hw.2 (pos, kp) (by simp); rw [hlt] at this; cases this
      have near : ∀ A' B', LCut lt k A' B' → Near lt k A0 ((pos, kp) :: B) A' B' := fun A' B' hl =>
        ⟨hl.weak hs, fun hw => absurd hw hnow, fun ha => absurd ha hnoa, fun _ => hl⟩
      simp only [Bool.not_true, Bool.false_eq_true, if_false, wp_bind]
      rw [wp_rd (by exact h.cell) h.hdr_ne]
      simp only [hdCell, wp_ite]
      cases B with
      | nil =>
        have hl : lastP hdr t.nodes = pos := by rw [hn]; simp
        simp only [hl, if_true, wp_bind]
        rw [wp_rd (by exact h.cell) h.hdr_ne]
        simp only [hdCell, hl, wp_pure]
        obtain ⟨ctx, e1, e2, e3⟩ := exists_hole (t := t) (A := A0 ++ [(pos, kp)]) (B := []) (by rw [hn]; simp)
        have hL := isL_false_of_post_nil e3 (by rw [e2]; simp)
        have hp := (isL_par_false (hdr := hdr) hL).1
        rw [e2] at hp
        simp only [lastP_append_cons, lastP_nil] at hp
        rw [show (Ptr.null, pos) = (Ptr.null, par hdr ctx) by rw [hp]]
        refine hhole ctx .null 1 e1 ⟨by simp, ?_⟩ ?_ (by omega) (fun hw => absurd hw hnow) (hparn e1)
        · rintro - f fs rfl
          rw [hL]
          rcases f with ⟨_ | _, p, c, kf, sib⟩
          · simp [isL] at hL
          · simp only [pre] at e2
            have := List.append_inj_right' e2 rfl
            simp only [List.cons.injEq, and_true, Prod.mk.injEq] at this
            rw [← this.2] at hlt; exact hs.asymm hlt
        · rw [e2, e3]
          exact near _ _ ⟨hA, by simp⟩
      | cons b B =>
        have hl : ¬ pos = lastP hdr t.nodes := by
          rw [hn]
          simp only [lastP_append_cons, lastP_cons]
          intro e
          have hm : lastP b.1 B ∈ (b :: B).map Prod.fst := by
            rcases List.eq_nil_or_concat B with rfl | ⟨B', x, rfl⟩
            · simp
            · simp
          rw [← e] at hm
          simp only [List.map_append, List.map_cons, List.nodup_append, List.nodup_cons] at hnd
          exact hnd.2.1.1 hm
        simp only [hl, if_false, wp_bind]
        refine wp_increment' (w := w.addCmp 1) h hn ?_
        simp only [firstP_cons]
        have hnb : t.nodes = (A0 ++ [(pos, kp)]) ++ (b.1, b.2) :: B := by rw [hn]; simp
        rw [wp_keyOf_mem (w := w.addCmp 1) h hnb, wp_cmp, World.addCmp_addCmp, wp_ite]
        cases hlt3 : lt b.2 k
        · simp only [Bool.not_false, if_true, wp_bind]
          obtain ⟨ctx, e1, e2, e3⟩ := exists_hole (t := t) (A := A0 ++ [(pos, kp)]) (B := b :: B) hnb
          have hnear : Near lt k A0 ((pos, kp) :: b :: B) (pre ctx) (post ctx) := by
            rw [e2, e3]
            refine near _ _ ⟨hA, ?_⟩
            intro x hx
            simp only [List.mem_cons] at hx
            rcases hx with rfl | hx
            · exact hlt3
            · refine hs.le_trans hlt3 ?_
              rw [hnb] at hsort
              simp only [WSorted, List.pairwise_append, List.pairwise_cons] at hsort
              exact hsort.2.1.1 x hx
          have hL := hole_after h e1 e2 hcp
          rw [wp_rd (by exact hcp) hpn, wp_ite]
          by_cases hrn : cp.right = .null
          · have hL' : isL ctx = false := by rw [hL]; simp [hrn]
            have hp := (isL_par_false (hdr := hdr) hL').1
            rw [e2] at hp
            simp only [lastP_append_cons, lastP_nil] at hp
            simp only [hrn, if_true, wp_pure]
            rw [show (Ptr.null, pos) = (Ptr.null, par hdr ctx) by rw [hp]]
            refine hhole ctx .null 2 e1 ⟨by simp, ?_⟩ hnear (by omega) (fun hw => absurd hw hnow) (hparn e1)
            rintro - f fs rfl
            rw [hL']
            rcases f with ⟨_ | _, p, c, kf, sib⟩
            · simp [isL] at hL'
            · simp only [pre] at e2
              have := List.append_inj_right' e2 rfl
              simp only [List.cons.injEq, and_true, Prod.mk.injEq] at this
              rw [← this.2] at hlt; exact hs.asymm hlt
          · have hL' : isL ctx = true := by rw [hL]; simp [hrn]
            have hp := (isL_par_true (hdr := hdr) hL').resolve_right (by rintro rfl; simp [post] at e3)
            rw [e3] at hp
            simp only [firstP_cons] at hp
            simp only [hrn, if_false, wp_pure]
            rw [show (b.1, b.1) = (b.1, par hdr ctx) by rw [hp]]
            obtain ⟨-, -, hbn, -⟩ := h.mem_cell hnb
            exact hhole ctx b.1 2 e1 ⟨fun _ => hL', fun e => absurd e hbn⟩ hnear (by omega) (fun hw => absurd hw hnow) (hparn e1)
        · simp only [Bool.not_true, Bool.false_eq_true, if_false, wp_pure]
          exact hlow ⟨(pos, kp), by simp, hlt⟩ (fun A' B' _ hl => near A' B' hl)

end
end Nestl.RB
