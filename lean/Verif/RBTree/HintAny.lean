import Verif.RBTree.EqualIns
set_option autoImplicit false
/-
Insertion with a hint for comparators that are merely asymmetric (not necessarily strict weak orders), in trees that may hold
equivalent elements.
-/
namespace Nestl.RB
variable {K : Type}

section
variable {hdr : Ptr} {w : W K} {ctx : Ctx K} {t : T K} {o : Nat} {lt : K → K → Bool} {k : K} {pos x : Ptr}
  {A B : List (Ptr × K)}

theorem WSorted.cut (hs : SWO lt) {a b : Ptr × K} (hsort : WSorted lt ((A ++ [a]) ++ b :: B))
    (h1 : lt a.2 k = true) (h2 : lt k b.2 = true) : Cut lt k (A ++ [a]) (b :: B) := by
  simp only [WSorted, List.pairwise_append, List.pairwise_cons, List.mem_append, List.mem_singleton] at hsort
  refine ⟨?_, ?_⟩
  · intro x hx
    simp only [List.mem_append, List.mem_singleton] at hx
    rcases hx with hx | rfl
    · exact hs.lt_of_le_lt (hsort.1.2.2 x hx a rfl) h1
    · exact h1
  · intro x hx
    simp only [List.mem_cons] at hx
    rcases hx with rfl | hx
    · exact h2
    · exact hs.lt_of_lt_le h2 (hsort.2.1.1 x hx)

theorem WSorted.cut_end (hs : SWO lt) {a : Ptr × K} (hsort : WSorted lt (A ++ [a])) (h1 : lt a.2 k = true) :
    Cut lt k (A ++ [a]) [] := by
  simp only [WSorted, List.pairwise_append] at hsort
  refine ⟨?_, by simp⟩
  intro x hx
  simp only [List.mem_append, List.mem_singleton] at hx
  rcases hx with hx | rfl
  · exact hs.lt_of_le_lt (hsort.2.2 x hx a (by simp)) h1
  · exact h1

theorem WSorted.cut_begin (hs : SWO lt) {b : Ptr × K} (hsort : WSorted lt (b :: B)) (h2 : lt k b.2 = true) :
    Cut lt k [] (b :: B) := by
  simp only [WSorted, List.pairwise_cons] at hsort
  refine ⟨by simp, ?_⟩
  intro x hx
  simp only [List.mem_cons] at hx
  rcases hx with rfl | hx
  · exact h2
  · exact hs.lt_of_lt_le h2 (hsort.1 x hx)

theorem Tree.par_ne_null {H : Ptr → Option (TNode K)} (h : Tree H hdr o t) (hpl : plug ctx .nil = t) : par hdr ctx ≠ .null := by
  cases ctx with
  | nil => exact h.hdr_ne
  | cons f fs => rw [← hpl] at h; exact h.toZ.par_ne_null

/-- The node before a right hole decides the side. -/
theorem holeSide_right {a : Ptr × K} (hL : isL ctx = false) (hp : pre ctx = A ++ [a]) (hlt : lt k a.2 = false) :
    HoleSide lt k ctx .null := by
  refine ⟨by simp, ?_⟩
  rintro - f fs rfl
  rw [hL]
  rcases f with ⟨_ | _, p, c, kf, sib⟩
  · simp [isL] at hL
  · simp only [pre] at hp
    have := List.append_inj_right' hp rfl
    simp only [List.cons.injEq, and_true] at this
    rw [← this] at hlt; exact hlt

/-- What a search for an insertion position delivers for any asymmetric comparator: at most `b` comparator calls; a hole and
the side on which the node will be linked, or an element that is not smaller than `k`.  For strict weak orders and sorted trees
the hole is where `k` belongs, and the element is equivalent to `k`. -/
structure Finds (w : W K) (lt : K → K → Bool) (hdr : Ptr) (t : T K) (k : K) (b : Nat) (Q : Ptr × Ptr → W K → Prop) : Prop where
  hole : ∀ ctx x n, plug ctx .nil = t → HoleSide lt k ctx x →
    (SWO lt → WSorted lt t.nodes → Cut lt k (pre ctx) (post ctx)) → n ≤ b → Q (x, par hdr ctx) (w.addCmp n)
  old : ∀ A p k' B n, t.nodes = A ++ (p, k') :: B → lt k' k = false →
    (SWO lt → WSorted lt t.nodes → lt k k' = false) → n ≤ b → Q (p, .null) (w.addCmp n)

/-- The search from the root. -/
theorem wp_unique_any {Q : Ptr × Ptr → W K → Prop} (h : Tree w.heap hdr o t) (hQ : Finds w lt hdr t k (t.height + 1) Q) :
    wp (getInsertUniquePos lt hdr k) w Q := by
  refine wp_getInsertUniquePos h ?_ ?_
  · intro ctx n hpl hpath hn hlast
    refine hQ.hole ctx .null n hpl ⟨by simp, ?_⟩ ?_ hn
    · rintro - f fs rfl
      rw [hpath f (by simp)]; rfl
    · intro hs hsort
      rw [hole_nodes hpl] at hsort
      refine ⟨?_, (hpath.wcut hs hsort).2⟩
      intro a ha
      rcases List.eq_nil_or_concat (pre ctx) with h0 | ⟨A, x, h0⟩
      · rw [h0] at ha; simp at ha
      · rw [List.concat_eq_append] at h0
        have hx := hlast A x h0
        rw [h0] at ha hsort
        simp only [List.mem_append, List.mem_singleton] at ha
        rcases ha with ha | rfl
        · refine hs.lt_of_le_lt ?_ hx
          simp only [WSorted, List.pairwise_append] at hsort
          exact hsort.1.2.2 a ha x (by simp)
        · exact hx
  · intro ctx n A p k' hpl hpath hn hA hlt
    refine hQ.old A p k' (post ctx) n (by rw [hole_nodes hpl, hA]; simp) hlt ?_ hn
    intro hs hsort
    rw [hole_nodes hpl] at hsort
    exact (hpath.wcut hs hsort).1 (p, k') (by rw [hA]; simp)

/-- The search with a hint. -/
theorem wp_hint_any {Q : Ptr × Ptr → W K → Prop} (has : ∀ a, lt a k = true → lt k a = false) (h : Tree w.heap hdr o t)
    (hpos : HintOk hdr pos t.nodes) (hQ : Finds w lt hdr t k (t.height + 4) Q) :
    wp (getInsertHintUniquePos lt hdr pos k) w Q := by
  unfold getInsertHintUniquePos
  have hnd := h.nodup
  have fall : ∀ m, m ≤ 3 → wp (getInsertUniquePos lt hdr k) (w.addCmp m) Q := by
    intro m hm
    refine wp_unique_any (w := w.addCmp m) h ⟨?_, ?_⟩
    · intro ctx x n h1 h2 h3 h4
      rw [World.addCmp_addCmp]
      exact hQ.hole ctx x _ h1 h2 h3 (by omega)
    · intro A p k' B n h1 h2 h3 h4
      rw [World.addCmp_addCmp]
      exact hQ.old A p k' B _ h1 h2 h3 (by omega)
  rcases hpos with rfl | ⟨kp, hmem⟩
  · simp only [if_true, wp_bind, size]
    rw [wp_rd h.cell h.hdr_ne]
    simp only [hdCell, wp_pure]
    rcases List.eq_nil_or_concat t.nodes with h0 | ⟨A, a, h0⟩
    · simp only [h0, List.length_nil, Nat.lt_irrefl, if_false]
      exact fall 0 (by omega)
    · rw [List.concat_eq_append] at h0
      have hlen : 0 < t.nodes.length := by rw [h0]; simp
      simp only [hlen, if_true, wp_bind]
      rw [wp_rd h.cell h.hdr_ne]
      have hl : lastP pos t.nodes = a.1 := by rw [h0]; simp
      simp only [hdCell, hl]
      rw [wp_keyOf_mem (A := A) (B := []) (k' := a.2) h h0]
      simp only [wp_cmp, wp_ite, wp_bind]
      cases hlt : lt a.2 k
      · simp only [Bool.false_eq_true, if_false]
        exact fall 1 (by omega)
      · simp only [if_true]
        rw [wp_rd (by exact h.cell) h.hdr_ne]
        simp only [hdCell, hl, wp_pure]
        obtain ⟨ctx, e1, e2, e3⟩ := exists_hole (t := t) (A := A ++ [a]) (B := []) (by rw [h0]; simp)
        have hL := isL_false_of_post_nil e3 (by rw [e2]; simp)
        have hp := (isL_par_false (hdr := pos) hL).1
        rw [e2] at hp
        simp only [lastP_append_cons, lastP_nil] at hp
        rw [← hp]
        refine hQ.hole ctx .null 1 e1 (holeSide_right hL e2 (has _ hlt)) ?_ (by omega)
        intro hs hsort
        rw [e2, e3]
        exact WSorted.cut_end hs (by rw [← h0]; exact hsort) hlt
  · obtain ⟨A, B, hn⟩ := List.append_of_mem hmem
    obtain ⟨cp, hcp, hpn, hph⟩ := h.mem_cell hn
    rw [hn] at hnd
    simp only [hph, if_false, wp_bind]
    rw [wp_keyOf_mem h hn, wp_cmp, wp_ite]
    cases hlt : lt k kp
    · simp only [Bool.false_eq_true, if_false, wp_bind]
      rw [wp_keyOf_mem (w := w.addCmp 1) h hn, wp_cmp, World.addCmp_addCmp, wp_ite]
      cases hlt2 : lt kp k
      · simp only [Bool.false_eq_true, if_false, wp_pure]
        exact hQ.old A pos kp B 2 hn hlt2 (fun _ _ => hlt) (by omega)
      · simp only [if_true, wp_bind]
        rw [wp_rd (by exact h.cell) h.hdr_ne]
        simp only [hdCell, wp_ite]
        cases B with
        | nil =>
          have hl : lastP hdr t.nodes = pos := by rw [hn]; simp
          simp only [hl, if_true, wp_bind]
          rw [wp_rd (by exact h.cell) h.hdr_ne]
          simp only [hdCell, hl, wp_pure]
          obtain ⟨ctx, e1, e2, e3⟩ := exists_hole (t := t) (A := A ++ [(pos, kp)]) (B := []) (by rw [hn]; simp)
          have hL := isL_false_of_post_nil e3 (by rw [e2]; simp)
          have hp := (isL_par_false (hdr := hdr) hL).1
          rw [e2] at hp
          simp only [lastP_append_cons, lastP_nil] at hp
          rw [show (Ptr.null, pos) = (Ptr.null, par hdr ctx) by rw [hp]]
          refine hQ.hole ctx .null 2 e1 (holeSide_right hL e2 hlt) ?_ (by omega)
          intro hs hsort
          rw [e2, e3]
          exact WSorted.cut_end hs (by rw [← hn]; exact hsort) hlt2
        | cons b B =>
          have hl : ¬ pos = lastP hdr t.nodes := by
            rw [hn]
            simp only [lastP_append_cons, lastP_cons]
            intro e
            have hm : lastP b.1 B ∈ (b :: B).map Prod.fst := by
              rcases List.eq_nil_or_concat B with rfl | ⟨B', x, rfl⟩
              · simp
              · simp
            rw [← e] at hm
            simp only [List.map_append, List.map_cons, List.nodup_append, List.nodup_cons] at hnd
            exact hnd.2.1.1 hm
          simp only [hl, if_false, wp_bind]
          refine wp_increment' (w := w.addCmp 2) h hn ?_
          simp only [firstP_cons]
          have hnb : t.nodes = (A ++ [(pos, kp)]) ++ (b.1, b.2) :: B := by rw [hn]; simp
          rw [wp_keyOf_mem (w := w.addCmp 2) h hnb, wp_cmp, World.addCmp_addCmp, wp_ite]
          cases hlt3 : lt k b.2
          · simp only [Bool.false_eq_true, if_false]
            exact fall 3 (by omega)
          · simp only [if_true, wp_bind]
            obtain ⟨ctx, e1, e2, e3⟩ := exists_hole (t := t) (A := A ++ [(pos, kp)]) (B := b :: B) hnb
            have hcut : SWO lt → WSorted lt t.nodes → Cut lt k (pre ctx) (post ctx) := by
              intro hs hsort
              rw [e2, e3]; exact WSorted.cut hs (by rw [← hnb]; exact hsort) hlt2 hlt3
            have hL := hole_after h e1 e2 hcp
            rw [wp_rd (by exact hcp) hpn, wp_ite]
            by_cases hrn : cp.right = .null
            · have hL' : isL ctx = false := by rw [hL]; simp [hrn]
              have hp := (isL_par_false (hdr := hdr) hL').1
              rw [e2] at hp
              simp only [lastP_append_cons, lastP_nil] at hp
              simp only [hrn, if_true, wp_pure]
              rw [show (Ptr.null, pos) = (Ptr.null, par hdr ctx) by rw [hp]]
              exact hQ.hole ctx .null 3 e1 (holeSide_right hL' e2 hlt) hcut (by omega)
            · have hL' : isL ctx = true := by rw [hL]; simp [hrn]
              have hp := (isL_par_true (hdr := hdr) hL').resolve_right (by rintro rfl; simp [post] at e3)
              rw [e3] at hp
              simp only [firstP_cons] at hp
              simp only [hrn, if_false, wp_pure]
              rw [show (b.1, b.1) = (b.1, par hdr ctx) by rw [hp]]
              obtain ⟨_, _, hbn, -⟩ := h.mem_cell hnb
              exact hQ.hole ctx b.1 3 e1 ⟨fun _ => hL', fun e => absurd e hbn⟩ hcut (by omega)
    · simp only [if_true, wp_bind]
      rw [wp_rd (by exact h.cell) h.hdr_ne]
      simp only [hdCell, wp_ite]
      rcases List.eq_nil_or_concat A with h0 | ⟨A, b, h0⟩
      · subst h0
        have hl : firstP hdr t.nodes = pos := by rw [hn]; rfl
        simp only [hl, if_true, wp_bind]
        rw [wp_rd (by exact h.cell) h.hdr_ne]
        rw [wp_rd (by exact h.cell) h.hdr_ne]
        simp only [hdCell, hl, wp_pure]
        obtain ⟨ctx, e1, e2, e3⟩ := exists_hole (t := t) (A := []) (B := (pos, kp) :: B) (by rw [hn])
        have hL := isL_true_of_pre_nil e2
        have hp := (isL_par_true (hdr := hdr) hL).resolve_right (by rintro rfl; simp [post] at e3)
        rw [e3] at hp
        simp only [firstP_cons] at hp
        rw [show (pos, pos) = (pos, par hdr ctx) by rw [hp]]
        refine hQ.hole ctx pos 1 e1 ⟨fun _ => hL, fun e => absurd e hpn⟩ ?_ (by omega)
        intro hs hsort
        rw [e2, e3]
        exact WSorted.cut_begin hs (by rw [hn] at hsort; exact hsort) hlt
      · rw [List.concat_eq_append] at h0
        subst h0
        have hl : ¬ pos = firstP hdr t.nodes := by
          rw [hn, firstP_append]
          intro e
          have hm := firstP_mem (d := firstP hdr ((pos, kp) :: B)) (L := A ++ [b]) (by simp)
          rw [← e] at hm
          simp only [List.map_append, List.map_cons, List.nodup_append] at hnd hm
          exact hnd.2.2 _ hm pos (by simp) rfl
        simp only [hl, if_false, wp_bind]
        refine wp_decrement' (w := w.addCmp 1) h hn (by simp) ?_
        simp only [lastP_append_cons, lastP_nil]
        have hnb : t.nodes = A ++ (b.1, b.2) :: ((pos, kp) :: B) := by rw [hn]; simp
        rw [wp_keyOf_mem (w := w.addCmp 1) h hnb, wp_cmp, World.addCmp_addCmp, wp_ite]
        cases hlt3 : lt b.2 k
        · simp only [Bool.false_eq_true, if_false]
          exact fall 2 (by omega)
        · simp only [if_true, wp_bind]
          obtain ⟨cb, hcb, hbn, -⟩ := h.mem_cell hnb
          obtain ⟨ctx, e1, e2, e3⟩ := exists_hole (t := t) (A := A ++ [b]) (B := (pos, kp) :: B) hn
          have hcut : SWO lt → WSorted lt t.nodes → Cut lt k (pre ctx) (post ctx) := by
            intro hs hsort
            rw [e2, e3]; exact WSorted.cut hs (by rw [← hn]; exact hsort) hlt3 hlt
          have hL := hole_after h e1 e2 hcb
          rw [wp_rd (by exact hcb) hbn, wp_ite]
          by_cases hrn : cb.right = .null
          · have hL' : isL ctx = false := by rw [hL]; simp [hrn]
            have hp := (isL_par_false (hdr := hdr) hL').1
            rw [e2] at hp
            simp only [lastP_append_cons, lastP_nil] at hp
            simp only [hrn, if_true, wp_pure]
            rw [show (Ptr.null, b.1) = (Ptr.null, par hdr ctx) by rw [hp]]
            exact hQ.hole ctx .null 2 e1 (holeSide_right hL' e2 (has _ hlt3)) hcut (by omega)
          · have hL' : isL ctx = true := by rw [hL]; simp [hrn]
            have hp := (isL_par_true (hdr := hdr) hL').resolve_right (by rintro rfl; simp [post] at e3)
            rw [e3] at hp
            simp only [firstP_cons] at hp
            simp only [hrn, if_false, wp_pure]
            rw [show (pos, pos) = (pos, par hdr ctx) by rw [hp]]
            exact hQ.hole ctx pos 2 e1 ⟨fun _ => hL', fun e => absurd e hpn⟩ hcut (by omega)

/-! ### Insertion -/

theorem wp_insert_side {Q : Ptr → W K → Prop} (h : Tree w.heap hdr o (plug ctx .nil)) (hside : HoleSide lt k ctx x)
    (hQ : ∀ m, m ≤ 1 → wp (finish hdr (par hdr ctx) (isL ctx) k) (w.addCmp m) Q) :
    wp (insert_ lt hdr x (par hdr ctx) k) w Q := by
  unfold insert_
  rw [wp_bind]
  by_cases hxn : x = .null
  · simp only [hxn, ne_eq, not_true, if_false]
    cases ctx with
    | nil =>
      simp only [par_nil, if_true, wp_pure]
      exact hQ 0 (by omega)
    | cons f fs =>
      have hne : ¬ f.p = hdr := h.toZ.par_ne_hdr
      have hcl := h.toZ.parCell
      simp only [par_cons, hne, if_false, wp_bind]
      rw [wp_keyOf hcl h.toZ.par_ne_null (cellS_val ..), wp_cmp, hside.2 hxn f fs rfl]
      have := hQ 1 (by omega)
      unfold finish link at this
      simp only [wp_bind] at this
      exact this
  · simp only [ne_eq, hxn, not_false_eq_true, if_true, wp_pure]
    have := hQ 0 (by omega)
    rw [hside.1 hxn] at this
    exact this

/-- What the insertion of a key that may be present does. -/
structure Places (w : W K) (lt : K → K → Bool) (hdr : Ptr) (o : Nat) (t : T K) (k : K) (b : Nat)
    (Q : Ptr × Bool → W K → Prop) : Prop where
  fail : ∀ w' e, Refused w → Ext w w' → w'.heap = w.heap → w'.err = some e → w'.nCmp ≤ w.nCmp + b → Q (hdr, false) w'
  old : ∀ w' A p k' B, t.nodes = A ++ (p, k') :: B → lt k' k = false → (SWO lt → WSorted lt t.nodes → lt k k' = false) →
    Ext w w' → w'.heap = w.heap → w'.err = none → w'.nCmp ≤ w.nCmp + b → Q (p, false) w'
  new : ∀ w' a t' A B, ¬ Refused w → Ext w w' → w'.nCmp ≤ w.nCmp + b → w'.err = none → Fresh w w' (.dyn a) →
    Tree w'.heap hdr o t' → t.nodes = A ++ B → t'.nodes = A ++ (.dyn a, k) :: B → (SWO lt → WSorted lt t.nodes → Cut lt k A B) →
    (∀ q, q ≠ hdr → q ∉ t'.ptrs → w'.heap q = w.heap q) → Q (.dyn a, true) w'

theorem finish_eq (hdr p : Ptr) (b : Bool) (k : K) : finish hdr p b k = withNode hdr k (link hdr p b) := rfl

/-- `m_insert_unique_at` for any asymmetric comparator. -/
theorem wp_insertUniqueAt_any {Q : Ptr → W K → Prop} (has : ∀ a, lt a k = true → lt k a = false) (h : Tree w.heap hdr o t)
    (hpos : HintOk hdr pos t.nodes) (herr : w.err = none)
    (hQ : Places w lt hdr o t k (t.height + 5) (fun r w' => Q r.1 w')) : wp (insertUniqueAt lt hdr pos k) w Q := by
  unfold insertUniqueAt
  rw [wp_bind]
  refine wp_hint_any has h hpos ⟨?_, ?_⟩
  · intro ctx x n hpl hside hcut hn
    simp only [ne_eq, h.par_ne_null hpl, not_false_eq_true, if_true]
    refine wp_insert_side (w := w.addCmp n) (o := o) (by rw [hpl]; exact h) hside ?_
    intro m hm
    rw [World.addCmp_addCmp, finish_eq]
    refine wp_withNode (w := w.addCmp (n + m)) (b := 0) (C := fun A B _ => A = pre ctx ∧ B = post ctx) (t := t) (o := o) h herr ?_ ⟨?_, ?_⟩
    · intro w1 a c hT hz hv Q hk
      exact hk ctx 0 hpl (by omega) ⟨rfl, rfl⟩
    · intro w' e h1 h2 h3 h4 h5
      exact hQ.fail w' e h1 ((Ext.addCmp w _).trans h2) h3 h4 (by simp at h5; omega)
    · rintro w' a t' A B m' h1 h2 h3 h4 h5 h6 h7 h8 h9 ⟨rfl, rfl⟩ h11
      exact hQ.new w' a t' _ _ h1 ((Ext.addCmp w _).trans h2) (by simp at h3; omega) h5 ⟨h6.none, h6.req⟩ h7 h8 h9 hcut h11
  · intro A p k' B n h1 h2 h3 h4
    simp only [ne_eq, not_true, if_false, wp_pure]
    exact hQ.old _ A p k' B h1 h2 h3 (Ext.addCmp w n) rfl herr (by simp; omega)

/-- Emplacement with a search that meets `Finds`. -/
theorem wp_emplaceWith {Q : Ptr × Bool → W K → Prop} {S : K → M (W K) (Ptr × Ptr)} {b : Nat} (h : Tree w.heap hdr o t)
    (herr : w.err = none)
    (hS : ∀ (w1 : W K), Tree w1.heap hdr o t → ∀ Q : Ptr × Ptr → W K → Prop, Finds w1 lt hdr t k b Q → wp (S k) w1 Q)
    (hQ : Places w lt hdr o t k (b + 1) Q) : wp (emplaceWith lt hdr S k) w Q := by
  unfold emplaceWith
  rw [wp_bind]
  refine wp_createNode h.cell h.ok.hdr herr ?_ ?_
  · intro w' e hr he hc hh hw
    simp only [wp_bind, wp_hasErr, hw, Option.isSome_some, if_true, wp_pure]
    exact hQ.fail w' e hr he hh hw (by omega)
  · intro a c w' hr hf he hc hh hv ho hcnt hw
    simp only [wp_bind, wp_hasErr, hw, Option.isSome_none, Bool.false_eq_true, if_false]
    have hz : w'.heap (.dyn a) = some c := by rw [hh]; simp
    have hT : Tree w'.heap hdr o t := by
      refine h.congr ?_ ?_
      · rw [hh, upd_other]
        obtain ⟨i, rfl⟩ := h.ok.hdr; simp
      · intro q hq
        rw [hh, upd_other]
        rintro rfl
        obtain ⟨c', hc', -⟩ := Rep_alloc h.rep _ hq
        rw [hf.none] at hc'; cases hc'
    rw [wp_keyOf hz (by simp) hv]
    refine hS w' hT _ ⟨?_, ?_⟩
    · intro ctx x n hpl hside hcut hn
      simp only [ne_eq, h.par_ne_null hpl, not_false_eq_true, if_true, wp_bind]
      refine wp_insertNode_side (o := o) (w := w'.addCmp n) (by rw [hpl]; exact hT) hside hz (by simp) hv ?_
      intro m hm
      rw [World.addCmp_addCmp]
      refine wp_link (o := o) (k := k) (H := w.heap) (c := c) (a := a) (by rw [hpl]; exact h) (by exact hh) hf.none hv ho hcnt ?_
      intro H' t' ht' hn' hfr
      rw [wp_pure]
      refine hQ.new _ a t' (pre ctx) (post ctx) hr ?_ ?_ ?_ ?_ ht' (hole_nodes hpl) hn' hcut hfr
      · exact he.trans ((Ext.addCmp w' _).trans (Ext.setHeap _ _))
      · show w'.nCmp + (n + m) ≤ _; omega
      · exact hw
      · exact ⟨hf.none, hf.req⟩
    · intro A p k' B n h1 h2 h3 h4
      simp only [ne_eq, not_true, if_false, wp_bind]
      refine wp_destroyNode (w := w'.addCmp n) (n := c) rfl hz hv hT.cell h.ok.hdr (by rw [ho]) ?_
      have hheap : upd w'.heap (.dyn a) none = w.heap := by
        rw [hh, upd_upd]; exact upd_self _ _ _ hf.none
      rw [wp_pure]
      refine hQ.old _ A p k' B h1 h2 h3 ?_ hheap hw ?_
      · exact (he.trans (Ext.addCmp _ n)).trans (Ext.setHeap _ _)
      · simp only [World.setHeap_nCmp, World.addCmp_nCmp]; omega

theorem wp_emplaceUnique_any {Q : Ptr × Bool → W K → Prop} (h : Tree w.heap hdr o t) (herr : w.err = none)
    (hQ : Places w lt hdr o t k (t.height + 2) Q) : wp (emplaceUnique lt hdr k) w Q := by
  rw [emplaceUnique_eq]
  exact wp_emplaceWith h herr (fun w1 hT Q hQ => wp_unique_any hT hQ) hQ

theorem wp_emplaceHintUnique_any {Q : Ptr → W K → Prop} (has : ∀ a, lt a k = true → lt k a = false) (h : Tree w.heap hdr o t)
    (hpos : HintOk hdr pos t.nodes) (herr : w.err = none)
    (hQ : Places w lt hdr o t k (t.height + 5) (fun r w' => Q r.1 w')) : wp (emplaceHintUnique lt hdr pos k) w Q := by
  obtain ⟨⟨p, f⟩, w', h1, h2⟩ := (wp_emplaceWith (S := getInsertHintUniquePos lt hdr pos) h herr
    (fun w1 hT Q hQ => wp_hint_any has hT hpos hQ) hQ).runs
  exact wp_iff_runs.2 ⟨p, w', emplaceHintUnique_eq lt hdr pos k h1, h2⟩

/-! ### Insertion next to equivalent elements with a hint -/

theorem wp_hintEqual_any {Q : Ptr × Ptr → W K → Prop} (has : ∀ a, lt a k = true → lt k a = false) (h : Tree w.heap hdr o t)
    (hpos : HintOk hdr pos t.nodes)
    (hhole : ∀ ctx x n, plug ctx .nil = t → HoleSide lt k ctx x → n ≤ t.height + 2 → Q (x, par hdr ctx) (w.addCmp n))
    (hlow : Q (.null, .null) (w.addCmp 2)) :
    wp (getInsertHintEqualPos lt hdr pos k) w Q := by
  unfold getInsertHintEqualPos
  have hnd := h.nodup
  have fall : ∀ m, m ≤ 2 → wp (getInsertEqualPos lt hdr k) (w.addCmp m) Q := by
    intro m hm
    refine wp_getInsertEqualPos (w := w.addCmp m) h ?_
    intro ctx n hpl hside _ hn
    rw [World.addCmp_addCmp]
    exact hhole ctx .null _ hpl hside (by omega)
  rcases hpos with rfl | ⟨kp, hmem⟩
  · simp only [if_true, wp_bind, size]
    rw [wp_rd h.cell h.hdr_ne]
    simp only [hdCell, wp_pure]
    rcases List.eq_nil_or_concat t.nodes with h0 | ⟨A, a, h0⟩
    · simp only [h0, List.length_nil, Nat.lt_irrefl, if_false]
      exact fall 0 (by omega)
    · rw [List.concat_eq_append] at h0
      have hlen : 0 < t.nodes.length := by rw [h0]; simp
      simp only [hlen, if_true, wp_bind]
      rw [wp_rd h.cell h.hdr_ne]
      have hl : lastP pos t.nodes = a.1 := by rw [h0]; simp
      simp only [hdCell, hl]
      rw [wp_keyOf_mem (A := A) (B := []) (k' := a.2) h h0]
      simp only [wp_cmp, wp_ite, wp_bind]
      cases hlt : lt k a.2
      · simp only [Bool.not_false, if_true]
        rw [wp_rd (by exact h.cell) h.hdr_ne]
        simp only [hdCell, hl, wp_pure]
        obtain ⟨ctx, e1, e2, e3⟩ := exists_hole (t := t) (A := A ++ [a]) (B := []) (by rw [h0]; simp)
        have hL := isL_false_of_post_nil e3 (by rw [e2]; simp)
        have hp := (isL_par_false (hdr := pos) hL).1
        rw [e2] at hp
        simp only [lastP_append_cons, lastP_nil] at hp
        rw [← hp]
        exact hhole ctx .null 1 e1 (holeSide_right hL e2 hlt) (by omega)
      · simp only [Bool.not_true, Bool.false_eq_true, if_false]
        exact fall 1 (by omega)
  · obtain ⟨A, B, hn⟩ := List.append_of_mem hmem
    obtain ⟨cp, hcp, hpn, hph⟩ := h.mem_cell hn
    rw [hn] at hnd
    simp only [hph, if_false, wp_bind]
    rw [wp_keyOf_mem h hn, wp_cmp, wp_ite]
    cases hlt : lt kp k
    · simp only [Bool.not_false, if_true, wp_bind]
      rw [wp_rd (by exact h.cell) h.hdr_ne]
      simp only [hdCell, wp_ite]
      rcases List.eq_nil_or_concat A with h0 | ⟨A, b, h0⟩
      · subst h0
        have hl : firstP hdr t.nodes = pos := by rw [hn]; rfl
        simp only [hl, if_true, wp_bind]
        rw [wp_rd (by exact h.cell) h.hdr_ne]
        rw [wp_rd (by exact h.cell) h.hdr_ne]
        simp only [hdCell, hl, wp_pure]
        obtain ⟨ctx, e1, e2, e3⟩ := exists_hole (t := t) (A := []) (B := (pos, kp) :: B) (by rw [hn])
        have hL := isL_true_of_pre_nil e2
        have hp := (isL_par_true (hdr := hdr) hL).resolve_right (by rintro rfl; simp [post] at e3)
        rw [e3] at hp
        simp only [firstP_cons] at hp
        rw [show (pos, pos) = (pos, par hdr ctx) by rw [hp]]
        exact hhole ctx pos 1 e1 ⟨fun _ => hL, fun e => absurd e hpn⟩ (by omega)
      · rw [List.concat_eq_append] at h0
        subst h0
        have hl : ¬ pos = firstP hdr t.nodes := by
          rw [hn, firstP_append]
          intro e
          have hm := firstP_mem (d := firstP hdr ((pos, kp) :: B)) (L := A ++ [b]) (by simp)
          rw [← e] at hm
          simp only [List.map_append, List.map_cons, List.nodup_append] at hnd hm
          exact hnd.2.2 _ hm pos (by simp) rfl
        simp only [hl, if_false, wp_bind]
        refine wp_decrement' (w := w.addCmp 1) h hn (by simp) ?_
        simp only [lastP_append_cons, lastP_nil]
        have hnb : t.nodes = A ++ (b.1, b.2) :: ((pos, kp) :: B) := by rw [hn]; simp
        rw [wp_keyOf_mem (w := w.addCmp 1) h hnb, wp_cmp, World.addCmp_addCmp, wp_ite]
        cases hlt3 : lt k b.2
        · simp only [Bool.not_false, if_true, wp_bind]
          obtain ⟨cb, hcb, hbn, -⟩ := h.mem_cell hnb
          obtain ⟨ctx, e1, e2, e3⟩ := exists_hole (t := t) (A := A ++ [b]) (B := (pos, kp) :: B) hn
          have hL := hole_after h e1 e2 hcb
          rw [wp_rd (by exact hcb) hbn, wp_ite]
          by_cases hrn : cb.right = .null
          · have hL' : isL ctx = false := by rw [hL]; simp [hrn]
            have hp := (isL_par_false (hdr := hdr) hL').1
            rw [e2] at hp
            simp only [lastP_append_cons, lastP_nil] at hp
            simp only [hrn, if_true, wp_pure]
            rw [show (Ptr.null, b.1) = (Ptr.null, par hdr ctx) by rw [hp]]
            exact hhole ctx .null 2 e1 (holeSide_right hL' e2 hlt3) (by omega)
          · have hL' : isL ctx = true := by rw [hL]; simp [hrn]
            have hp := (isL_par_true (hdr := hdr) hL').resolve_right (by rintro rfl; simp [post] at e3)
            rw [e3] at hp
            simp only [firstP_cons] at hp
            simp only [hrn, if_false, wp_pure]
            rw [show (pos, pos) = (pos, par hdr ctx) by rw [hp]]
            exact hhole ctx pos 2 e1 ⟨fun _ => hL', fun e => absurd e hpn⟩ (by omega)
        · simp only [Bool.not_true, Bool.false_eq_true, if_false]
          exact fall 2 (by omega)
    · simp only [Bool.not_true, Bool.false_eq_true, if_false, wp_bind]
      rw [wp_rd (by exact h.cell) h.hdr_ne]
      simp only [hdCell, wp_ite]
      cases B with
      | nil =>
        have hl : lastP hdr t.nodes = pos := by rw [hn]; simp
        simp only [hl, if_true, wp_bind]
        rw [wp_rd (by exact h.cell) h.hdr_ne]
        simp only [hdCell, hl, wp_pure]
        obtain ⟨ctx, e1, e2, e3⟩ := exists_hole (t := t) (A := A ++ [(pos, kp)]) (B := []) (by rw [hn]; simp)
        have hL := isL_false_of_post_nil e3 (by rw [e2]; simp)
        have hp := (isL_par_false (hdr := hdr) hL).1
        rw [e2] at hp
        simp only [lastP_append_cons, lastP_nil] at hp
        rw [show (Ptr.null, pos) = (Ptr.null, par hdr ctx) by rw [hp]]
        exact hhole ctx .null 1 e1 (holeSide_right hL e2 (has _ hlt)) (by omega)
      | cons b B =>
        have hl : ¬ pos = lastP hdr t.nodes := by
          rw [hn]
          simp only [lastP_append_cons, lastP_cons]
          intro e
          have hm : lastP b.1 B ∈ (b :: B).map Prod.fst := by
            rcases List.eq_nil_or_concat B with rfl | ⟨B', x, rfl⟩
            · simp
            · simp
          rw [← e] at hm
          simp only [List.map_append, List.map_cons, List.nodup_append, List.nodup_cons] at hnd
          exact hnd.2.1.1 hm
        simp only [hl, if_false, wp_bind]
        refine wp_increment' (w := w.addCmp 1) h hn ?_
        simp only [firstP_cons]
        have hnb : t.nodes = (A ++ [(pos, kp)]) ++ (b.1, b.2) :: B := by rw [hn]; simp
        rw [wp_keyOf_mem (w := w.addCmp 1) h hnb, wp_cmp, World.addCmp_addCmp, wp_ite]
        cases hlt3 : lt b.2 k
        · simp only [Bool.not_false, if_true, wp_bind]
          obtain ⟨ctx, e1, e2, e3⟩ := exists_hole (t := t) (A := A ++ [(pos, kp)]) (B := b :: B) hnb
          have hL := hole_after h e1 e2 hcp
          rw [wp_rd (by exact hcp) hpn, wp_ite]
          by_cases hrn : cp.right = .null
          · have hL' : isL ctx = false := by rw [hL]; simp [hrn]
            have hp := (isL_par_false (hdr := hdr) hL').1
            rw [e2] at hp
            simp only [lastP_append_cons, lastP_nil] at hp
            simp only [hrn, if_true, wp_pure]
            rw [show (Ptr.null, pos) = (Ptr.null, par hdr ctx) by rw [hp]]
            exact hhole ctx .null 2 e1 (holeSide_right hL' e2 (has _ hlt)) (by omega)
          · have hL' : isL ctx = true := by rw [hL]; simp [hrn]
            have hp := (isL_par_true (hdr := hdr) hL').resolve_right (by rintro rfl; simp [post] at e3)
            rw [e3] at hp
            simp only [firstP_cons] at hp
            simp only [hrn, if_false, wp_pure]
            rw [show (b.1, b.1) = (b.1, par hdr ctx) by rw [hp]]
            obtain ⟨_, _, hbn, -⟩ := h.mem_cell hnb
            exact hhole ctx b.1 2 e1 ⟨fun _ => hL', fun e => absurd e hbn⟩ (by omega)
        · simp only [Bool.not_true, Bool.false_eq_true, if_false, wp_pure]
          exact hlow

/-- `m_emplace_hint_equal` for any asymmetric comparator. -/
theorem wp_emplaceHintEqual_any {Q : Ptr → W K → Prop} (has : ∀ a, lt a k = true → lt k a = false) (h : Tree w.heap hdr o t)
    (hpos : HintOk hdr pos t.nodes) (herr : w.err = none)
    (hQ : Inserts w hdr o t k (t.height + 3) (fun _ _ _ => True) Q) :
    wp (emplaceHintEqual lt hdr pos k) w Q := by
  rw [emplaceHintEqual_eq]
  refine wp_withNode h herr ?_ hQ
  intro w1 a c hT hz hv Q hk
  simp only [wp_bind]
  rw [wp_keyOf hz (by simp) hv]
  refine wp_hintEqual_any has hT hpos ?_ ?_
  · intro ctx x n hpl hside hn
    simp only [ne_eq, h.par_ne_null hpl, not_false_eq_true, if_true]
    refine wp_insertNode_side (o := o) (w := w1.addCmp n) (by rw [hpl]; exact hT) hside hz (by simp) hv ?_
    intro m hm
    rw [World.addCmp_addCmp]
    exact hk ctx _ hpl (by omega) trivial
  · simp only [ne_eq, not_true, if_false]
    refine wp_insertEqualLowerNode (o := o) (w := w1.addCmp 2) (t := t) hT hz (by simp) hv ?_
    intro ctx m hpl hm _
    rw [World.addCmp_addCmp]
    exact hk ctx _ hpl (by omega) trivial

end
end Nestl.RB
