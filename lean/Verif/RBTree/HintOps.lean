import Verif.RBTree.Hint
import Verif.RBTree.Move
set_option autoImplicit false
/-
Insertion at the position found by a search: every search that meets `PosSpec` leads to the same memory.
-/
namespace Nestl.RB
variable {K : Type}

theorem runs_seq {σ α β : Type} {m : M σ α} {f : α → M σ β} {s s1 s' : σ} {a : α} {b : β} (h : Runs m s a s1)
    (h' : Runs (f a) s1 b s') : Runs (m >>= f) s b s' := by
  have : wp (m >>= f) s fun x y => x = b ∧ y = s' := by
    rw [wp_bind]; exact wp_iff_runs.2 ⟨a, s1, h, wp_iff_runs.2 ⟨b, s', h', rfl, rfl⟩⟩
  obtain ⟨x, y, h1, rfl, rfl⟩ := this.runs
  exact h1

theorem runs_seq_inv {σ α β : Type} {m : M σ α} {f : α → M σ β} {s s' : σ} {b : β} (h : Runs (m >>= f) s b s') :
    ∃ a s1, Runs m s a s1 ∧ Runs (f a) s1 b s' := by
  have : wp (m >>= f) s fun x y => x = b ∧ y = s' := wp_iff_runs.2 ⟨b, s', h, rfl, rfl⟩
  rw [wp_bind] at this
  obtain ⟨a, s1, h1, h2⟩ := this.runs
  obtain ⟨x, y, h3, rfl, rfl⟩ := h2.runs
  exact ⟨a, s1, h1, h3⟩

/-- Link the node `z` into the hole (helper of the proofs). -/
def link (hdr p : Ptr) (b : Bool) (z : Ptr) : M (W K) Ptr := do
  insertAndRebalance b z p hdr
  setCount hdr (· + 1)
  pure z

/-- Create a node and link it into the hole (helper of the proofs). -/
def finish (hdr p : Ptr) (b : Bool) (k : K) : M (W K) Ptr := do
  let l ← createNode hdr k
  if (← hasErr) then pure hdr else link hdr p b l

theorem NoCmp.link (hdr p : Ptr) (b : Bool) (z : Ptr) : NoCmp (link hdr p b z : M (W K) Ptr) :=
  .bind (NoCmp.insertAndRebalance _ _ _ _) fun _ => .bind (.modCell _ _) fun _ => .pure _

theorem NoCmp.finish (hdr p : Ptr) (b : Bool) (k : K) : NoCmp (finish hdr p b k) :=
  .bind (NoCmp.createNode _ _) fun _ => .bind .hasErr fun _ => .ite (.pure _) (NoCmp.link _ _ _ _)

section
variable {hdr : Ptr} {w : W K} {ctx : Ctx K} {t : T K} {o : Nat} {lt : K → K → Bool} {k : K} {pos x : Ptr}

theorem cut_side (hs : SWO lt) {f : Frame K} {fs : Ctx K} (hc : Cut lt k (pre (f :: fs)) (post (f :: fs))) :
    lt k f.k = isL (f :: fs) := by
  rcases f with ⟨_ | _, p, c, kf, sib⟩
  · exact hc.2 (p, kf) (by simp [post])
  · have := hc.1 (p, kf) (by simp [pre])
    exact hs.asymm this

/-- The decision made by `m_insert_` / `m_insert_node` about the side of the new node. -/
theorem insert_finish (hs : SWO lt) (h : Tree w.heap hdr o (plug ctx .nil)) (hx : x ≠ .null → isL ctx = true)
    (hc : Cut lt k (pre ctx) (post ctx)) :
    ∃ m, m ≤ 1 ∧ ∀ p w', Runs (finish hdr (par hdr ctx) (isL ctx) k) (w.addCmp m) p w' ↔
      Runs (insert_ lt hdr x (par hdr ctx) k) w p w' := by
  have conv : ∀ (m : Nat) (P : M (W K) Bool), Runs P w (isL ctx) (w.addCmp m) → ∀ p w',
      Runs (finish hdr (par hdr ctx) (isL ctx) k) (w.addCmp m) p w' ↔
      Runs (P >>= fun b => finish hdr (par hdr ctx) b k) w p w' := by
    intro m P hP p w'
    constructor
    · intro h1; exact runs_seq hP h1
    · intro h1
      obtain ⟨b, w1, h2, h3⟩ := runs_seq_inv h1
      obtain ⟨rfl, rfl⟩ := Runs.det h2 hP
      exact h3
  by_cases hxn : x = .null
  · subst hxn
    cases ctx with
    | nil =>
      refine ⟨0, by omega, fun p w' => ?_⟩
      rw [conv 0 (if Ptr.null ≠ Ptr.null then pure true else if par hdr ([] : Ctx K) = hdr then pure true
        else do cmp lt k (← keyOf (par hdr ([] : Ctx K)))) ?_ p w']
      · rfl
      · simp only [ne_eq, not_true, if_false, par_nil, if_true]; rfl
    | cons f fs =>
      have hne : ¬ f.p = hdr := h.toZ.par_ne_hdr
      have hcl := h.toZ.parCell
      refine ⟨1, by omega, fun p w' => ?_⟩
      rw [conv 1 (if Ptr.null ≠ Ptr.null then pure true else if par hdr (f :: fs) = hdr then pure true
        else do cmp lt k (← keyOf (par hdr (f :: fs)))) ?_ p w']
      · rfl
      · simp only [ne_eq, not_true, if_false, par_cons, hne]
        refine runs_seq (s1 := w) (a := f.k) ?_ ?_
        · obtain ⟨a, w1, h1, rfl, rfl⟩ := ((wp_keyOf (Q := fun a s => a = f.k ∧ s = w) hcl h.toZ.par_ne_null
            (cellS_val ..)).2 ⟨rfl, rfl⟩).runs
          exact h1
        · rw [← cut_side hs hc]; rfl
  · refine ⟨0, by omega, fun p w' => ?_⟩
    have hL := hx hxn
    rw [conv 0 (if x ≠ Ptr.null then pure true else if par hdr ctx = hdr then pure true
        else do cmp lt k (← keyOf (par hdr ctx))) ?_ p w']
    · rfl
    · simp only [ne_eq, hxn, not_false_eq_true, if_true, hL]; rfl

theorem insertNode_link {z : Ptr} {c : TNode K} (hs : SWO lt) (h : Tree w.heap hdr o (plug ctx .nil))
    (hx : x ≠ .null → isL ctx = true)
    (hc : Cut lt k (pre ctx) (post ctx)) (hz : w.heap z = some c) (hzn : z ≠ .null) (hv : c.val = some k) :
    ∃ m, m ≤ 1 ∧ ∀ p w', Runs (link hdr (par hdr ctx) (isL ctx) z) (w.addCmp m) p w' ↔
      Runs (insertNode lt hdr x (par hdr ctx) z) w p w' := by
  have conv : ∀ (m : Nat) (P : M (W K) Bool), Runs P w (isL ctx) (w.addCmp m) → ∀ p w',
      Runs (link hdr (par hdr ctx) (isL ctx) z) (w.addCmp m) p w' ↔
      Runs (P >>= fun b => link hdr (par hdr ctx) b z) w p w' := by
    intro m P hP p w'
    constructor
    · intro h1; exact runs_seq hP h1
    · intro h1
      obtain ⟨b, w1, h2, h3⟩ := runs_seq_inv h1
      obtain ⟨rfl, rfl⟩ := Runs.det h2 hP
      exact h3
  by_cases hxn : x = .null
  · subst hxn
    cases ctx with
    | nil =>
      refine ⟨0, by omega, fun p w' => ?_⟩
      rw [conv 0 (if Ptr.null ≠ Ptr.null then pure true else if par hdr ([] : Ctx K) = hdr then pure true
        else do cmp lt (← keyOf z) (← keyOf (par hdr ([] : Ctx K)))) ?_ p w']
      · rfl
      · simp only [ne_eq, not_true, if_false, par_nil, if_true]; rfl
    | cons f fs =>
      have hne : ¬ f.p = hdr := h.toZ.par_ne_hdr
      have hcl := h.toZ.parCell
      refine ⟨1, by omega, fun p w' => ?_⟩
      rw [conv 1 (if Ptr.null ≠ Ptr.null then pure true else if par hdr (f :: fs) = hdr then pure true
        else do cmp lt (← keyOf z) (← keyOf (par hdr (f :: fs)))) ?_ p w']
      · rfl
      · simp only [ne_eq, not_true, if_false, par_cons, hne]
        refine runs_seq (s1 := w) (a := k) ?_ (runs_seq (s1 := w) (a := f.k) ?_ ?_)
        · obtain ⟨a, w1, h1, rfl, rfl⟩ := ((wp_keyOf (Q := fun a s => a = k ∧ s = w) hz hzn hv).2 ⟨rfl, rfl⟩).runs
          exact h1
        · obtain ⟨a, w1, h1, rfl, rfl⟩ := ((wp_keyOf (Q := fun a s => a = f.k ∧ s = w) hcl h.toZ.par_ne_null
            (cellS_val ..)).2 ⟨rfl, rfl⟩).runs
          exact h1
        · rw [← cut_side hs hc]; rfl
  · refine ⟨0, by omega, fun p w' => ?_⟩
    have hL := hx hxn
    rw [conv 0 (if x ≠ Ptr.null then pure true else if par hdr ctx = hdr then pure true
        else do cmp lt (← keyOf z) (← keyOf (par hdr ctx))) ?_ p w']
    · rfl
    · simp only [ne_eq, hxn, not_false_eq_true, if_true, hL]; rfl

/-- A search that meets `PosSpec` in every state holding the tree, with at most `b` comparator calls. -/
def Search (lt : K → K → Bool) (hdr : Ptr) (o : Nat) (t : T K) (k : K) (b : Nat) (S : M (W K) (Ptr × Ptr)) : Prop :=
  ∀ w : W K, Tree w.heap hdr o t → ∃ r n, Runs S w r (w.addCmp n) ∧ PosSpec lt hdr t k r ∧ n ≤ b

theorem search_unique (hs : SWO lt) (hsort : Sorted lt t.nodes) :
    Search lt hdr o t k (t.height + 1) (getInsertUniquePos lt hdr k) := by
  intro w h
  obtain ⟨r, w', h1, n, rfl, h2, h3⟩ := (wp_unique_spec (k := k)
    (Q := fun r w' => ∃ n, w' = w.addCmp n ∧ PosSpec lt hdr t k r ∧ n ≤ t.height + 1) hs h hsort
    (fun r n h1 h2 => ⟨n, rfl, h1, h2⟩)).runs
  exact ⟨r, n, h1, h2, h3⟩

theorem search_hint (hs : SWO lt) (hsort : Sorted lt t.nodes) (hpos : HintOk hdr pos t.nodes) :
    Search lt hdr o t k (t.height + 4) (getInsertHintUniquePos lt hdr pos k) := by
  intro w h
  obtain ⟨r, w', h1, n, rfl, h2, h3⟩ := (wp_hint_spec (k := k)
    (Q := fun r w' => ∃ n, w' = w.addCmp n ∧ PosSpec lt hdr t k r ∧ n ≤ t.height + 4) hs h hsort hpos
    (fun r n h1 h2 _ => ⟨n, rfl, h1, h2⟩)).runs
  exact ⟨r, n, h1, h2, h3⟩

theorem search_good_hint (hs : SWO lt) (hsort : Sorted lt t.nodes) (hpos : HintOk hdr pos t.nodes)
    (hg : GoodHint lt k hdr pos t.nodes) : Search lt hdr o t k 3 (getInsertHintUniquePos lt hdr pos k) := by
  intro w h
  obtain ⟨r, w', h1, n, rfl, h2, h3⟩ := (wp_hint_spec (k := k)
    (Q := fun r w' => ∃ n, w' = w.addCmp n ∧ PosSpec lt hdr t k r ∧ n ≤ 3) hs h hsort hpos
    (fun r n h1 _ h2 => ⟨n, rfl, h1, h2 hg⟩)).runs
  exact ⟨r, n, h1, h2, h3⟩

/-- Two searches that meet `PosSpec` agree. -/
theorem PosSpec.agree (hs : SWO lt) (h : Tree w.heap hdr o t) (hsort : Sorted lt t.nodes) {r1 r2 : Ptr × Ptr}
    (h1 : PosSpec lt hdr t k r1) (h2 : PosSpec lt hdr t k r2) :
    (∃ ctx x1 x2, plug ctx .nil = t ∧ (x1 ≠ .null → isL ctx = true) ∧ (x2 ≠ .null → isL ctx = true) ∧
      Cut lt k (pre ctx) (post ctx) ∧ par hdr ctx ≠ .null ∧ r1 = (x1, par hdr ctx) ∧ r2 = (x2, par hdr ctx)) ∨
    ∃ A p k' B, t.nodes = A ++ (p, k') :: B ∧ lt k' k = false ∧ lt k k' = false ∧ r1 = (p, .null) ∧ r2 = (p, .null) := by
  cases h1 with
  | hole ctx x hpl hx hcut =>
    left
    cases h2 with
    | hole ctx' x' hpl' hx' hcut' =>
      have e1 := hole_nodes hpl
      have e2 := hole_nodes hpl'
      have e3 := (hcut.unique hs hcut' (e1.symm.trans e2)).1
      have e4 : ctx = ctx' := hole_unique (hpl.trans hpl'.symm) (by rw [e3])
      subst e4
      refine ⟨ctx, x, x', hpl, hx, hx', hcut, ?_, rfl, rfl⟩
      cases ctx with
      | nil => exact h.hdr_ne
      | cons f fs => rw [← hpl] at h; exact h.toZ.par_ne_null
    | old A p k' B hn h1 h2 =>
      exact absurd ⟨h1, h2⟩ (hcut.no_equiv (x := (p, k')) (by rw [← hole_nodes hpl, hn]; simp))
  | old A p k' B hn h1 h1' =>
    right
    cases h2 with
    | hole ctx' x' hpl' hx' hcut' =>
      exact absurd ⟨h1, h1'⟩ (hcut'.no_equiv (x := (p, k')) (by rw [← hole_nodes hpl', hn]; simp))
    | old A' p' k'' B' hn' h2 h2' =>
      refine ⟨A, p, k', B, hn, h1, h1', rfl, ?_⟩
      have key : ∀ {A B A' B' : List (Ptr × K)} {p p' : Ptr} {k' k'' : K}, Sorted lt (A ++ (p, k') :: B) →
          lt k' k = false → lt k k'' = false →
          (∃ m, A' = A ++ m ∧ (p, k') :: B = m ++ (p', k'') :: B') → p = p' := by
        rintro A B A' B' p p' k' k'' hsort h1 h2' ⟨m, rfl, e⟩
        cases m with
        | nil => simp at e; exact e.1.1
        | cons y m =>
          exfalso
          simp only [List.cons_append, List.cons.injEq] at e
          obtain ⟨rfl, rfl⟩ := e
          simp only [Sorted, List.pairwise_append, List.pairwise_cons] at hsort
          have := hsort.2.1.1 (p', k'') (by simp)
          rcases hs.cotrans _ k _ this with e | e
          · rw [h1] at e; cases e
          · rw [h2'] at e; cases e
      have e := hn.symm.trans hn'
      have : p = p' := by
        rcases List.append_eq_append_iff.1 e with ⟨m, a1, a2⟩ | ⟨m, a1, a2⟩
        · exact key (by rw [← hn]; exact hsort) h1 h2' ⟨m, a1, a2⟩
        · exact (key (by rw [← hn']; exact hsort) h2 h1' ⟨m, a1, a2⟩).symm
      rw [this]

/-- Insertion at the position found by any search equals plain insertion, except for the number of comparator calls. -/
theorem insert_same {b : Nat} {S : M (W K) (Ptr × Ptr)} (hS : Search lt hdr o t k b S) (hs : SWO lt)
    (h : Tree w.heap hdr o t) (hsort : Sorted lt t.nodes) (herr : w.err = none) :
    ∃ p f w1 n, Runs (insertUnique lt hdr k) w (p, f) w1 ∧
      Runs (S >>= fun r => if r.2 ≠ .null then insert_ lt hdr r.1 r.2 k else pure r.1) w p (w1.setCmp n) ∧
      n ≤ w.nCmp + b + 1 := by
  obtain ⟨⟨p, f⟩, w1, hrun, -⟩ := (wp_insertUnique (k := k) (lt := lt) (Q := fun _ _ => True) h herr (by simp) (by simp)
    (by simp)).runs
  obtain ⟨r2, n2, h2, s2, hb⟩ := hS w h
  obtain ⟨r1, n1, h1, s1, -⟩ := search_unique hs hsort (k := k) w h
  have hrun0 := hrun
  unfold insertUnique at hrun
  obtain ⟨r1', w2, h3, h4⟩ := runs_seq_inv hrun
  obtain ⟨rfl, rfl⟩ := Runs.det h3 h1
  rcases PosSpec.agree hs h hsort s1 s2 with ⟨ctx, x1, x2, hpl, hx1, hx2, hcut, hpn, rfl, rfl⟩ | ⟨A, q, k', B, hn, e1, e2, rfl, rfl⟩
  · simp only [ne_eq, hpn, not_false_eq_true, if_true] at h4
    obtain ⟨q, w3, h5, h6⟩ := runs_seq_inv h4
    cases h6
    obtain ⟨m1, hm1, c1⟩ := insert_finish (w := w.addCmp n1) hs (by rw [hpl]; exact h) hx1 hcut
    obtain ⟨m2, hm2, c2⟩ := insert_finish (w := w.addCmp n2) hs (by rw [hpl]; exact h) hx2 hcut
    have h7 := (c1 p w1).2 h5
    have h8 := (NoCmp.finish _ _ _ _ _ _ _ h7).2 (w.nCmp + n2 + m2)
    refine ⟨p, true, w1, w.nCmp + n2 + m2, hrun0, ?_, by omega⟩
    refine runs_seq h2 ?_
    simp only [ne_eq, hpn, not_false_eq_true, if_true]
    refine (c2 _ _).1 ?_
    exact h8
  · simp only [ne_eq, not_true, if_false] at h4
    cases h4
    refine ⟨p, false, _, w.nCmp + n2, hrun0, ?_, by omega⟩
    refine runs_seq h2 ?_
    simp only [ne_eq, not_true, if_false]
    rfl

theorem insertUniqueAt_eq (lt : K → K → Bool) (hdr pos : Ptr) (k : K) : insertUniqueAt lt hdr pos k =
    (getInsertHintUniquePos lt hdr pos k >>= fun r => if r.2 ≠ .null then insert_ lt hdr r.1 r.2 k else pure r.1) := rfl

/-- Emplacement with any search (helper of the proofs). -/
def emplaceWith (lt : K → K → Bool) (hdr : Ptr) (S : K → M (W K) (Ptr × Ptr)) (v : K) : M (W K) (Ptr × Bool) := do
  let z ← createNode hdr v
  if (← hasErr) then pure (hdr, false) else do
  let r ← S (← keyOf z)
  if r.2 ≠ .null then
    let it ← insertNode lt hdr r.1 r.2 z
    pure (it, true)
  else
    destroyNode hdr z
    pure (r.1, false)

theorem emplaceUnique_eq (lt : K → K → Bool) (hdr : Ptr) (k : K) :
    emplaceUnique lt hdr k = emplaceWith lt hdr (getInsertUniquePos lt hdr) k := rfl

theorem emplaceHintUnique_eq (lt : K → K → Bool) (hdr pos : Ptr) (k : K) {w w' : W K} {p : Ptr} {f : Bool}
    (h : Runs (emplaceWith lt hdr (getInsertHintUniquePos lt hdr pos) k) w (p, f) w') :
    Runs (emplaceHintUnique lt hdr pos k) w p w' := by
  unfold emplaceWith at h
  unfold emplaceHintUnique
  obtain ⟨z, w1, h1, h2⟩ := runs_seq_inv h
  refine runs_seq h1 ?_
  obtain ⟨e, w2, h3, h4⟩ := runs_seq_inv h2
  refine runs_seq h3 ?_
  cases e with
  | true => simp only [if_true] at h4 ⊢; cases h4; rfl
  | false =>
    simp only [Bool.false_eq_true, if_false] at h4 ⊢
    obtain ⟨kz, w3, h5, h6⟩ := runs_seq_inv h4
    refine runs_seq h5 ?_
    obtain ⟨r, w4, h7, h8⟩ := runs_seq_inv h6
    refine runs_seq h7 ?_
    by_cases hr : r.2 = .null
    · simp only [ne_eq, hr, not_true, if_false] at h8 ⊢
      obtain ⟨u, w5, h9, h10⟩ := runs_seq_inv h8
      cases h10
      exact runs_seq h9 rfl
    · simp only [ne_eq, hr, not_false_eq_true, if_true] at h8 ⊢
      obtain ⟨u, w5, h9, h10⟩ := runs_seq_inv h8
      cases h10
      exact h9

/-- Emplacing a new key equals plain insertion, except for the number of comparator calls; on failure the flag says
that nothing was inserted. -/
theorem emplace_new {b : Nat} {S : K → M (W K) (Ptr × Ptr)} (hS : Search lt hdr o t k b (S k)) (hs : SWO lt)
    (h : Tree w.heap hdr o t) (hsort : Sorted lt t.nodes) (herr : w.err = none)
    (habs : ∀ x ∈ t.nodes, ¬ (lt x.2 k = false ∧ lt k x.2 = false)) :
    ∃ p w1 n, Runs (insertUnique lt hdr k) w (p, true) w1 ∧
      Runs (emplaceWith lt hdr S k) w (p, w1.err.isNone) (w1.setCmp n) ∧ n ≤ w.nCmp + b + 1 := by
  obtain ⟨⟨p, f⟩, w1, hrun, -⟩ := (wp_insertUnique (k := k) (lt := lt) (Q := fun _ _ => True) h herr (by simp) (by simp)
    (by simp)).runs
  obtain ⟨r1, n1, h1, s1, -⟩ := search_unique hs hsort (k := k) w h
  have hrun0 := hrun
  unfold insertUnique at hrun
  obtain ⟨r1', w2, h3, h4⟩ := runs_seq_inv hrun
  obtain ⟨rfl, rfl⟩ := Runs.det h3 h1
  cases hr : s1 with
  | old A q k' B hn e1 e2 => exact absurd ⟨e1, e2⟩ (habs (q, k') (by rw [hn]; simp))
  | hole ctx x1 hpl hx1 hcut =>
    have hpn : par hdr ctx ≠ .null := by
      cases ctx with
      | nil => exact h.hdr_ne
      | cons f fs => have h' := h; rw [← hpl] at h'; exact h'.toZ.par_ne_null
    simp only [ne_eq, hpn, not_false_eq_true, if_true] at h4
    obtain ⟨q, w3, h5, h6⟩ := runs_seq_inv h4
    cases h6
    obtain ⟨m1, hm1, c1⟩ := insert_finish (w := w.addCmp n1) hs (by rw [hpl]; exact h) hx1 hcut
    have h7 := (c1 p w1).2 h5
    unfold finish at h7
    obtain ⟨z, wA, h8, h9⟩ := runs_seq_inv h7
    have hcn := (NoCmp.createNode _ _ _ _ _ h8).2 w.nCmp
    have hcn' : Runs (createNode hdr k) w z (wA.setCmp w.nCmp) := hcn
    obtain ⟨e, wB, h10, h11⟩ := runs_seq_inv h9
    cases h10
    have herrA : wA.err.isSome = true ∨ wA.err = none := by cases wA.err <;> simp
    rcases herrA with he | he
    · simp only [he, if_true] at h11
      cases h11
      refine ⟨hdr, w1, w.nCmp, hrun0, ?_, by omega⟩
      refine runs_seq hcn' (runs_seq (a := true) (s1 := w1.setCmp w.nCmp) ?_ ?_)
      · show some _ = _; simp [he]
      · have : w1.err.isNone = false := by cases h0 : w1.err <;> simp [h0] at he ⊢
        rw [this]; rfl
    · simp only [he, Option.isSome_none, Bool.false_eq_true, if_false] at h11
      -- the state after the node has been created
      have hA : ∃ a c, z = .dyn a ∧ w.heap (.dyn a) = none ∧ wA.heap = upd w.heap (.dyn a) (some c) ∧ c.val = some k := by
        have := wp_createNode (w := w) (v := k) (hdr := hdr)
          (Q := fun z wA => wA.err = none → ∃ a c, z = .dyn a ∧ w.heap (.dyn a) = none ∧
            wA.heap = upd w.heap (.dyn a) (some c) ∧ c.val = some k) h.cell h.ok.hdr herr ?_ ?_
        · obtain ⟨z', wA', a1, a2⟩ := this.runs
          obtain ⟨rfl, rfl⟩ := Runs.det a1 hcn'
          exact a2 he
        · intro w' e _ _ _ _ a1 a2; rw [a1] at a2; cases a2
        · intro a c w' _ hf _ _ a1 a2 _ _ _ _
          exact ⟨a, c, rfl, hf.none, a1, a2⟩
      obtain ⟨a, c, rfl, hnone, hheap, hv⟩ := hA
      have hTA : Tree (wA.setCmp w.nCmp).heap hdr o t := by
        refine h.congr ?_ ?_
        · show wA.heap hdr = _
          rw [hheap, upd_other]
          obtain ⟨i, rfl⟩ := h.ok.hdr; simp
        · intro q hq
          show wA.heap q = _
          rw [hheap, upd_other]
          rintro rfl
          obtain ⟨c', hc', -⟩ := Rep_alloc h.rep _ hq
          rw [hnone] at hc'; cases hc'
      obtain ⟨r2, n2, h12, s2, hb⟩ := hS (wA.setCmp w.nCmp) hTA
      rcases PosSpec.agree hs h hsort s1 s2 with ⟨ctx', y1, x2, hpl', hy1, hx2, hcut', hpn', e1, rfl⟩ | ⟨A, q, k', B, hn, e1, e2, -, -⟩
      · have e2 : ctx = ctx' :=
          hole_unique (hpl.trans hpl'.symm) (by rw [(hcut.unique hs hcut' ((hole_nodes hpl).symm.trans (hole_nodes hpl'))).1])
        subst e2
        obtain ⟨m2, hm2, c2⟩ := insertNode_link (w := (wA.setCmp w.nCmp).addCmp n2) (z := .dyn a) (c := c) hs
          (by rw [hpl]; exact hTA) hx2 hcut (by show wA.heap _ = _; rw [hheap]; simp) (by simp) hv
        have h13 := (NoCmp.link _ _ _ _ _ _ _ h11).2 (w.nCmp + n2 + m2)
        have h14 := (NoCmp.link _ _ _ _ _ _ _ h11).1
        -- linking does not touch the error object
        have herr1 : w1.err = none := by
          have := wp_insertUnique (k := k) (lt := lt) (Q := fun _ w' => ¬ Refused w → w'.err = none) h herr
            (by intros; exact herr) (by intro _ _ _ _ a1 _ _ _ _ _ _ a2; exact absurd a1 a2) (by intro _ _ _ _ _ _ _ _ a1 _ _ _ _ _ _ _; exact a1)
          obtain ⟨_, _, a1, a2⟩ := this.runs
          obtain ⟨-, rfl⟩ := Runs.det a1 hrun0
          refine a2 ?_
          intro href
          have := wp_createNode (w := w) (v := k) (hdr := hdr) (Q := fun _ wA => wA.err ≠ none) h.cell h.ok.hdr herr
            (by intro _ _ _ _ _ _ a1; rw [a1]; simp) (by intro _ _ _ a1; exact absurd href a1)
          obtain ⟨_, _, b1, b2⟩ := this.runs
          obtain ⟨-, rfl⟩ := Runs.det b1 hcn'
          exact b2 he
        refine ⟨p, w1, w.nCmp + n2 + m2, hrun0, ?_, by omega⟩
        refine runs_seq hcn' (runs_seq (a := false) (s1 := wA.setCmp w.nCmp) ?_ ?_)
        · show some _ = _; simp [he]
        · simp only [Bool.false_eq_true, if_false]
          refine runs_seq (a := k) (s1 := wA.setCmp w.nCmp) ?_ (runs_seq h12 ?_)
          · obtain ⟨_, _, b1, rfl, rfl⟩ := ((wp_keyOf (w := wA.setCmp w.nCmp) (p := .dyn a) (n := c)
              (Q := fun a s => a = k ∧ s = wA.setCmp w.nCmp) (by show wA.heap _ = _; rw [hheap]; simp) (by simp) hv).2 ⟨rfl, rfl⟩).runs
            exact b1
          · simp only [ne_eq, hpn, not_false_eq_true, if_true]
            refine runs_seq ((c2 p (w1.setCmp (w.nCmp + n2 + m2))).1 ?_) ?_
            · exact h13
            · rw [herr1]; rfl
      · exact absurd ⟨e1, e2⟩ (habs (q, k') (by rw [hn]; simp))

/-- Emplacing a key that is present: the node is created and destroyed again. -/
theorem emplace_old {b : Nat} {S : K → M (W K) (Ptr × Ptr)} (hS : Search lt hdr o t k b (S k)) (hs : SWO lt)
    (h : Tree w.heap hdr o t) (hsort : Sorted lt t.nodes) (herr : w.err = none)
    {A B : List (Ptr × K)} {q : Ptr} {k' : K} (hn : t.nodes = A ++ (q, k') :: B) (e1 : lt k' k = false)
    (e2 : lt k k' = false) :
    ∃ p w', Runs (emplaceWith lt hdr S k) w (p, false) w' ∧ w'.heap = w.heap ∧ Ext w w' ∧
      ((Refused w ∧ p = hdr ∧ w'.err ≠ none) ∨ (¬ Refused w ∧ p = q ∧ w'.err = none)) ∧ w'.nCmp ≤ w.nCmp + b := by
  have : wp (emplaceWith lt hdr S k) w fun r w' => r.2 = false ∧ w'.heap = w.heap ∧ Ext w w' ∧
      ((Refused w ∧ r.1 = hdr ∧ w'.err ≠ none) ∨ (¬ Refused w ∧ r.1 = q ∧ w'.err = none)) ∧ w'.nCmp ≤ w.nCmp + b := by
    unfold emplaceWith
    rw [wp_bind]
    refine wp_createNode h.cell h.ok.hdr herr ?_ ?_
    · intro w' e hr he hc hh hw
      simp only [wp_bind, wp_hasErr, hw, Option.isSome_some, if_true, wp_pure]
      exact ⟨trivial, hh, he, Or.inl ⟨hr, trivial, by simp⟩, by omega⟩
    · intro a c w' hr hf he hc hh hv ho hcnt hw
      simp only [wp_bind, wp_hasErr, hw, Option.isSome_none, Bool.false_eq_true, if_false]
      have hz : w'.heap (.dyn a) = some c := by rw [hh]; simp
      have hT : Tree w'.heap hdr o t := by
        refine h.congr ?_ ?_
        · rw [hh, upd_other]
          obtain ⟨i, rfl⟩ := h.ok.hdr; simp
        · intro q hq
          rw [hh, upd_other]
          rintro rfl
          obtain ⟨c', hc', -⟩ := Rep_alloc h.rep _ hq
          rw [hf.none] at hc'; cases hc'
      rw [wp_keyOf hz (by simp) hv]
      obtain ⟨r, n, h1, s1, hb⟩ := hS w' hT
      refine wp_iff_runs.2 ⟨_, _, h1, ?_⟩
      rcases PosSpec.agree hs h hsort s1 (.old A q k' B hn e1 e2) with ⟨ctx, x1, x2, hpl, _, _, hcut, hpn, _, hcon⟩ | ⟨_, q', _, _, _, _, _, rfl, hcon⟩
      · exact absurd (Prod.mk.inj hcon).2.symm hpn
      · obtain ⟨rfl, -⟩ := Prod.mk.inj hcon
        simp only [ne_eq, not_true, if_false, wp_bind]
        refine wp_destroyNode (w := w'.addCmp n) (n := c) rfl hz hv hT.cell h.ok.hdr (by rw [ho]) ?_
        have hheap : upd w'.heap (.dyn a) none = w.heap := by
          rw [hh, upd_upd]; exact upd_self _ _ _ hf.none
        refine ⟨rfl, hheap, ?_, Or.inr ⟨hr, rfl, hw⟩, ?_⟩
        · exact (he.trans (Ext.addCmp _ n)).trans (Ext.setHeap _ _)
        · simp only [World.setHeap_nCmp, World.addCmp_nCmp]; omega
  obtain ⟨⟨p, f⟩, w', h1, rfl, h2⟩ := this.runs
  exact ⟨p, w', h1, h2⟩

end
end Nestl.RB
