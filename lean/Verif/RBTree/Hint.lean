import Verif.RBTree.NoCmp
import Verif.RBTree.Erase
set_option autoImplicit false
/-
Insertion with a hint and emplacement: the search with a hint ends in the same hole of the tree as the search from the
root.
-/
namespace Nestl.RB
variable {K : Type}

/-- `k` belongs between `A` and `B`. -/
def Cut (lt : K → K → Bool) (k : K) (A B : List (Ptr × K)) : Prop :=
  (∀ a ∈ A, lt a.2 k = true) ∧ ∀ b ∈ B, lt k b.2 = true

/-- Every gap of the in-order sequence is a hole of the tree. -/
theorem exists_hole {t : T K} {A B : List (Ptr × K)} (h : t.nodes = A ++ B) :
    ∃ ctx : Ctx K, plug ctx .nil = t ∧ pre ctx = A ∧ post ctx = B := by
  suffices H : ∀ (t : T K) (ctx : Ctx K) (A B : List (Ptr × K)), t.nodes = A ++ B →
      ∃ ctx' : Ctx K, plug ctx' .nil = plug ctx t ∧ pre ctx' = pre ctx ++ A ∧ post ctx' = B ++ post ctx by
    obtain ⟨ctx, h1, h2, h3⟩ := H t [] A B h
    exact ⟨ctx, h1, by simpa [pre] using h2, by simpa [post] using h3⟩
  intro t
  induction t with
  | nil =>
    intro ctx A B h
    simp only [T.nodes] at h
    obtain ⟨rfl, rfl⟩ := List.append_eq_nil_iff.1 h.symm
    exact ⟨ctx, rfl, by simp, by simp⟩
  | node p c l k r ihl ihr =>
    intro ctx A B h
    simp only [T.nodes] at h
    have left : ∀ A' B', l.nodes = A' ++ B' → A = A' → B = B' ++ (p, k) :: r.nodes →
        ∃ ctx' : Ctx K, plug ctx' .nil = plug ctx (.node p c l k r) ∧ pre ctx' = pre ctx ++ A ∧
          post ctx' = B ++ post ctx := by
      intro A' B' h1 h2 h3
      obtain ⟨ctx', e1, e2, e3⟩ := ihl (⟨.L, p, c, k, r⟩ :: ctx) A' B' h1
      exact ⟨ctx', e1, by rw [e2, h2]; simp [pre], by rw [e3, h3]; simp [post]⟩
    rcases List.append_eq_append_iff.1 h with ⟨a', h1, h2⟩ | ⟨c', h1, h2⟩
    · cases a' with
      | nil =>
        simp only [List.nil_append, List.append_nil] at h1 h2
        exact left l.nodes [] (by simp) h1 (by simpa using h2.symm)
      | cons x a' =>
        simp only [List.cons_append, List.cons.injEq] at h2
        obtain ⟨rfl, h2⟩ := h2
        obtain ⟨ctx', e1, e2, e3⟩ := ihr (⟨.R, p, c, k, l⟩ :: ctx) a' B h2
        exact ⟨ctx', e1, by rw [e2, h1]; simp [pre], by rw [e3]; simp [post]⟩
    · exact left A c' h1 rfl h2

/-- The path to the hole with `n` nodes before it. -/
def findHole : T K → Nat → Ctx K → Ctx K
  | .nil, _, ctx => ctx
  | .node p c l k r, n, ctx =>
    if n ≤ l.nodes.length then findHole l n (⟨.L, p, c, k, r⟩ :: ctx)
    else findHole r (n - l.nodes.length - 1) (⟨.R, p, c, k, l⟩ :: ctx)

theorem pre_append (a b : Ctx K) : pre (a ++ b) = pre b ++ pre a := by
  induction a with
  | nil => simp [pre]
  | cons f fs ih => rcases f with ⟨_ | _, p, c, k, sib⟩ <;> simp [pre, ih]

theorem findHole_plug (ctx : Ctx K) (ctx0 : Ctx K) : findHole (plug ctx .nil) (pre ctx).length ctx0 = ctx ++ ctx0 := by
  induction hn : ctx.length generalizing ctx ctx0 with
  | zero => rw [List.length_eq_zero_iff] at hn; subst hn; rfl
  | succ n ih =>
    rcases List.eq_nil_or_concat ctx with rfl | ⟨fs, f, rfl⟩
    · simp at hn
    · simp only [List.concat_eq_append] at hn ⊢
      have hlen : fs.length = n := by simpa using hn
      have hle : (pre fs).length ≤ (plug fs (T.nil : T K)).nodes.length := by
        rw [plug_nodes]; simp
      rcases f with ⟨_ | _, p, c, k, sib⟩
      · rw [plug_append, pre_append]
        simp only [plug, mk, pre, List.nil_append, findHole, hle, if_true]
        rw [ih fs _ hlen]; simp
      · rw [plug_append, pre_append]
        simp only [plug, mk, pre, List.nil_append, findHole]
        have h1 : ¬ ((sib.nodes ++ [(p, k)] ++ pre fs).length ≤ sib.nodes.length) := by simp
        rw [if_neg h1]
        have h2 : (sib.nodes ++ [(p, k)] ++ pre fs).length - sib.nodes.length - 1 = (pre fs).length := by simp
        rw [h2, ih fs _ hlen]; simp

theorem hole_unique {c1 c2 : Ctx K} (h : plug c1 .nil = plug c2 (.nil : T K)) (hl : (pre c1).length = (pre c2).length) :
    c1 = c2 := by
  have h1 := findHole_plug c1 []
  have h2 := findHole_plug c2 []
  rw [h, hl, h2] at h1
  simpa using h1.symm

section
variable {hdr : Ptr} {w : W K} {ctx : Ctx K} {t : T K} {o : Nat} {lt : K → K → Bool} {k : K} {pos : Ptr}

theorem hole_nodes (h : plug ctx .nil = t) : t.nodes = pre ctx ++ post ctx := by
  rw [← h, plug_nodes]; simp [T.nodes]

theorem Cut.unique (hs : SWO lt) {A B A' B' : List (Ptr × K)} (h : Cut lt k A B) (h' : Cut lt k A' B')
    (e : A ++ B = A' ++ B') : A = A' ∧ B = B' := by
  have key : ∀ {A B A' B' : List (Ptr × K)}, Cut lt k A B → Cut lt k A' B' → (∃ m, A' = A ++ m ∧ B = m ++ B') →
      A = A' ∧ B = B' := by
    rintro A B A' B' h h' ⟨m, rfl, rfl⟩
    cases m with
    | nil => simp
    | cons x m =>
      have h1 := h.2 x (by simp)
      have h2 := h'.1 x (by simp)
      rw [hs.asymm h1] at h2; cases h2
  rcases List.append_eq_append_iff.1 e with ⟨m, h1, h2⟩ | ⟨m, h1, h2⟩
  · exact key h h' ⟨m, h1, h2⟩
  · obtain ⟨e1, e2⟩ := key h' h ⟨m, h1, h2⟩
    exact ⟨e1.symm, e2.symm⟩

/-- A gap excludes an equivalent element. -/
theorem Cut.no_equiv {A B : List (Ptr × K)} (h : Cut lt k A B) {x : Ptr × K} (hx : x ∈ A ++ B) :
    ¬ (lt x.2 k = false ∧ lt k x.2 = false) := by
  rintro ⟨h1, h2⟩
  rcases List.mem_append.1 hx with hx | hx
  · rw [h.1 x hx] at h1; cases h1
  · rw [h.2 x hx] at h2; cases h2

theorem isL_par_true (h : isL ctx = true) : par hdr ctx = firstP hdr (post ctx) ∨ ctx = [] := by
  cases ctx with
  | nil => exact Or.inr rfl
  | cons f fs =>
    rcases f with ⟨_ | _, p, c, k, sib⟩
    · left; simp [post]
    · simp [isL] at h

theorem isL_par_false (h : isL ctx = false) : par hdr ctx = lastP hdr (pre ctx) ∧ pre ctx ≠ [] := by
  cases ctx with
  | nil => simp [isL] at h
  | cons f fs =>
    rcases f with ⟨_ | _, p, c, k, sib⟩
    · simp [isL] at h
    · simp [pre, lastP_append]

theorem isL_false_of_post_nil (h : post ctx = []) (hne : pre ctx ≠ []) : isL ctx = false := by
  cases ctx with
  | nil => simp [pre] at hne
  | cons f fs =>
    rcases f with ⟨_ | _, p, c, k, sib⟩
    · simp [post] at h
    · rfl

theorem isL_true_of_pre_nil (h : pre ctx = []) : isL ctx = true := by
  cases ctx with
  | nil => rfl
  | cons f fs =>
    rcases f with ⟨_ | _, p, c, k, sib⟩
    · rfl
    · simp [pre] at h

/-- The hole after `b` hangs on the right of `b` exactly when `b` has no right child. -/
theorem hole_after {A : List (Ptr × K)} {b : Ptr} {kb : K} {H : Ptr → Option (TNode K)} {c : TNode K}
    (h : Tree H hdr o t) (hpl : plug ctx .nil = t) (hpre : pre ctx = A ++ [(b, kb)]) (hc : H b = some c) :
    isL ctx = decide (c.right ≠ .null) := by
  have hn := hole_nodes hpl
  rw [hpre] at hn
  obtain ⟨ctx', col, l, r, rfl, hA, hB⟩ := exists_zipper (p := b) (k := kb) (A := A) (B := post ctx) (by simpa using hn)
  have hcell := h.focus
  rw [hc] at hcell
  cases hcell
  simp only [cellS]
  cases r with
  | nil =>
    have e : ctx = ⟨.R, b, col, kb, l⟩ :: ctx' := by
      refine hole_unique ?_ ?_
      · rw [hpl]; rfl
      · rw [hpre, hA]; simp [pre]
    rw [e]
    simp [isL, T.ptr]
  | node p' c' l' k' r' =>
    have hnn : p' ≠ .null := by
      refine h.node_ne_null ?_
      rw [T.ptrs, plug_nodes]; simp [T.nodes]
    simp only [T.ptr, ne_eq, hnn, not_false_eq_true, decide_true]
    cases hL : isL ctx with
    | true => rfl
    | false =>
      exfalso
      cases ctx with
      | nil => simp [isL] at hL
      | cons f fs =>
        rcases f with ⟨_ | _, p, c, k, sib⟩
        · simp [isL] at hL
        · simp only [pre] at hpre
          have e := List.append_inj_right' hpre rfl
          simp only [List.cons.injEq, Prod.mk.injEq, and_true] at e
          obtain ⟨rfl, rfl⟩ := e
          have h2 : Tree H hdr o (plug (⟨.R, p, c, k, sib⟩ :: fs) .nil) := by rw [hpl]; exact h
          have h3 := h2.toZ.parCell
          simp only at h3
          rw [hc] at h3
          simp only [cellS, T.ptr, Option.some.injEq, TNode.mk.injEq] at h3
          exact hnn h3.2.2.2.1

/-- What a search for an insertion position must deliver: a hole where `k` belongs (`x` set only if the hole is a left
child), or an element equivalent to `k`. -/
inductive PosSpec (lt : K → K → Bool) (hdr : Ptr) (t : T K) (k : K) : Ptr × Ptr → Prop
  | hole (ctx : Ctx K) (x : Ptr) (hpl : plug ctx .nil = t) (hx : x ≠ .null → isL ctx = true)
      (hcut : Cut lt k (pre ctx) (post ctx)) : PosSpec lt hdr t k (x, par hdr ctx)
  | old (A : List (Ptr × K)) (p : Ptr) (k' : K) (B : List (Ptr × K)) (hn : t.nodes = A ++ (p, k') :: B)
      (h1 : lt k' k = false) (h2 : lt k k' = false) : PosSpec lt hdr t k (p, .null)

theorem wp_unique_spec {Q : Ptr × Ptr → W K → Prop} (hs : SWO lt) (h : Tree w.heap hdr o t) (hsort : Sorted lt t.nodes)
    (hQ : ∀ r n, PosSpec lt hdr t k r → n ≤ t.height + 1 → Q r (w.addCmp n)) :
    wp (getInsertUniquePos lt hdr k) w Q := by
  refine wp_getInsertUniquePos h ?_ ?_
  · intro ctx n hpl hpath hn hlast
    have hnod := hole_nodes hpl
    rw [hnod] at hsort
    refine hQ _ n (.hole ctx .null hpl (by simp) ⟨?_, (hpath.cut hs hsort).2⟩) hn
    intro a ha
    rcases List.eq_nil_or_concat (pre ctx) with h0 | ⟨A, x, h0⟩
    · rw [h0] at ha; simp at ha
    · rw [List.concat_eq_append] at h0
      have hx := hlast A x h0
      rw [h0] at ha hsort
      simp only [List.mem_append, List.mem_singleton] at ha
      rcases ha with ha | rfl
      · refine hs.trans _ _ _ ?_ hx
        simp only [Sorted, List.pairwise_append] at hsort
        exact hsort.1.2.2 a ha x (by simp)
      · exact hx
  · intro ctx n A p k' hpl hpath hn hA hlt
    have hnod := hole_nodes hpl
    rw [hnod] at hsort
    refine hQ _ n (.old A p k' (post ctx) (by rw [hnod, hA]; simp) hlt ?_) hn
    exact (hpath.cut hs hsort).1 (p, k') (by rw [hA]; simp)

/-- The hint is the end position or an element. -/
def HintOk (hdr pos : Ptr) (L : List (Ptr × K)) : Prop := pos = hdr ∨ ∃ kp, (pos, kp) ∈ L

/-- The hint is right: it is the element before or after the place of `k`, or an element equivalent to `k`. -/
def GoodHint (lt : K → K → Bool) (k : K) (hdr pos : Ptr) (L : List (Ptr × K)) : Prop :=
  (∃ A B, L = A ++ B ∧ Cut lt k A B ∧ (pos = firstP hdr B ∨ ∃ A' kp, A = A' ++ [(pos, kp)])) ∨
  ∃ kp, (pos, kp) ∈ L ∧ lt kp k = false ∧ lt k kp = false

theorem Sorted.cut (hs : SWO lt) {A B : List (Ptr × K)} {a b : Ptr × K} (hsort : Sorted lt ((A ++ [a]) ++ b :: B))
    (h1 : lt a.2 k = true) (h2 : lt k b.2 = true) : Cut lt k (A ++ [a]) (b :: B) := by
  simp only [Sorted, List.pairwise_append, List.pairwise_cons, List.mem_append, List.mem_singleton] at hsort
  refine ⟨?_, ?_⟩
  · intro x hx
    simp only [List.mem_append, List.mem_singleton] at hx
    rcases hx with hx | rfl
    · exact hs.trans _ _ _ (hsort.1.2.2 x hx a rfl) h1
    · exact h1
  · intro x hx
    simp only [List.mem_cons] at hx
    rcases hx with rfl | hx
    · exact h2
    · exact hs.trans _ _ _ h2 (hsort.2.1.1 x hx)

theorem Sorted.cut_end (hs : SWO lt) {A : List (Ptr × K)} {a : Ptr × K} (hsort : Sorted lt (A ++ [a]))
    (h1 : lt a.2 k = true) : Cut lt k (A ++ [a]) [] := by
  simp only [Sorted, List.pairwise_append] at hsort
  refine ⟨?_, by simp⟩
  intro x hx
  simp only [List.mem_append, List.mem_singleton] at hx
  rcases hx with hx | rfl
  · exact hs.trans _ _ _ (hsort.2.2 x hx a (by simp)) h1
  · exact h1

theorem Sorted.cut_begin (hs : SWO lt) {B : List (Ptr × K)} {b : Ptr × K} (hsort : Sorted lt (b :: B))
    (h2 : lt k b.2 = true) : Cut lt k [] (b :: B) := by
  simp only [Sorted, List.pairwise_cons] at hsort
  refine ⟨by simp, ?_⟩
  intro x hx
  simp only [List.mem_cons] at hx
  rcases hx with rfl | hx
  · exact h2
  · exact hs.trans _ _ _ h2 (hsort.1 x hx)

/-- Position of an element in a sequence without repeated addresses. -/
theorem nodup_split {A B A' B' : List (Ptr × K)} {p : Ptr} {a a' : K} (hnd : ((A ++ (p, a) :: B).map Prod.fst).Nodup)
    (e : A ++ (p, a) :: B = A' ++ (p, a') :: B') : A = A' ∧ a = a' ∧ B = B' := by
  have key : ∀ {A B A' B' : List (Ptr × K)} {a a' : K}, ((A ++ (p, a) :: B).map Prod.fst).Nodup →
      (∃ m, A' = A ++ m ∧ (p, a) :: B = m ++ (p, a') :: B') → A = A' ∧ a = a' ∧ B = B' := by
    rintro A B A' B' a a' hnd ⟨m, rfl, e⟩
    cases m with
    | nil => simp at e; simp [e]
    | cons x m =>
      exfalso
      simp only [List.cons_append, List.cons.injEq] at e
      obtain ⟨-, rfl⟩ := e
      simp [List.nodup_append] at hnd
  rcases List.append_eq_append_iff.1 e with ⟨m, h1, h2⟩ | ⟨m, h1, h2⟩
  · exact key hnd ⟨m, h1, h2⟩
  · obtain ⟨e1, e2, e3⟩ := key (e ▸ hnd) ⟨m, h1, h2⟩
    exact ⟨e1.symm, e2.symm, e3.symm⟩

theorem Tree.mem_cell {H : Ptr → Option (TNode K)} (h : Tree H hdr o t) {A B : List (Ptr × K)} {p : Ptr} {a : K}
    (hn : t.nodes = A ++ (p, a) :: B) : ∃ c, H p = some c ∧ p ≠ .null ∧ p ≠ hdr := by
  have hm : p ∈ t.ptrs := by rw [T.ptrs, hn]; simp
  obtain ⟨c, hc, -⟩ := Rep_alloc h.rep p hm
  exact ⟨c, hc, h.node_ne_null hm, h.node_ne_hdr hm⟩

theorem Tree.nodup {H : Ptr → Option (TNode K)} (h : Tree H hdr o t) : (t.nodes.map Prod.fst).Nodup := h.ok.nodup

/-- The search with a hint: same positions as the search from the root, and at most three comparator calls if the hint is
right. -/
theorem wp_hint_spec {Q : Ptr × Ptr → W K → Prop} (hs : SWO lt) (h : Tree w.heap hdr o t) (hsort : Sorted lt t.nodes)
    (hpos : HintOk hdr pos t.nodes)
    (hQ : ∀ r n, PosSpec lt hdr t k r → n ≤ t.height + 4 → (GoodHint lt k hdr pos t.nodes → n ≤ 3) →
      Q r (w.addCmp n)) :
    wp (getInsertHintUniquePos lt hdr pos k) w Q := by
  unfold getInsertHintUniquePos
  have hnd := h.nodup
  -- falling back to the search from the root
  have fall : ∀ m, m ≤ 3 → ¬ GoodHint lt k hdr pos t.nodes → wp (getInsertUniquePos lt hdr k) (w.addCmp m) Q := by
    intro m hm hbad
    refine wp_unique_spec (w := w.addCmp m) hs h hsort ?_
    intro r n h1 h2
    rw [World.addCmp_addCmp]
    exact hQ r _ h1 (by omega) (fun hg => absurd hg hbad)
  rcases hpos with rfl | ⟨kp, hmem⟩
  · simp only [if_true, wp_bind, size]
    rw [wp_rd h.cell h.hdr_ne]
    simp only [hdCell, wp_pure]
    rcases List.eq_nil_or_concat t.nodes with h0 | ⟨A, a, h0⟩
    · simp only [h0, List.length_nil, Nat.lt_irrefl, if_false]
      refine wp_unique_spec hs h hsort ?_
      intro r n h1 h2
      refine hQ r n h1 (by omega) ?_
      intro _
      have : t = .nil := by
        cases t with
        | nil => rfl
        | node p c l k r => simp [T.nodes] at h0
      subst this
      simp only [T.height] at h2; omega
    · rw [List.concat_eq_append] at h0
      have hlen : 0 < t.nodes.length := by rw [h0]; simp
      simp only [hlen, if_true, wp_bind]
      rw [wp_rd h.cell h.hdr_ne]
      have hl : lastP pos t.nodes = a.1 := by rw [h0]; simp
      simp only [hdCell, hl]
      rw [wp_keyOf_mem (A := A) (B := []) (k' := a.2) h h0]
      simp only [wp_cmp, wp_ite, wp_bind]
      cases hlt : lt a.2 k
      · simp only [Bool.false_eq_true, if_false]
        refine fall 1 (by omega) ?_
        rintro (⟨A', B', e1, e2, e3⟩ | ⟨kp, e1, -⟩)
        · rcases e3 with e3 | ⟨A'', kp, rfl⟩
          · cases B' with
            | nil =>
              have := e2.1 a (by rw [List.append_nil] at e1; rw [← e1, h0]; simp)
              rw [hlt] at this; cases this
            | cons b B' =>
              obtain ⟨_, _, _, e4⟩ := h.mem_cell (p := b.1) (a := b.2) e1
              exact e4 e3.symm
          · obtain ⟨_, _, _, e4⟩ := h.mem_cell (A := A'') (p := pos) (a := kp) (B := B') (by rw [e1]; simp)
            exact e4 rfl
        · obtain ⟨A', B', e2⟩ := List.append_of_mem e1
          obtain ⟨_, _, _, e4⟩ := h.mem_cell e2
          exact e4 rfl
      · simp only [if_true]
        rw [wp_rd (by exact h.cell) h.hdr_ne]
        simp only [hdCell, hl, wp_pure]
        obtain ⟨ctx, e1, e2, e3⟩ := exists_hole (t := t) (A := A ++ [a]) (B := []) (by rw [h0]; simp)
        have hL := isL_false_of_post_nil e3 (by rw [e2]; simp)
        have hp := (isL_par_false (hdr := pos) hL).1
        rw [e2] at hp
        simp only [lastP_append_cons, lastP_nil] at hp
        rw [← hp]
        refine hQ _ 1 (.hole ctx .null e1 (by simp) ?_) (by omega) (fun _ => by omega)
        rw [e2, e3]
        exact Sorted.cut_end hs (by rw [← h0]; exact hsort) hlt
  · obtain ⟨A, B, hn⟩ := List.append_of_mem hmem
    obtain ⟨cp, hcp, hpn, hph⟩ := h.mem_cell hn
    rw [hn] at hnd
    simp only [hph, if_false, wp_bind]
    rw [wp_keyOf_mem h hn, wp_cmp, wp_ite]
    cases hlt : lt k kp
    · simp only [Bool.false_eq_true, if_false, wp_bind]
      rw [wp_keyOf_mem (w := w.addCmp 1) h hn, wp_cmp, World.addCmp_addCmp, wp_ite]
      cases hlt2 : lt kp k
      · simp only [Bool.false_eq_true, if_false, wp_pure]
        exact hQ _ 2 (.old A pos kp B hn hlt2 hlt) (by omega) (fun _ => by omega)
      · simp only [if_true, wp_bind]
        rw [wp_rd (by exact h.cell) h.hdr_ne]
        simp only [hdCell, wp_ite]
        cases B with
        | nil =>
          have hl : lastP hdr t.nodes = pos := by rw [hn]; simp
          simp only [hl, if_true, wp_bind]
          rw [wp_rd (by exact h.cell) h.hdr_ne]
          simp only [hdCell, hl, wp_pure]
          obtain ⟨ctx, e1, e2, e3⟩ := exists_hole (t := t) (A := A ++ [(pos, kp)]) (B := []) (by rw [hn]; simp)
          have hL := isL_false_of_post_nil e3 (by rw [e2]; simp)
          have hp := (isL_par_false (hdr := hdr) hL).1
          rw [e2] at hp
          simp only [lastP_append_cons, lastP_nil] at hp
          rw [show (Ptr.null, pos) = (Ptr.null, par hdr ctx) by rw [hp]]
          refine hQ _ 2 (.hole ctx .null e1 (by simp) ?_) (by omega) (fun _ => by omega)
          rw [e2, e3]
          exact Sorted.cut_end hs (by rw [← hn]; exact hsort) hlt2
        | cons b B =>
          have hl : ¬ pos = lastP hdr t.nodes := by
            rw [hn]
            simp only [lastP_append_cons, lastP_cons]
            intro e
            have hm : lastP b.1 B ∈ (b :: B).map Prod.fst := by
              rcases List.eq_nil_or_concat B with rfl | ⟨B', x, rfl⟩
              · simp
              · simp
            rw [← e] at hm
            simp only [List.map_append, List.map_cons, List.nodup_append, List.nodup_cons] at hnd
            exact hnd.2.1.1 hm
          simp only [hl, if_false, wp_bind]
          refine wp_increment' (w := w.addCmp 2) h hn ?_
          simp only [firstP_cons]
          have hnb : t.nodes = (A ++ [(pos, kp)]) ++ (b.1, b.2) :: B := by rw [hn]; simp
          rw [wp_keyOf_mem (w := w.addCmp 2) h hnb, wp_cmp, World.addCmp_addCmp, wp_ite]
          cases hlt3 : lt k b.2
          · simp only [Bool.false_eq_true, if_false]
            refine fall 3 (by omega) ?_
            rintro (⟨A', B', e1, e2, e3⟩ | ⟨kp', e1, e2, e3⟩)
            · rcases e3 with e3 | ⟨A'', kp', rfl⟩
              · cases B' with
                | nil => exact hph e3
                | cons x B' =>
                  have e4 : A ++ (pos, kp) :: (b :: B) = A' ++ (pos, x.2) :: B' := by rw [← hn, e1, e3]; rfl
                  obtain ⟨-, e5, -⟩ := nodup_split hnd e4
                  have := e2.2 x (by simp)
                  rw [← e5, hlt] at this; cases this
              · have e4 : A ++ (pos, kp) :: (b :: B) = A'' ++ (pos, kp') :: B' := by rw [← hn, e1]; simp
                obtain ⟨-, -, e5⟩ := nodup_split hnd e4
                have := e2.2 b (by rw [← e5]; simp)
                rw [hlt3] at this; cases this
            · obtain ⟨A', B', e4⟩ := List.append_of_mem e1
              obtain ⟨-, e5, -⟩ := nodup_split hnd (hn.symm.trans e4)
              rw [← e5, hlt2] at e2; cases e2
          · simp only [if_true, wp_bind]
            obtain ⟨ctx, e1, e2, e3⟩ := exists_hole (t := t) (A := A ++ [(pos, kp)]) (B := b :: B) hnb
            have hcut : Cut lt k (pre ctx) (post ctx) := by
              rw [e2, e3]; exact Sorted.cut hs (by rw [← hnb]; exact hsort) hlt2 hlt3
            have hL := hole_after h e1 e2 hcp
            rw [wp_rd (by exact hcp) hpn, wp_ite]
            by_cases hrn : cp.right = .null
            · have hL' : isL ctx = false := by rw [hL]; simp [hrn]
              have hp := (isL_par_false (hdr := hdr) hL').1
              rw [e2] at hp
              simp only [lastP_append_cons, lastP_nil] at hp
              simp only [hrn, if_true, wp_pure]
              rw [show (Ptr.null, pos) = (Ptr.null, par hdr ctx) by rw [hp]]
              exact hQ _ 3 (.hole ctx .null e1 (by simp) hcut) (by omega) (fun _ => by omega)
            · have hL' : isL ctx = true := by rw [hL]; simp [hrn]
              have hp := (isL_par_true (hdr := hdr) hL').resolve_right (by rintro rfl; simp [post] at e3)
              rw [e3] at hp
              simp only [firstP_cons] at hp
              simp only [hrn, if_false, wp_pure]
              rw [show (b.1, b.1) = (b.1, par hdr ctx) by rw [hp]]
              exact hQ _ 3 (.hole ctx b.1 e1 (fun _ => hL') hcut) (by omega) (fun _ => by omega)
    · simp only [if_true, wp_bind]
      rw [wp_rd (by exact h.cell) h.hdr_ne]
      simp only [hdCell, wp_ite]
      rcases List.eq_nil_or_concat A with h0 | ⟨A, b, h0⟩
      · subst h0
        have hl : firstP hdr t.nodes = pos := by rw [hn]; rfl
        simp only [hl, if_true, wp_bind]
        rw [wp_rd (by exact h.cell) h.hdr_ne]
        rw [wp_rd (by exact h.cell) h.hdr_ne]
        simp only [hdCell, hl, wp_pure]
        obtain ⟨ctx, e1, e2, e3⟩ := exists_hole (t := t) (A := []) (B := (pos, kp) :: B) (by rw [hn])
        have hL := isL_true_of_pre_nil e2
        have hp := (isL_par_true (hdr := hdr) hL).resolve_right (by rintro rfl; simp [post] at e3)
        rw [e3] at hp
        simp only [firstP_cons] at hp
        rw [show (pos, pos) = (pos, par hdr ctx) by rw [hp]]
        refine hQ _ 1 (.hole ctx pos e1 (fun _ => hL) ?_) (by omega) (fun _ => by omega)
        rw [e2, e3]
        exact Sorted.cut_begin hs (by rw [hn] at hsort; exact hsort) hlt
      · rw [List.concat_eq_append] at h0
        subst h0
        have hl : ¬ pos = firstP hdr t.nodes := by
          rw [hn, firstP_append]
          intro e
          have hm := firstP_mem (d := firstP hdr ((pos, kp) :: B)) (L := A ++ [b]) (by simp)
          rw [← e] at hm
          simp only [List.map_append, List.map_cons, List.nodup_append] at hnd hm
          exact hnd.2.2 _ hm pos (by simp) rfl
        simp only [hl, if_false, wp_bind]
        refine wp_decrement' (w := w.addCmp 1) h hn (by simp) ?_
        simp only [lastP_append_cons, lastP_nil]
        have hnb : t.nodes = A ++ (b.1, b.2) :: ((pos, kp) :: B) := by rw [hn]; simp
        rw [wp_keyOf_mem (w := w.addCmp 1) h hnb, wp_cmp, World.addCmp_addCmp, wp_ite]
        cases hlt3 : lt b.2 k
        · simp only [Bool.false_eq_true, if_false]
          refine fall 2 (by omega) ?_
          rintro (⟨A', B', e1, e2, e3⟩ | ⟨kp', e1, e2, e3⟩)
          · rcases e3 with e3 | ⟨A'', kp', rfl⟩
            · cases B' with
              | nil => exact hph e3
              | cons x B' =>
                have e4 : (A ++ [b]) ++ (pos, kp) :: B = A' ++ (pos, x.2) :: B' := by rw [← hn, e1, e3]; rfl
                obtain ⟨e5, -, -⟩ := nodup_split hnd e4
                have := e2.1 b (by rw [← e5]; simp)
                rw [hlt3] at this; cases this
            · have e4 : (A ++ [b]) ++ (pos, kp) :: B = A'' ++ (pos, kp') :: B' := by rw [← hn, e1]; simp
              obtain ⟨-, e5, -⟩ := nodup_split hnd e4
              have := e2.1 (pos, kp') (by simp)
              rw [← e5, hs.asymm hlt] at this; cases this
          · obtain ⟨A', B', e4⟩ := List.append_of_mem e1
            obtain ⟨-, e5, -⟩ := nodup_split hnd (hn.symm.trans e4)
            rw [← e5, hlt] at e3; cases e3
        · simp only [if_true, wp_bind]
          obtain ⟨cb, hcb, hbn, -⟩ := h.mem_cell hnb
          obtain ⟨ctx, e1, e2, e3⟩ := exists_hole (t := t) (A := A ++ [b]) (B := (pos, kp) :: B) hn
          have hcut : Cut lt k (pre ctx) (post ctx) := by
            rw [e2, e3]; exact Sorted.cut hs (by rw [← hn]; exact hsort) hlt3 hlt
          have hL := hole_after h e1 e2 hcb
          rw [wp_rd (by exact hcb) hbn, wp_ite]
          by_cases hrn : cb.right = .null
          · have hL' : isL ctx = false := by rw [hL]; simp [hrn]
            have hp := (isL_par_false (hdr := hdr) hL').1
            rw [e2] at hp
            simp only [lastP_append_cons, lastP_nil] at hp
            simp only [hrn, if_true, wp_pure]
            rw [show (Ptr.null, b.1) = (Ptr.null, par hdr ctx) by rw [hp]]
            exact hQ _ 2 (.hole ctx .null e1 (by simp) hcut) (by omega) (fun _ => by omega)
          · have hL' : isL ctx = true := by rw [hL]; simp [hrn]
            have hp := (isL_par_true (hdr := hdr) hL').resolve_right (by rintro rfl; simp [post] at e3)
            rw [e3] at hp
            simp only [firstP_cons] at hp
            simp only [hrn, if_false, wp_pure]
            rw [show (pos, pos) = (pos, par hdr ctx) by rw [hp]]
            exact hQ _ 2 (.hole ctx pos e1 (fun _ => hL') hcut) (by omega) (fun _ => by omega)

end
end Nestl.RB
