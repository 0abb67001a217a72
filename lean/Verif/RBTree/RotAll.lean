import Verif.RBTree.ModelRotAll
import Verif.RBTree.RotOps
import Verif.RBTree.HintAny
import Verif.RBTree.EqualIns
set_option autoImplicit false
/-
The counted insertions compute what the uncounted ones do; their numbers of rotations and passes.
-/
namespace Nestl.RB
variable {K : Type} {lt : K → K → Bool} {hdr pos x p z : Ptr} {v : K}

/-! ### The same programs -/

theorem linkN_sim {b : Bool} : Sim (fun _ => True) (linkN hdr p b z : M (W K) _) (do insertAndRebalance b z p hdr; setCount hdr (· + 1); pure z) Prod.fst := by
  unfold linkN
  exact .bind (g := fun _ => ()) insertAndRebalanceN_sim fun _ => .same fun _ => .pure rfl

theorem insertN_sim_ : Sim (fun _ => True) (insertN_ lt hdr x p v) (insert_ lt hdr x p v) Prod.fst := by
  unfold insertN_ insert_
  refine .same fun _ => .same fun _ => .same fun _ => .ite (fun _ => .pure rfl) fun _ => ?_
  exact .bind (g := fun _ => ()) insertAndRebalanceN_sim fun _ => .same fun _ => .pure rfl

theorem insertNodeN_sim : Sim (fun _ => True) (insertNodeN lt hdr x p z) (insertNode lt hdr x p z) Prod.fst := by
  unfold insertNodeN insertNode
  exact .same fun _ => linkN_sim

theorem insertEqualLowerN_sim : Sim (fun _ => True) (insertEqualLowerN lt hdr v) (insertEqualLower lt hdr v) Prod.fst := by
  unfold insertEqualLowerN insertEqualLower insertLowerN insertLower
  exact .same fun _ => .same fun _ => .same fun _ => .same fun _ => .same fun _ => .ite (fun _ => .pure rfl) fun _ => linkN_sim

theorem insertEqualLowerNodeN_sim : Sim (fun _ => True) (insertEqualLowerNodeN lt hdr z) (insertEqualLowerNode lt hdr z) Prod.fst := by
  unfold insertEqualLowerNodeN insertEqualLowerNode insertLowerNodeN insertLowerNode
  exact .same fun _ => .same fun _ => .same fun _ => .same fun _ => linkN_sim

theorem insertByN_sim (y : Way) : Sim (fun _ => True) (insertByN lt hdr v y) (insertBy lt hdr v y) Prod.fst := by
  cases y with
  | plain => exact .bind (g := Prod.fst) insertUniqueN_sim fun _ => .pure rfl
  | «at» pos =>
    simp only [insertByN, insertBy]; unfold insertUniqueAtN insertUniqueAt
    exact .same fun _ => .ite (fun _ => insertN_sim_) fun _ => .pure rfl
  | emplace =>
    simp only [insertByN, insertBy]
    intro w a w' _ hr
    unfold emplaceUniqueN at hr
    obtain ⟨z, w1, h1, h2⟩ := runs_seq_inv hr
    obtain ⟨b, w2, h3, h4⟩ := runs_seq_inv h2
    have key : ∃ f, Runs (emplaceUnique lt hdr v) w (a.1, f) w' := by
      unfold emplaceUnique
      cases b
      · obtain ⟨q, w3, h5, h6⟩ := runs_seq_inv h4
        obtain ⟨xp, w4, h7, h8⟩ := runs_seq_inv h6
        obtain ⟨x, p⟩ := xp
        by_cases hp : p = .null
        · simp only [hp, ne_eq, not_true, if_false] at h8
          obtain ⟨u, w5, h9, h10⟩ := runs_seq_inv h8
          cases h10
          refine ⟨false, runs_seq h1 (runs_seq h3 (runs_seq h5 (runs_seq h7 ?_)))⟩
          simp only [hp, ne_eq, not_true, if_false]
          exact runs_seq h9 rfl
        · simp only [hp, ne_eq, not_false_eq_true, if_true] at h8
          refine ⟨true, runs_seq h1 (runs_seq h3 (runs_seq h5 (runs_seq h7 ?_)))⟩
          simp only [hp, ne_eq, not_false_eq_true, if_true]
          exact runs_seq (insertNodeN_sim _ _ _ trivial h8) rfl
      · cases h4
        exact ⟨false, runs_seq h1 (runs_seq h3 rfl)⟩
    obtain ⟨f, hf⟩ := key
    exact runs_seq hf rfl
  | emplaceAt pos =>
    simp only [insertByN, insertBy]; unfold emplaceHintUniqueN emplaceHintUnique
    refine .same fun _ => .same fun _ => .ite (fun _ => .pure rfl) fun _ => .same fun _ => .same fun _ => ?_
    exact .ite (fun _ => insertNodeN_sim) fun _ => .same fun _ => .pure rfl
  | equal =>
    simp only [insertByN, insertBy]; unfold insertEqualN insertEqual
    exact .same fun _ => insertN_sim_
  | equalAt pos =>
    simp only [insertByN, insertBy]; unfold insertEqualAtN insertEqualAt
    exact .same fun _ => .ite (fun _ => insertN_sim_) fun _ => insertEqualLowerN_sim
  | upper =>
    simp only [insertByN, insertBy]; unfold emplaceEqualN emplaceEqual
    exact .same fun _ => .same fun _ => .ite (fun _ => .pure rfl) fun _ => .same fun _ => .same fun _ => insertNodeN_sim
  | lower => exact insertEqualLowerN_sim
  | hint pos =>
    simp only [insertByN, insertBy]; unfold emplaceHintEqualN emplaceHintEqual
    refine .same fun _ => .same fun _ => .ite (fun _ => .pure rfl) fun _ => .same fun _ => .same fun _ => ?_
    exact .ite (fun _ => insertNodeN_sim) fun _ => insertEqualLowerNodeN_sim

/-! ### Costs -/

section
variable {w : W K} {ctx : Ctx K} {t : T K} {o : Nat} {k : K}

/-- Specification: the object is still a tree, and `c` are the rotations and passes of one insertion (no code). -/
def Cheap (hdr : Ptr) (o : Nat) (t : T K) (c : Nat × Nat) (w' : W K) : Prop :=
  ∃ t', Tree w'.heap hdr o t' ∧ c.1 ≤ 2 ∧ c.2 ≤ Nat.log2 (t.nodes.length + 1) ∧ c.2 + phi t' ≤ phi t + 7

theorem Cheap.zero {w' : W K} (h : Tree w'.heap hdr o t) : Cheap hdr o t (0, 0) w' := ⟨t, h, by simp, by simp, by simp⟩

theorem wp_linkN {H : Ptr → Option (TNode K)} {a : Nat} {c : TNode K} (h : Tree H hdr o t) (hpl : plug ctx .nil = t)
    (hw : w.heap = upd H (.dyn a) (some c)) (hnone : H (.dyn a) = none) (hv : c.val = some k) (ho : c.owner = o)
    (hcnt : c.count = 0) : wp (linkN hdr (par hdr ctx) (isL ctx) (.dyn a)) w fun r w' => Cheap hdr o t r.2 w' := by
  subst hpl
  unfold linkN
  rw [wp_bind]
  have hw' : w = (w.setHeap H).setHeap w.heap := rfl
  rw [hw']
  refine wp_insertAndRebalanceN (o := o) (w := w.setHeap H) (ctx := ctx) (by exact h) _ hw hnone hv ho hcnt ?_
  intro b H' t' ht' hcell hnod h1 h2 h3
  have hlen : (pre ctx ++ post ctx).length + 1 = t'.nodes.length := by rw [hnod]; simp; omega
  unfold setCount
  rw [wp_bind, wp_modCell (by exact hcell) h.hdr_ne]
  simp only [World.setHeap_heap, World.setHeap_setHeap, wp_pure]
  refine ⟨t', ?_, h1, h2, h3⟩
  have : ({ hdCell ⟨firstP hdr t'.nodes, lastP hdr t'.nodes, o, (pre ctx ++ post ctx).length⟩ t'.ptr with count := (pre ctx ++ post ctx).length + 1 } : TNode K)
      = hdCell ⟨firstP hdr t'.nodes, lastP hdr t'.nodes, o, t'.nodes.length⟩ t'.ptr := by rw [← hlen]; rfl
  simp only [hdCell] at this ⊢
  rw [this]
  exact ht'

/-- Create a node and go on with `F` (helper of the proofs). -/
def withNodeN (hdr : Ptr) (k : K) (F : Ptr → M (W K) (Ptr × Nat × Nat)) : M (W K) (Ptr × Nat × Nat) := do
  let z ← createNode hdr k
  if (← hasErr) then pure (hdr, 0, 0) else F z

theorem wp_withNodeN {F : Ptr → M (W K) (Ptr × Nat × Nat)} (h : Tree w.heap hdr o t) (herr : w.err = none)
    (hF : ∀ (w1 : W K) a c, Tree w1.heap hdr o t → w1.heap (.dyn a) = some c → c.val = some k →
      (∀ ctx m, plug ctx .nil = t → wp (linkN hdr (par hdr ctx) (isL ctx) (.dyn a)) (w1.addCmp m) fun r w' => Cheap hdr o t r.2 w') →
      (∀ m (x : Ptr), wp (do destroyNode hdr (.dyn a); pure (x, 0, 0)) (w1.addCmp m) fun r w' => Cheap hdr o t r.2 w') →
      wp (F (.dyn a)) w1 fun r w' => Cheap hdr o t r.2 w') :
    wp (withNodeN hdr k F) w fun r w' => Cheap hdr o t r.2 w' := by
  unfold withNodeN
  rw [wp_bind]
  refine wp_createNode h.cell h.ok.hdr herr ?_ ?_
  · intro w' e hr he hc hh hw
    simp only [wp_bind, wp_hasErr, hw, Option.isSome_some, if_true, wp_pure]
    exact .zero (by rw [hh]; exact h)
  · intro a c w' hr hf he hc hh hv ho hcnt hw
    simp only [wp_bind, wp_hasErr, hw, Option.isSome_none, Bool.false_eq_true, if_false]
    have hz : w'.heap (.dyn a) = some c := by rw [hh]; simp
    have hT : Tree w'.heap hdr o t := by
      refine h.congr ?_ ?_
      · rw [hh, upd_other]
        obtain ⟨i, rfl⟩ := h.ok.hdr; simp
      · intro q hq
        rw [hh, upd_other]
        rintro rfl
        obtain ⟨c', hc', -⟩ := Rep_alloc h.rep _ hq
        rw [hf.none] at hc'; cases hc'
    refine hF w' a c hT hz hv ?_ ?_
    · intro ctx m hpl
      exact wp_linkN (w := w'.addCmp m) (k := k) (H := w.heap) (c := c) h hpl (by exact hh) hf.none hv ho hcnt
    · intro m x
      rw [wp_bind]
      refine wp_destroyNode (w := w'.addCmp m) (n := c) rfl hz hv hT.cell h.ok.hdr (by rw [ho]) ?_
      have hheap : upd w'.heap (.dyn a) none = w.heap := by
        rw [hh, upd_upd]; exact upd_self _ _ _ hf.none
      rw [wp_pure]
      exact .zero (by show Tree (upd w'.heap (.dyn a) none) hdr o t; rw [hheap]; exact h)

theorem wp_insertNodeN_side {Q : Ptr × Nat × Nat → W K → Prop} {c : TNode K} (h : Tree w.heap hdr o (plug ctx .nil))
    (hside : HoleSide lt k ctx x) (hz : w.heap z = some c) (hzn : z ≠ .null) (hv : c.val = some k)
    (hQ : ∀ m, wp (linkN hdr (par hdr ctx) (isL ctx) z) (w.addCmp m) Q) :
    wp (insertNodeN lt hdr x (par hdr ctx) z) w Q := by
  unfold insertNodeN
  rw [wp_bind]
  by_cases hxn : x = .null
  · simp only [hxn, ne_eq, not_true, if_false]
    cases ctx with
    | nil =>
      simp only [par_nil, if_true, wp_pure]
      exact hQ 0
    | cons f fs =>
      have hne : ¬ f.p = hdr := h.toZ.par_ne_hdr
      have hcl := h.toZ.parCell
      simp only [par_cons, hne, if_false, wp_bind]
      rw [wp_keyOf hz hzn hv, wp_keyOf hcl h.toZ.par_ne_null (cellS_val ..), wp_cmp, hside.2 hxn f fs rfl]
      exact hQ 1
  · simp only [ne_eq, hxn, not_false_eq_true, if_true, wp_pure]
    have := hQ 0
    rw [hside.1 hxn] at this
    exact this

theorem wp_insertEqualLowerNodeN {Q : Ptr × Nat × Nat → W K → Prop} {c : TNode K} (h : Tree w.heap hdr o t)
    (hz : w.heap z = some c) (hzn : z ≠ .null) (hv : c.val = some k)
    (hQ : ∀ ctx m, plug ctx .nil = t → wp (linkN hdr (par hdr ctx) (isL ctx) z) (w.addCmp m) Q) :
    wp (insertEqualLowerNodeN lt hdr z) w Q := by
  unfold insertEqualLowerNodeN
  simp only [wp_bind]
  rw [wp_keyOf hz hzn hv, wp_rd h.cell h.hdr_ne]
  simp only [hdCell]
  refine wp_lowerDescend (ctx := []) (t := t) (by exact h) (by intro f hf; simp at hf) ?_
  intro ctx n hpl hp _
  simp only [plug] at hpl
  unfold insertLowerNodeN
  rw [wp_bind]
  have hT : Tree (w.addCmp n).heap hdr o (plug ctx .nil) := by rw [hpl]; exact h
  cases ctx with
  | nil =>
    simp only [par_nil, if_true, wp_pure]
    exact hQ [] n hpl
  | cons f fs =>
    have hne : ¬ f.p = hdr := hT.toZ.par_ne_hdr
    have hcl := hT.toZ.parCell
    simp only [par_cons, hne, if_false, wp_bind]
    rw [wp_keyOf hcl hT.toZ.par_ne_null (cellS_val ..), wp_keyOf (w := w.addCmp n) hz hzn hv, wp_cmp, wp_pure]
    have := hQ (f :: fs) (n + 1) hpl
    have e : (!lt f.k k) = isL (f :: fs) := by
      rw [hp f (by simp)]
      rcases f with ⟨_ | _, p, c, kf, sib⟩ <;> rfl
    rw [e, World.addCmp_addCmp]
    exact this

theorem wp_finishN (h : Tree w.heap hdr o t) (hpl : plug ctx .nil = t) (herr : w.err = none) :
    wp (withNodeN hdr k (linkN hdr (par hdr ctx) (isL ctx))) w fun r w' => Cheap hdr o t r.2 w' :=
  wp_withNodeN h herr fun _ _ _ _ _ _ hl _ => by simpa using hl ctx 0 hpl

theorem wp_insertN_side (h : Tree w.heap hdr o t) (hpl : plug ctx .nil = t) (hside : HoleSide lt k ctx x) (herr : w.err = none) :
    wp (insertN_ lt hdr x (par hdr ctx) k) w fun r w' => Cheap hdr o t r.2 w' := by
  have hf : ∀ m, wp (withNodeN hdr k (linkN hdr (par hdr ctx) (isL ctx))) (w.addCmp m) fun r w' => Cheap hdr o t r.2 w' :=
    fun m => wp_finishN (w := w.addCmp m) h hpl herr
  have hT : Tree w.heap hdr o (plug ctx .nil) := by rw [hpl]; exact h
  unfold insertN_
  rw [wp_bind]
  by_cases hxn : x = .null
  · simp only [hxn, ne_eq, not_true, if_false]
    cases ctx with
    | nil =>
      simp only [par_nil, if_true, wp_pure]
      exact hf 0
    | cons f fs =>
      have hne : ¬ f.p = hdr := hT.toZ.par_ne_hdr
      have hcl := hT.toZ.parCell
      simp only [par_cons, hne, if_false]
      rw [wp_bind, wp_keyOf hcl hT.toZ.par_ne_null (cellS_val ..), wp_cmp, hside.2 hxn f fs rfl]
      exact hf 1
  · simp only [ne_eq, hxn, not_false_eq_true, if_true, wp_pure]
    have := hf 0
    rw [hside.1 hxn] at this
    exact this

theorem wp_insertEqualLowerN (h : Tree w.heap hdr o t) (herr : w.err = none) :
    wp (insertEqualLowerN lt hdr k) w fun r w' => Cheap hdr o t r.2 w' := by
  unfold insertEqualLowerN
  rw [wp_bind, wp_rd h.cell h.hdr_ne, wp_bind]
  simp only [hdCell]
  refine wp_lowerDescend (ctx := []) (t := t) (by exact h) (by intro f hf; simp at hf) ?_
  intro ctx n hpl hp _
  simp only [plug] at hpl
  have hf : ∀ m, wp (withNodeN hdr k (linkN hdr (par hdr ctx) (isL ctx))) (w.addCmp m) fun r w' => Cheap hdr o t r.2 w' :=
    fun m => wp_finishN (w := w.addCmp m) h hpl herr
  have hT : Tree (w.addCmp n).heap hdr o (plug ctx .nil) := by rw [hpl]; exact h
  unfold insertLowerN
  rw [wp_bind]
  cases ctx with
  | nil =>
    simp only [par_nil, if_true, wp_pure]
    exact hf n
  | cons f fs =>
    have hne : ¬ f.p = hdr := hT.toZ.par_ne_hdr
    have hcl := hT.toZ.parCell
    simp only [par_cons, hne, if_false]
    rw [wp_bind, wp_keyOf hcl hT.toZ.par_ne_null (cellS_val ..), wp_bind, wp_cmp, wp_pure]
    have e : (!lt f.k k) = isL (f :: fs) := by
      rw [hp f (by simp)]
      rcases f with ⟨_ | _, p, c, kf, sib⟩ <;> rfl
    rw [e, World.addCmp_addCmp]
    exact hf (n + 1)

/-- The hint of an insertion is an iterator of the tree, and with a hint the comparator is asymmetric (specification, no code). -/
def Way.Ok (lt : K → K → Bool) (k : K) (hdr : Ptr) (L : List (Ptr × K)) : Way → Prop
  | .at pos | .emplaceAt pos | .equalAt pos | .hint pos => (∀ a, lt a k = true → lt k a = false) ∧ HintOk hdr pos L
  | _ => True

theorem wp_insertByN {y : Way} (h : Tree w.heap hdr o t) (hy : y.Ok lt k hdr t.nodes) (herr : w.err = none) :
    wp (insertByN lt hdr k y) w fun r w' => Cheap hdr o t r.2 w' := by
  cases y with
  | plain =>
    simp only [insertByN, wp_bind]
    exact wp_insertUniqueN h herr fun _ _ t' h1 h2 h3 h4 => ⟨t', h1, h2, h3, h4⟩
  | «at» pos =>
    simp only [insertByN]; unfold insertUniqueAtN
    rw [wp_bind]
    refine wp_hint_any hy.1 h hy.2 ⟨?_, ?_⟩
    · intro ctx x n hpl hside _ _
      simp only [ne_eq, h.par_ne_null hpl, not_false_eq_true, if_true]
      exact wp_insertN_side (w := w.addCmp n) h hpl hside herr
    · intro A p k' B n _ _ _ _
      simp only [ne_eq, not_true, if_false, wp_pure]
      exact .zero (w' := w.addCmp n) h
  | emplace =>
    refine wp_withNodeN (F := fun z => do
      let (x, p) ← getInsertUniquePos lt hdr (← keyOf z)
      if p ≠ .null then insertNodeN lt hdr x p z else do destroyNode hdr z; pure (x, 0, 0)) h herr ?_
    intro w1 a c hT hz hv hl hd
    rw [wp_bind, wp_keyOf hz (by simp) hv, wp_bind]
    refine wp_unique_any hT ⟨?_, ?_⟩
    · intro ctx x n hpl hside _ _
      simp only [ne_eq, h.par_ne_null hpl, not_false_eq_true, if_true]
      refine wp_insertNodeN_side (o := o) (w := w1.addCmp n) (by rw [hpl]; exact hT) hside hz (by simp) hv fun m => ?_
      rw [World.addCmp_addCmp]
      exact hl ctx _ hpl
    · intro A p k' B n _ _ _ _
      simp only [ne_eq, not_true, if_false]
      exact hd n p
  | emplaceAt pos =>
    refine wp_withNodeN (F := fun z => do
      let (x, p) ← getInsertHintUniquePos lt hdr pos (← keyOf z)
      if p ≠ .null then insertNodeN lt hdr x p z else do destroyNode hdr z; pure (x, 0, 0)) h herr ?_
    intro w1 a c hT hz hv hl hd
    rw [wp_bind, wp_keyOf hz (by simp) hv, wp_bind]
    refine wp_hint_any hy.1 hT hy.2 ⟨?_, ?_⟩
    · intro ctx x n hpl hside _ _
      simp only [ne_eq, h.par_ne_null hpl, not_false_eq_true, if_true]
      refine wp_insertNodeN_side (o := o) (w := w1.addCmp n) (by rw [hpl]; exact hT) hside hz (by simp) hv fun m => ?_
      rw [World.addCmp_addCmp]
      exact hl ctx _ hpl
    · intro A p k' B n _ _ _ _
      simp only [ne_eq, not_true, if_false]
      exact hd n p
  | equal =>
    simp only [insertByN]; unfold insertEqualN
    rw [wp_bind]
    refine wp_getInsertEqualPos h ?_
    intro ctx n hpl hside _ _
    exact wp_insertN_side (w := w.addCmp n) h hpl hside herr
  | equalAt pos =>
    simp only [insertByN]; unfold insertEqualAtN
    rw [wp_bind]
    refine wp_hintEqual_any hy.1 h hy.2 ?_ ?_
    · intro ctx x n hpl hside _
      simp only [ne_eq, h.par_ne_null hpl, not_false_eq_true, if_true]
      exact wp_insertN_side (w := w.addCmp n) h hpl hside herr
    · simp only [ne_eq, not_true, if_false]
      exact wp_insertEqualLowerN (w := w.addCmp 2) h herr
  | upper =>
    refine wp_withNodeN (F := fun z => do
      let (x, p) ← getInsertEqualPos lt hdr (← keyOf z)
      insertNodeN lt hdr x p z) h herr ?_
    intro w1 a c hT hz hv hl _
    rw [wp_bind, wp_keyOf hz (by simp) hv, wp_bind]
    refine wp_getInsertEqualPos hT ?_
    intro ctx n hpl hside _ _
    refine wp_insertNodeN_side (o := o) (w := w1.addCmp n) (by rw [hpl]; exact hT) hside hz (by simp) hv fun m => ?_
    rw [World.addCmp_addCmp]
    exact hl ctx _ hpl
  | lower => exact wp_insertEqualLowerN h herr
  | hint pos =>
    refine wp_withNodeN (F := fun z => do
      let (x, p) ← getInsertHintEqualPos lt hdr pos (← keyOf z)
      if p ≠ .null then insertNodeN lt hdr x p z else insertEqualLowerNodeN lt hdr z) h herr ?_
    intro w1 a c hT hz hv hl _
    rw [wp_bind, wp_keyOf hz (by simp) hv, wp_bind]
    refine wp_hintEqual_any hy.1 hT hy.2 ?_ ?_
    · intro ctx x n hpl hside _
      simp only [ne_eq, h.par_ne_null hpl, not_false_eq_true, if_true]
      refine wp_insertNodeN_side (o := o) (w := w1.addCmp n) (by rw [hpl]; exact hT) hside hz (by simp) hv fun m => ?_
      rw [World.addCmp_addCmp]
      exact hl ctx _ hpl
    · simp only [ne_eq, not_true, if_false]
      refine wp_insertEqualLowerNodeN (o := o) (w := w1.addCmp 2) (t := t) hT hz (by simp) hv fun ctx m hpl => ?_
      rw [World.addCmp_addCmp]
      exact hl ctx _ hpl

end
end Nestl.RB
