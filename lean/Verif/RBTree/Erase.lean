import Verif.RBTree.EraseUnlink
import Verif.RBTree.Bounds
set_option autoImplicit false
/-
Erasing one element: unlinking, rebalancing, destroying the node.
-/
namespace Nestl.RB
variable {K : Type}

section
variable {hdr : Ptr} {w : W K} {ctx : Ctx K} {t l r : T K} {o : Nat}

/-- The unlinking phase of erase. -/
theorem wp_eraseUnlink {z : Ptr} {zc : Color} {k : K} {Q : Ptr × Ptr → W K → Prop}
    (h : Tree w.heap hdr o (plug ctx (.node z zc l k r)))
    (hQ : ∀ H' nz ctx' x, nz.val = some k → nz.owner = o →
      (plug ctx' x).nodes = (pre ctx ++ l.nodes) ++ (r.nodes ++ post ctx) →
      (nz.color = .red → ∃ m, RB (plug ctx' x) m ∧ (plug ctx' x).color = .black) →
      (nz.color = .black → Short ctx' x) →
      Z (upd w.heap z (some nz)) hdr ⟨firstP hdr (plug ctx' x).nodes, lastP hdr (plug ctx' x).nodes, o,
        (plug ctx (.node z zc l k r)).nodes.length⟩ ctx' x H' →
      Q (x.ptr, par hdr ctx') (w.setHeap H')) :
    wp (eraseUnlink z hdr) w Q := by
  have hZ := h.toZ
  have hz := hZ.focus (s := .L)
  have hzn := hZ.focus_ne_null (s := .L)
  obtain ⟨m, hrb⟩ := h.rb
  have hlp : l ≠ .nil → l.ptr ≠ .null := fun hl e => hZ.ne_null (p := .null)
    (mem_plug_ptrs.2 (Or.inr (by rw [ptrs_mk_L, mem_ptrs_mk]; exact Or.inr (Or.inl (e ▸ ptr_mem_ptrs hl))))) rfl
  have hrp : r ≠ .nil → r.ptr ≠ .null := fun hl e => hZ.ne_null (p := .null)
    (mem_plug_ptrs.2 (Or.inr (by rw [ptrs_mk_L, mem_ptrs_mk]; exact Or.inr (Or.inr (e ▸ ptr_mem_ptrs hl))))) rfl
  unfold eraseUnlink
  simp only [wp_bind]
  rw [wp_rd hz hzn]
  simp only [cellS]
  by_cases hl : l = .nil
  · subst hl
    refine wp_if_pos rfl ?_
    rw [wp_pure]
    refine wp_if_neg (by simp) ?_
    refine wp_unlink1 (s := .L) hZ rfl rfl ?_
    intro H' hz'
    obtain ⟨n, hc, hr, -⟩ := RB_unplug hrb h.black
    have hrm := remove_RB (s := .L) hc hr
    exact hQ H' (cellS .L zc (par hdr ctx) .null r.ptr k o) ctx r (cellS_val ..) (cellS_owner ..) (by rw [plug_nodes]; simp [T.nodes]) (fun e => hrm.1 (by simpa using e)) (fun e => hrm.2 (by simpa using e)) hz'
  · refine wp_if_neg (hlp hl) ?_
    by_cases hr : r = .nil
    · subst hr
      refine wp_if_pos rfl ?_
      rw [wp_pure]
      refine wp_if_neg (by simp) ?_
      refine wp_unlink1 (s := .R) (x := l) hZ rfl rfl ?_
      intro H' hz'
      obtain ⟨n, hc, hr, -⟩ := RB_unplug hrb h.black
      have hrm := remove_RB (s := .R) (p := z) (k := k) (x := l) hc hr
      refine hQ H' (cellS .R zc (par hdr ctx) .null l.ptr k o) ctx l (cellS_val ..) (cellS_owner ..) (by rw [plug_nodes]; simp [T.nodes]) (fun e => hrm.1 (by simpa using e)) (fun e => hrm.2 (by simpa using e)) hz'
    · refine wp_if_neg (hrp hr) ?_
      obtain ⟨rc, y, yc, ky, yr, rfl, hpre, hfirst⟩ := exists_min hr
      simp only [wp_bind]
      have hrr := (Rep_mk (s := .L)).1 hZ.rep
      have hr0 : Ptr.null ∉ (plug rc (T.node y yc .nil ky yr)).ptrs := fun hh => hZ.ne_null (p := .null)
        (mem_plug_ptrs.2 (Or.inr (by rw [ptrs_mk_L, mem_ptrs_mk]; exact Or.inr (Or.inr hh)))) rfl
      refine wp_minLoop hrr.2.2 hr hr0 hdr ?_
      rw [hfirst]
      have hymem : y ∈ (plug rc (T.node y yc .nil ky yr)).ptrs := by
        rw [mem_plug_ptrs, ptrs_mk_L, mem_ptrs_mk]; simp
      have hyn : y ≠ .null := fun e => hr0 (e ▸ hymem)
      have hyz : y ≠ z := by
        rintro rfl
        exact ((nodup_ptrs_mk (s := .L)).1 (nodup_plug_ptrs.1 hZ.ok.nodup).2.1).2.1 hymem
      have hy := ((Rep_mk (s := .L)).1 (Seg_iff.1 hrr.2.2).2).1
      rw [wp_rd hy hyn, wp_pure]
      refine wp_if_pos hyz ?_
      refine wp_unlink2 hZ hl hpre ?_
      intro H' nz hnc hnv hno hz'
      -- nodes
      have hnod : (plug (rc ++ ⟨.R, y, zc, ky, l⟩ :: ctx) yr).nodes
          = (pre ctx ++ l.nodes) ++ ((plug rc (T.node y yc .nil ky yr)).nodes ++ post ctx) := by
        rw [plug_append, plug, plug_nodes, plug_nodes]
        simp only [mk, T.nodes, plug_nodes, hpre]
        simp
      have hnod0 : (plug ctx (T.node z zc l k (plug rc (T.node y yc .nil ky yr)))).nodes
          = (pre ctx ++ l.nodes) ++ (z, k) :: ((plug rc (T.node y yc .nil ky yr)).nodes ++ post ctx) := by
        rw [plug_nodes]; simp [T.nodes]
      have hln := nodes_ne_nil hl
      have hrn := nodes_ne_nil hr
      have hf : firstP hdr (plug (rc ++ ⟨.R, y, zc, ky, l⟩ :: ctx) yr).nodes
          = firstP hdr (plug ctx (T.node z zc l k (plug rc (T.node y yc .nil ky yr)))).nodes := by
        rw [hnod, hnod0]
        cases hp : pre ctx ++ l.nodes with
        | nil => simp at hp; exact absurd hp.2 hln
        | cons a L => simp
      have hla : lastP hdr (plug (rc ++ ⟨.R, y, zc, ky, l⟩ :: ctx) yr).nodes
          = lastP hdr (plug ctx (T.node z zc l k (plug rc (T.node y yc .nil ky yr)))).nodes := by
        rw [hnod, hnod0]
        rcases List.eq_nil_or_concat ((plug rc (T.node y yc .nil ky yr)).nodes ++ post ctx) with hp | ⟨A, a, hp⟩
        · simp at hp; exact absurd hp.1 hrn
        · rw [hp, List.concat_eq_append, lastP_append, lastP_append,
            ← List.cons_append, lastP_append, lastP_append]
          simp [lastP]
      have hzl : (plug ctx (T.node z zc l k (plug rc (T.node y yc .nil ky yr)))) =
          plug (rc ++ ⟨.R, z, zc, k, l⟩ :: ctx) (T.node y yc .nil ky yr) := by
        rw [plug_append]; rfl
      have hb := h.black
      rw [hzl] at hrb hb
      obtain ⟨n, hc, hrr', -⟩ := RB_unplug hrb hb
      replace hc := (CRB_append (c1 := rc) (c2 := ctx) (n := n) (f := ⟨.R, z, zc, k, l⟩) (g := ⟨.R, y, zc, ky, l⟩) rfl rfl).1 hc
      have hrm := remove_RB (s := .L) hc hrr'
      have hpa : par y rc = par hdr (rc ++ ⟨.R, y, zc, ky, l⟩ :: ctx) := by rw [par_append]
      rw [hpa]
      refine hQ H' nz _ yr hnv hno hnod (hnc ▸ hrm.1) (hnc ▸ hrm.2) ?_
      rw [hf, hla]
      exact hz'

/-- A valid-tree zipper whose root has been blackened. -/
theorem Z.toTree {H0 H : Ptr → Option (TNode K)} {c : Nat} (h : Z H0 hdr ⟨firstP hdr t.nodes, lastP hdr t.nodes, o, c⟩ [] t H)
    (hc : c = t.nodes.length) (hr : ∃ n, RB t n) (hb : t.color = .black) : Tree H hdr o t :=
  ⟨by rw [← hc]; exact h.hdrCell, h.rep, h.ok, hr, hb⟩

/-- `rb_tree_rebalance_for_erase` on a node of a valid tree. -/
theorem wp_rebalanceForErase {z : Ptr} {zc : Color} {k : K} {Q : Ptr → W K → Prop}
    (h : Tree w.heap hdr o (plug ctx (.node z zc l k r)))
    (hQ : ∀ H' nz t', nz.val = some k → nz.owner = o →
      t'.nodes = (pre ctx ++ l.nodes) ++ (r.nodes ++ post ctx) →
      (∃ m, RB t' m) → t'.color = .black →
      Z (upd w.heap z (some nz)) hdr ⟨firstP hdr t'.nodes, lastP hdr t'.nodes, o,
        (plug ctx (.node z zc l k r)).nodes.length⟩ [] t' H' → Q z (w.setHeap H')) :
    wp (rebalanceForErase z hdr) w Q := by
  have hZ := h.toZ
  have hzn := hZ.focus_ne_null (s := .L)
  have hzh := hZ.focus_ne_hdr (s := .L)
  have hnd : z ∉ ((pre ctx ++ l.nodes) ++ (r.nodes ++ post ctx)).map Prod.fst := by
    have hnd := h.ok.nodup
    have hnod0 : (plug ctx (T.node z zc l k r)).nodes
          = (pre ctx ++ l.nodes) ++ (z, k) :: (r.nodes ++ post ctx) := by
      rw [plug_nodes]; simp [T.nodes]
    rw [T.ptrs, hnod0] at hnd
    simp only [List.map_append, List.map_cons, List.nodup_append, List.nodup_cons, List.mem_append, List.mem_cons] at hnd ⊢
    grind
  unfold rebalanceForErase
  rw [wp_bind]
  refine wp_eraseUnlink h ?_
  intro H1 nz ctx' x hnv hno hnod hred hblk hz1
  simp only [wp_bind]
  have hzcell : H1 z = some nz := by
    rw [hz1.frame z hzh (by rw [T.ptrs, hnod]; exact hnd), upd_same]
  rw [wp_rd (by exact hzcell) hzn]
  cases hcol : nz.color with
  | red =>
    refine wp_if_neg (by simp) ?_
    rw [wp_pure]
    obtain ⟨m, h1, h2⟩ := hred hcol
    exact hQ H1 nz (plug ctx' x) hnv hno hnod ⟨m, h1⟩ h2 hz1.toPlug
  | black =>
    refine wp_if_pos (by simp) ?_
    rw [wp_bind]
    refine wp_eraseFix ctx'.length (Nat.le_refl _) (by exact hz1) (hblk hcol) ?_
    intro H2 ctx2 t2 hz2 hnod2 hdone
    obtain ⟨m, h1, h2⟩ := hdone
    have hbn : (plug ctx2 t2.blacken).nodes = (plug ctx2 t2).nodes := by
      rw [plug_nodes, plug_nodes, blacken_nodes]
    have fin : ∀ H', Z (upd w.heap z (some nz)) hdr ⟨firstP hdr (plug ctx' x).nodes, lastP hdr (plug ctx' x).nodes, o,
        (plug ctx (.node z zc l k r)).nodes.length⟩ ctx2 t2.blacken H' → Q z (w.setHeap H') := by
      intro H' hz'
      refine hQ H' nz (plug ctx2 t2.blacken) hnv hno (by rw [hbn, hnod2, hnod]) ⟨m, h1⟩ h2 ?_
      have := hz'.toPlug
      rw [hbn, hnod2]
      exact this
    simp only [World.setHeap_setHeap, wp_bind]
    by_cases ht2 : t2 = .nil
    · subst ht2
      refine wp_if_neg (by simp [T.ptr]) ?_
      exact fin _ hz2
    · obtain ⟨p2, c2, a2, k2, b2, rfl⟩ := exists_mk .L ht2
      refine wp_if_pos (by rw [mk_ptr]; exact hz2.focus_ne_null) ?_
      rw [mk_ptr, wp_bind]
      refine wp_setColor_focus (w := w.setHeap H2) (by exact hz2) ?_
      intro H3 hz3
      exact fin _ hz3

theorem wp_destroyNode {p : Ptr} {n hn : TNode K} {k : K} {a : Nat} {Q : Unit → W K → Prop} (hp : p = .dyn a)
    (hc : w.heap p = some n) (hv : n.val = some k) (hh : w.heap hdr = some hn) (hs : ∃ i, hdr = .stk i)
    (ho : n.owner = hn.owner) (hQ : Q () (w.setHeap (upd w.heap p none))) : wp (destroyNode hdr p) w Q := by
  subst hp
  obtain ⟨i, rfl⟩ := hs
  unfold destroyNode destroyVal putNode
  simp only [wp_bind, wp_rd hc (by simp), hv]
  rw [wp_modCell hc (by simp)]
  rw [wp_rd (c := hn) (by simpa [upd] using hh) (by simp)]
  refine (wp_freeCell (c := { n with val := none }) (by simp) (by simp [ho])).2 ?_
  simpa using hQ

theorem Tree.stk {H : Ptr → Option (TNode K)} (h : Tree H hdr o t) : ∃ i, hdr = .stk i := h.ok.hdr

/-- Erasing one element of a valid tree. -/
theorem wp_eraseAux {z : Ptr} {k : K} {A B : List (Ptr × K)} {Q : Unit → W K → Prop}
    (h : Tree w.heap hdr o t) (hn : t.nodes = A ++ (z, k) :: B)
    (hQ : ∀ H' t', Tree H' hdr o t' → t'.nodes = A ++ B → H' z = none →
      (∀ q, q ≠ hdr → q ≠ z → q ∉ t'.ptrs → H' q = w.heap q) → Q () (w.setHeap H')) :
    wp (eraseAux hdr z) w Q := by
  obtain ⟨ctx, zc, l, r, rfl, hA, hB⟩ := exists_zipper hn
  subst hA hB
  have hnd : z ∉ ((pre ctx ++ l.nodes) ++ (r.nodes ++ post ctx)).map Prod.fst := by
    have hnd := h.ok.nodup
    rw [T.ptrs, hn] at hnd
    simp only [List.map_append, List.map_cons, List.nodup_append, List.nodup_cons, List.mem_append, List.mem_cons] at hnd ⊢
    grind
  have hzm : z ∈ (plug ctx (T.node z zc l k r)).ptrs := by rw [T.ptrs, hn]; simp
  have hzh := h.node_ne_hdr hzm
  unfold eraseAux
  rw [wp_bind]
  refine wp_rebalanceForErase h ?_
  intro H1 nz t' hnv hno hnod hrb hbl hz
  have hzcell : H1 z = some nz := by
    rw [hz.frame z hzh (by rw [plug, T.ptrs, hnod]; exact hnd), upd_same]
  obtain ⟨a, ha⟩ := h.ok.dyn z hzm
  rw [wp_bind]
  refine wp_destroyNode (w := w.setHeap H1) ha (by exact hzcell) hnv (by exact hz.hdrCell) h.stk (by rw [hno]; rfl) ?_
  simp only [World.setHeap_heap, World.setHeap_setHeap, setCount]
  have hh2 : upd H1 z none hdr = some _ := (upd_other _ _ (Ne.symm hzh)).trans hz.hdrCell
  rw [wp_modCell (by exact hh2) h.hdr_ne]
  simp only [World.setHeap_heap, World.setHeap_setHeap]
  have hz' : z ∉ t'.ptrs := by rw [T.ptrs, hnod]; exact hnd
  have hht : hdr ∉ t'.ptrs := fun e => hz.ne_hdr (by exact e) rfl
  refine hQ _ t' ⟨?_, ?_, hz.ok, hrb, hbl⟩ hnod ?_ ?_
  · rw [upd_same, hn, hnod]
    simp [hdCell, plug]
    omega
  · exact Rep_upd (Rep_upd hz.rep hz') hht
  · rw [upd_other _ _ hzh, upd_same]
  · intro q h1 h2 h3
    rw [upd_other _ _ h1, upd_other _ _ h2, hz.frame q h1 h3, upd_other _ _ h2]

theorem Tree.toZ' {H : Ptr → Option (TNode K)} (h : Tree H hdr o t) {A B : List (Ptr × K)} {p k}
    (hn : t.nodes = A ++ (p, k) :: B) : ∃ ctx c l r, t = plug ctx (.node p c l k r) ∧ A = pre ctx ++ l.nodes ∧
      B = r.nodes ++ post ctx ∧
      Z H hdr ⟨firstP hdr t.nodes, lastP hdr t.nodes, o, t.nodes.length⟩ ctx (.node p c l k r) H := by
  obtain ⟨ctx, zc, l, r, rfl, hA, hB⟩ := exists_zipper hn
  exact ⟨ctx, zc, l, r, rfl, hA, hB, h.toZ⟩

/-- `++` on a valid tree. -/
theorem wp_increment' {p : Ptr} {k : K} {A B : List (Ptr × K)} {Q : Ptr → W K → Prop} (h : Tree w.heap hdr o t)
    (hn : t.nodes = A ++ (p, k) :: B) (hQ : Q (firstP hdr B) w) : wp (increment p) w Q := by
  obtain ⟨ctx, c, l, r, rfl, -, rfl, hz⟩ := h.toZ' hn
  exact wp_increment hz hQ

/-- `--` on an element of a valid tree other than the first. -/
theorem wp_decrement' {p : Ptr} {k : K} {A B : List (Ptr × K)} {Q : Ptr → W K → Prop} (h : Tree w.heap hdr o t)
    (hn : t.nodes = A ++ (p, k) :: B) (hA : A ≠ []) (hQ : Q (lastP hdr A) w) : wp (decrement p) w Q := by
  obtain ⟨ctx, c, l, r, rfl, rfl, -, hz⟩ := h.toZ' hn
  exact wp_decrement hz h.black hA hQ

/-- `erase(iterator)`. -/
theorem wp_eraseIter {z : Ptr} {k : K} {A B : List (Ptr × K)} {Q : Ptr → W K → Prop}
    (h : Tree w.heap hdr o t) (hn : t.nodes = A ++ (z, k) :: B)
    (hQ : ∀ H' t', Tree H' hdr o t' → t'.nodes = A ++ B → H' z = none →
      (∀ q, q ≠ hdr → q ≠ z → q ∉ t'.ptrs → H' q = w.heap q) → Q (firstP hdr B) (w.setHeap H')) :
    wp (eraseIter hdr z) w Q := by
  unfold eraseIter
  rw [wp_bind]
  refine wp_increment' h hn ?_
  rw [wp_bind]
  refine wp_eraseAux h hn ?_
  intro H' t' h1 h2 h3 h4
  exact hQ H' t' h1 h2 h3 h4

/-- The loop of `erase(first, last)` removes exactly the range. -/
theorem wp_eraseRangeLoop {A M B : List (Ptr × K)} {Q : Unit → W K → Prop}
    (h : Tree w.heap hdr o t) (hn : t.nodes = A ++ (M ++ B))
    (hQ : ∀ H' t', Tree H' hdr o t' → t'.nodes = A ++ B → (∀ x ∈ M, H' x.1 = none) →
      (∀ q, q ≠ hdr → q ∉ M.map Prod.fst → q ∉ t'.ptrs → H' q = w.heap q) → Q () (w.setHeap H')) :
    wp (eraseRangeLoop hdr (firstP hdr (M ++ B)) (firstP hdr B)) w Q := by
  induction M generalizing w t with
  | nil =>
    rw [eraseRangeLoop]
    simp only [List.nil_append, wp_ite]
    rw [if_neg (by simp)]
    exact hQ w.heap t h (by simpa using hn) (by simp) (by simp)
  | cons x M ih =>
    rcases x with ⟨p, k⟩
    have hpne : p ≠ firstP hdr B := by
      have hnd := h.ok.nodup
      have hpm : p ∈ t.ptrs := by rw [T.ptrs, hn]; simp
      have := h.node_ne_hdr hpm
      rw [T.ptrs, hn] at hnd
      cases B with
      | nil => simpa using this
      | cons b B =>
        simp only [List.map_append, List.map_cons, List.cons_append, List.nodup_append, List.nodup_cons, List.mem_append, List.mem_cons] at hnd
        simp only [firstP_cons]
        grind
    rw [eraseRangeLoop]
    simp only [List.cons_append, firstP_cons]
    refine wp_if_pos hpne ?_
    rw [wp_bind]
    refine wp_increment' h (A := A) (B := M ++ B) (k := k) (by simpa using hn) ?_
    rw [wp_bind]
    refine wp_eraseIter h (A := A) (B := M ++ B) (k := k) (by simpa using hn) ?_
    intro H1 t1 ht1 hn1 hz1 hf1
    refine ih (w := w.setHeap H1) ht1 hn1 ?_
    intro H2 t2 ht2 hn2 hz2 hf2
    have hpm : p ∉ (A ++ (M ++ B)).map Prod.fst := by
      have hnd := h.ok.nodup
      rw [T.ptrs, hn] at hnd
      simp only [List.map_append, List.map_cons, List.cons_append, List.nodup_append, List.nodup_cons, List.mem_append, List.mem_cons] at hnd ⊢
      grind
    have hph : p ≠ hdr := h.node_ne_hdr (by rw [T.ptrs, hn]; simp)
    have hsub : ∀ q, q ∈ M.map Prod.fst ∨ q ∈ t2.ptrs → q ∈ t1.ptrs := by
      intro q; simp only [T.ptrs, hn1, hn2, List.map_append, List.mem_append]; grind
    have hsub2 : ∀ q, q ∈ t1.ptrs → q ∈ M.map Prod.fst ∨ q ∈ t2.ptrs := by
      intro q; simp only [T.ptrs, hn1, hn2, List.map_append, List.mem_append]; grind
    have hp1 : p ∉ t1.ptrs := by rw [T.ptrs, hn1]; exact hpm
    refine hQ H2 t2 ht2 hn2 ?_ ?_
    · intro x hx
      rcases List.mem_cons.1 hx with rfl | hx
      · have := hf2 p hph (fun e => hp1 (hsub p (Or.inl e))) (fun e => hp1 (hsub p (Or.inr e)))
        exact this.trans hz1
      · exact hz2 x hx
    · intro q h1 h2 h3
      simp only [List.map_cons, List.mem_cons, not_or] at h2
      have := hf2 q h1 h2.2 h3
      refine this.trans (hf1 q h1 h2.1 ?_)
      intro e
      rcases hsub2 q e with e | e
      · exact h2.2 e
      · exact h3 e

theorem wp_mErase {hn : TNode K} {par : Ptr} {Q : Unit → W K → Prop} (hr : Rep w.heap o par t)
    (hok : PtrsOk hdr t.ptrs) (hh : w.heap hdr = some hn) (ho : hn.owner = o)
    (hQ : ∀ H', (∀ q ∈ t.ptrs, H' q = none) → (∀ q, q ∉ t.ptrs → H' q = w.heap q) → Q () (w.setHeap H')) :
    wp (mErase hdr t.ptr) w Q := by
  induction t generalizing w par Q with
  | nil =>
    rw [mErase]
    refine wp_if_neg (by simp [T.ptr]) ?_
    exact hQ w.heap (by simp [T.ptrs, T.nodes]) (fun _ _ => rfl)
  | node p c l k r ihl ihr =>
    have hmem : ∀ q, q ∈ (T.node p c l k r).ptrs ↔ q = p ∨ q ∈ l.ptrs ∨ q ∈ r.ptrs := fun q => by
      rw [ptrs_mk_L, mem_ptrs_mk]
    have hnd := (nodup_ptrs_mk (s := .L)).1 hok.nodup
    obtain ⟨hn1, hn2, hn3, hn4, hn5⟩ := hnd
    obtain ⟨a, rfl⟩ := hok.dyn p (by rw [hmem]; simp)
    have hokl : PtrsOk hdr l.ptrs := ⟨hn3, fun q hq => hok.dyn q (by rw [hmem]; simp [hq]), hok.hdr⟩
    have hokr : PtrsOk hdr r.ptrs := ⟨hn4, fun q hq => hok.dyn q (by rw [hmem]; simp [hq]), hok.hdr⟩
    have hh' : ∀ q, q ∈ (T.node (.dyn a) c l k r).ptrs → hdr ≠ q := by
      intro q hq e
      obtain ⟨i, hi⟩ := hok.hdr
      obtain ⟨j, hj⟩ := hok.dyn q hq
      rw [hi, hj] at e; cases e
    obtain ⟨hc, hrl, hrr⟩ := (Rep_mk (s := .L)).1 hr
    rw [T.ptr, mErase]
    refine wp_if_pos (by simp) ?_
    simp only [wp_bind]
    rw [wp_rd hc (by simp)]
    simp only [cellS]
    refine ihr hrr hokr hh ?_
    intro H1 h1a h1b
    have hc1 : H1 (.dyn a) = some _ := (h1b _ hn2).trans hc
    rw [wp_rd (by exact hc1) (by simp)]
    have hh1 : H1 hdr = some hn := (h1b _ (fun e => hh' hdr (by rw [hmem]; simp [e]) rfl)).trans hh
    refine wp_destroyNode (w := w.setHeap H1) rfl (by exact hc1) (cellS_val ..) (by exact hh1) hok.hdr
      (by rw [ho]; exact cellS_owner ..) ?_
    simp only [World.setHeap_heap, World.setHeap_setHeap]
    refine ihl (w := w.setHeap (upd H1 (.dyn a) none)) (par := .dyn a) ?_ hokl ?_ ?_
    · refine Rep_upd (Rep_congr (fun q hq => h1b q ?_) hrl) hn1
      exact fun e => hn5 q hq e
    · exact (upd_other _ _ (hh' _ (by rw [hmem]; simp))).trans hh1
    · intro H2 h2a h2b
      refine hQ H2 ?_ ?_
      · intro q hq
        rw [hmem] at hq
        by_cases hql : q ∈ l.ptrs
        · exact h2a q hql
        · rw [h2b q hql]
          by_cases hqp : q = .dyn a
          · subst hqp; exact upd_same _ _ _
          · exact (upd_other _ _ hqp).trans (h1a q (by grind))
      · intro q hq
        rw [hmem] at hq
        rw [h2b q (by grind)]
        exact (upd_other _ _ (by grind)).trans (h1b q (by grind))

/-- `clear()`. -/
theorem wp_clear {Q : Unit → W K → Prop} (h : Tree w.heap hdr o t)
    (hQ : ∀ H', Tree H' hdr o .nil → (∀ q ∈ t.ptrs, H' q = none) → (∀ q, q ≠ hdr → q ∉ t.ptrs → H' q = w.heap q) →
      Q () (w.setHeap H')) : wp (clear hdr) w Q := by
  unfold clear
  have hhn := h.hdr_ne
  have hht : hdr ∉ t.ptrs := fun e => h.node_ne_hdr e rfl
  simp only [wp_bind]
  rw [wp_rd h.cell hhn]
  simp only [hdCell]
  refine wp_mErase h.rep h.ok h.cell rfl ?_
  intro H1 h1a h1b
  have hh1 : H1 hdr = some _ := (h1b _ hht).trans h.cell
  unfold setLeft setParent setRight setCount
  rw [wp_modCell (by exact hh1) hhn]
  rw [wp_modCell (by exact upd_same _ _ _) hhn]
  rw [wp_modCell (by exact upd_same _ _ _) hhn]
  rw [wp_modCell (by exact upd_same _ _ _) hhn]
  simp only [World.setHeap_heap, World.setHeap_setHeap, upd_upd]
  refine hQ _ ⟨?_, trivial, ⟨by simp [T.ptrs, T.nodes], by simp [T.ptrs, T.nodes], h.ok.hdr⟩, ⟨0, rfl⟩, rfl⟩ ?_ ?_
  · rw [upd_same]; rfl
  · intro q hq
    rw [upd_other _ _ (by rintro rfl; exact hht hq), h1a q hq]
  · intro q h1 h2
    rw [upd_other _ _ h1, h1b q h2]

/-- `erase(first, last)`. -/
theorem wp_eraseRange {A M B : List (Ptr × K)} {Q : Ptr → W K → Prop}
    (h : Tree w.heap hdr o t) (hn : t.nodes = A ++ (M ++ B))
    (hQ : ∀ H' t', Tree H' hdr o t' → t'.nodes = A ++ B → (∀ x ∈ M, H' x.1 = none) →
      (∀ q, q ≠ hdr → q ∉ M.map Prod.fst → q ∉ t'.ptrs → H' q = w.heap q) → Q (firstP hdr B) (w.setHeap H')) :
    wp (eraseRange hdr (firstP hdr (M ++ B)) (firstP hdr B)) w Q := by
  unfold eraseRange begin_
  simp only [wp_bind]
  rw [wp_rd h.cell h.hdr_ne, wp_pure]
  simp only [hdCell]
  by_cases hc : firstP hdr (M ++ B) = firstP hdr t.nodes ∧ firstP hdr B = hdr
  · refine wp_if_pos hc ?_
    rw [wp_bind]
    obtain ⟨hc1, hc2⟩ := hc
    have hB : B = [] := by
      cases B with
      | nil => rfl
      | cons b B =>
        exfalso
        exact h.node_ne_hdr (p := b.1) (by rw [T.ptrs, hn]; simp) (by simpa using hc2)
    subst hB
    have hA : A = [] := by
      cases A with
      | nil => rfl
      | cons x A =>
        exfalso
        rw [hn] at hc1
        have hnd := h.ok.nodup
        have hx : x.1 ≠ hdr := h.node_ne_hdr (p := x.1) (by rw [T.ptrs, hn]; simp)
        rw [T.ptrs, hn] at hnd
        cases M with
        | nil => simp at hc1; exact hx hc1.symm
        | cons m M =>
          simp only [List.append_nil, List.cons_append, firstP_cons, List.map_append, List.map_cons, List.nodup_cons, List.mem_append, List.mem_cons] at hc1 hnd
          grind
    subst hA
    simp only [List.nil_append, List.append_nil] at hn
    refine wp_clear h ?_
    intro H' ht' h1 h2
    refine hQ H' .nil ht' rfl ?_ ?_
    · intro x hx; exact h1 _ (by rw [T.ptrs, hn]; exact List.mem_map_of_mem hx)
    · intro q h3 h4 _
      exact h2 q h3 (by rw [T.ptrs, hn]; exact h4)
  · refine wp_if_neg hc ?_
    rw [wp_bind]
    refine wp_eraseRangeLoop h hn ?_
    intro H' t' h1 h2 h3 h4
    exact hQ H' t' h1 h2 h3 h4

/-- `erase(key)`: removes the equal range found by `equal_range` and returns its length. -/
theorem wp_eraseKey {lt : K → K → Bool} {k : K} {Q : Nat → W K → Prop} (h : Tree w.heap hdr o t)
    (hQ : ∀ n H' t' A M B, n ≤ 2 * t.height → t.nodes = A ++ (M ++ B) → (SWO lt → WSorted lt t.nodes → ECut lt k A M B) →
      Tree H' hdr o t' → t'.nodes = A ++ B → (∀ x ∈ M, H' x.1 = none) →
      (∀ q, q ≠ hdr → q ∉ M.map Prod.fst → q ∉ t'.ptrs → H' q = w.heap q) →
      Q M.length ((w.addCmp n).setHeap H')) :
    wp (eraseKey lt hdr k) w Q := by
  unfold eraseKey size
  rw [wp_bind]
  refine wp_equalRange h ?_
  intro n A M B hnod hn hcut
  simp only [wp_bind]
  rw [wp_rd (by exact h.cell) h.hdr_ne, wp_pure]
  refine wp_eraseRange (w := w.addCmp n) (by exact h) hnod ?_
  intro H' t' h1 h2 h3 h4
  rw [wp_rd (by exact h1.cell) h1.hdr_ne]
  simp only [wp_pure, hdCell]
  have hlen : t.nodes.length - t'.nodes.length = M.length := by
    rw [hnod, h2]; simp; omega
  rw [hlen]
  exact hQ n H' t' A M B hn hnod hcut h1 h2 h3 h4

/-- `erase(key)` that returns 0 leaves memory as it was. -/
theorem wp_eraseKey_zero {lt : K → K → Bool} {k : K} (h : Tree w.heap hdr o t) :
    wp (eraseKey lt hdr k) w fun n w' => n = 0 → w'.heap = w.heap := by
  unfold eraseKey size
  rw [wp_bind]
  refine wp_equalRange h ?_
  intro n A M B hnod hn hcut
  simp only [wp_bind]
  rw [wp_rd (by exact h.cell) h.hdr_ne, wp_pure]
  by_cases hM : M = []
  · subst hM
    unfold eraseRange begin_
    simp only [wp_bind]
    rw [wp_rd (by exact h.cell) h.hdr_ne, wp_pure]
    simp only [hdCell, List.nil_append]
    by_cases hc : firstP hdr B = firstP hdr t.nodes ∧ firstP hdr B = hdr
    · refine wp_if_pos hc ?_
      rw [wp_bind]
      have ht : t = .nil := by
        cases hh : t.nodes with
        | nil =>
          cases t with
          | nil => rfl
          | node => simp [T.nodes] at hh
        | cons b L =>
          exfalso
          rw [hh, firstP_cons] at hc
          exact h.node_ne_hdr (p := b.1) (by rw [T.ptrs, hh]; simp) (hc.1.symm.trans hc.2)
      subst ht
      refine wp_clear (w := w.addCmp n) (by exact h) ?_
      intro H' ht' h1 h2
      have hH : H' = w.heap := by
        funext q
        by_cases hq : q = hdr
        · subst hq; rw [ht'.cell, h.cell]
        · exact h2 q hq (by simp [T.ptrs, T.nodes])
      subst hH
      simp only [wp_pure]
      rw [wp_rd (by exact h.cell) h.hdr_ne]
      exact fun _ => rfl
    · refine wp_if_neg hc ?_
      rw [wp_bind, eraseRangeLoop]
      simp only [wp_ite]
      rw [if_neg (by simp)]
      simp only [wp_pure]
      rw [wp_rd (by exact h.cell) h.hdr_ne]
      exact fun _ => rfl
  · refine wp_eraseRange (w := w.addCmp n) (by exact h) hnod ?_
    intro H' t' h1 h2 h3 h4
    rw [wp_rd (by exact h1.cell) h1.hdr_ne]
    simp only [wp_pure, hdCell]
    have hlen : t.nodes.length - t'.nodes.length = M.length := by
      rw [hnod, h2]; simp; omega
    rw [hlen]
    intro e
    exact absurd (List.length_eq_zero_iff.1 e) hM

theorem wp_distance {A M B : List (Ptr × K)} {Q : Nat → W K → Prop} (h : Tree w.heap hdr o t)
    (hn : t.nodes = A ++ (M ++ B)) (hQ : Q M.length w) :
    wp (distance (firstP hdr (M ++ B)) (firstP hdr B)) w Q := by
  induction M generalizing A Q with
  | nil =>
    rw [distance]
    simp only [List.nil_append]
    exact wp_if_neg (by simp) hQ
  | cons x M ih =>
    rcases x with ⟨p, k⟩
    have hpne : p ≠ firstP hdr B := by
      have hnd := h.ok.nodup
      have hpm : p ∈ t.ptrs := by rw [T.ptrs, hn]; simp
      have := h.node_ne_hdr hpm
      rw [T.ptrs, hn] at hnd
      cases B with
      | nil => simpa using this
      | cons b B =>
        simp only [List.map_append, List.map_cons, List.cons_append, List.nodup_append, List.nodup_cons, List.mem_append, List.mem_cons] at hnd
        simp only [firstP_cons]
        grind
    rw [distance]
    simp only [List.cons_append, firstP_cons]
    refine wp_if_pos hpne ?_
    simp only [wp_bind]
    refine wp_increment' h (A := A) (B := M ++ B) (k := k) (by simpa using hn) ?_
    refine ih (A := A ++ [(p, k)]) (by simpa using hn) ?_
    simpa using hQ

/-- `count(key)`. -/
theorem wp_count {lt : K → K → Bool} {k : K} {Q : Nat → W K → Prop} (h : Tree w.heap hdr o t)
    (hQ : ∀ n A M B, n ≤ 2 * t.height → t.nodes = A ++ (M ++ B) → (SWO lt → WSorted lt t.nodes → ECut lt k A M B) →
      Q M.length (w.addCmp n)) :
    wp (count lt hdr k) w Q := by
  unfold count
  rw [wp_bind]
  refine wp_equalRange h ?_
  intro n A M B hnod hn hcut
  exact wp_distance (w := w.addCmp n) (by exact h) hnod (hQ n A M B hn hnod hcut)

/-- Destructor. -/
theorem wp_destroyTree {Q : Unit → W K → Prop} (h : Tree w.heap hdr o t)
    (hQ : ∀ H', H' hdr = none → (∀ q ∈ t.ptrs, H' q = none) → (∀ q, q ≠ hdr → q ∉ t.ptrs → H' q = w.heap q) →
      Q () (w.setHeap H')) : wp (destroyTree hdr) w Q := by
  unfold destroyTree
  have hhn := h.hdr_ne
  have hht : hdr ∉ t.ptrs := fun e => h.node_ne_hdr e rfl
  simp only [wp_bind]
  rw [wp_rd h.cell hhn]
  simp only [hdCell]
  refine wp_mErase h.rep h.ok h.cell rfl ?_
  intro H1 h1a h1b
  have hh1 : H1 hdr = some _ := (h1b _ hht).trans h.cell
  rw [wp_dropObj (by exact hh1)]
  simp only [World.setHeap_heap, World.setHeap_setHeap]
  refine hQ _ (upd_same _ _ _) ?_ ?_
  · intro q hq
    rw [upd_other _ _ (by rintro rfl; exact hht hq), h1a q hq]
  · intro q h1 h2
    rw [upd_other _ _ h1, h1b q h2]

end
end Nestl.RB
