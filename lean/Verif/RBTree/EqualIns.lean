import Verif.RBTree.EqualOps
set_option autoImplicit false
/-
The three operations that insert next to equivalent elements.
-/
namespace Nestl.RB
variable {K : Type}

section
variable {hdr : Ptr} {w : W K} {ctx : Ctx K} {t : T K} {o : Nat} {lt : K → K → Bool} {k : K} {pos x : Ptr}
  {A B A0 B0 : List (Ptr × K)}

/-- Create a node and link it with `F` (helper of the proofs). -/
def withNode (hdr : Ptr) (k : K) (F : Ptr → M (W K) Ptr) : M (W K) Ptr := do
  let z ← createNode hdr k
  if (← hasErr) then pure hdr else F z

/-- What an insertion that may fail does: at most `b` comparisons; the new node stands at a place that meets `C`. -/
structure Inserts (w : W K) (hdr : Ptr) (o : Nat) (t : T K) (k : K) (b : Nat) (C : List (Ptr × K) → List (Ptr × K) → Nat → Prop)
    (Q : Ptr → W K → Prop) : Prop where
  fail : ∀ w' e, Refused w → Ext w w' → w'.heap = w.heap → w'.err = some e → w'.nCmp ≤ w.nCmp + b → Q hdr w'
  ok : ∀ w' a t' A B n, ¬ Refused w → Ext w w' → w'.nCmp = w.nCmp + n → n ≤ b → w'.err = none → Fresh w w' (.dyn a) → Tree w'.heap hdr o t' →
    t.nodes = A ++ B → t'.nodes = A ++ (.dyn a, k) :: B → C A B n →
    (∀ q, q ≠ hdr → q ∉ t'.ptrs → w'.heap q = w.heap q) → Q (.dyn a) w'

theorem wp_withNode {Q : Ptr → W K → Prop} {F : Ptr → M (W K) Ptr} {b : Nat} {C : List (Ptr × K) → List (Ptr × K) → Nat → Prop}
    (h : Tree w.heap hdr o t) (herr : w.err = none)
    (hF : ∀ (w1 : W K) a c, Tree w1.heap hdr o t → w1.heap (.dyn a) = some c → c.val = some k → ∀ Q : Ptr → W K → Prop,
      (∀ ctx m, plug ctx .nil = t → m ≤ b → C (pre ctx) (post ctx) m →
        wp (link hdr (par hdr ctx) (isL ctx) (.dyn a)) (w1.addCmp m) Q) → wp (F (.dyn a)) w1 Q)
    (hQ : Inserts w hdr o t k b C Q) : wp (withNode hdr k F) w Q := by
  unfold withNode
  rw [wp_bind]
  refine wp_createNode h.cell h.ok.hdr herr ?_ ?_
  · intro w' e hr he hc hh hw
    simp only [wp_bind, wp_hasErr, hw, Option.isSome_some, if_true, wp_pure]
    exact hQ.fail w' e hr he hh hw (by omega)
  · intro a c w' hr hf he hc hh hv ho hcnt hw
    simp only [wp_bind, wp_hasErr, hw, Option.isSome_none, Bool.false_eq_true, if_false]
    have hz : w'.heap (.dyn a) = some c := by rw [hh]; simp
    have hT : Tree w'.heap hdr o t := by
      refine h.congr ?_ ?_
      · rw [hh, upd_other]
        obtain ⟨i, rfl⟩ := h.ok.hdr; simp
      · intro q hq
        rw [hh, upd_other]
        rintro rfl
        obtain ⟨c', hc', -⟩ := Rep_alloc h.rep _ hq
        rw [hf.none] at hc'; cases hc'
    refine hF w' a c hT hz hv _ ?_
    intro ctx m hpl hm hC
    refine wp_link (o := o) (k := k) (H := w.heap) (c := c) (a := a) (by rw [hpl]; exact h) (by exact hh) hf.none hv ho hcnt ?_
    intro H' t' ht' hn' hfr
    refine hQ.ok _ a t' (pre ctx) (post ctx) m hr ?_ ?_ hm ?_ ?_ ht' (hole_nodes hpl) hn' hC hfr
    · exact he.trans ((Ext.addCmp w' m).trans (Ext.setHeap _ _))
    · show w'.nCmp + m = _; omega
    · exact hw
    · exact ⟨hf.none, hf.req⟩

theorem emplaceEqual_eq (lt : K → K → Bool) (hdr : Ptr) (k : K) : emplaceEqual lt hdr k = withNode hdr k (fun z => do
    let (x, p) ← getInsertEqualPos lt hdr (← keyOf z)
    insertNode lt hdr x p z) := rfl

theorem wp_emplaceEqual {Q : Ptr → W K → Prop} (h : Tree w.heap hdr o t) (herr : w.err = none)
    (hQ : Inserts w hdr o t k (t.height + 1) (fun A B _ => SWO lt → WSorted lt t.nodes → UCut lt k A B) Q) :
    wp (emplaceEqual lt hdr k) w Q := by
  rw [emplaceEqual_eq]
  refine wp_withNode h herr ?_ hQ
  intro w1 a c hT hz hv Q hk
  simp only [wp_bind]
  rw [wp_keyOf hz (by simp) hv]
  refine wp_getInsertEqualPos hT ?_
  intro ctx n hpl hside hcut hn
  refine wp_insertNode_side (o := o) (w := w1.addCmp n) (by rw [hpl]; exact hT) hside hz (by simp) hv ?_
  intro m hm
  rw [World.addCmp_addCmp]
  exact hk ctx _ hpl (by omega) hcut

theorem emplaceHintEqual_eq (lt : K → K → Bool) (hdr pos : Ptr) (k : K) : emplaceHintEqual lt hdr pos k = withNode hdr k (fun z => do
    let (x, p) ← getInsertHintEqualPos lt hdr pos (← keyOf z)
    if p ≠ .null then insertNode lt hdr x p z
    else insertEqualLowerNode lt hdr z) := rfl

theorem wp_emplaceHintEqual {Q : Ptr → W K → Prop} (hs : SWO lt) (h : Tree w.heap hdr o t) (hsort : WSorted lt t.nodes)
    (hn0 : t.nodes = A0 ++ B0) (hpos : pos = firstP hdr B0) (herr : w.err = none)
    (hQ : Inserts w hdr o t k (t.height + 3)
      (fun A B n => Near lt k A0 B0 A B ∧ (WCut lt k A0 B0 → n ≤ 3)) Q) :
    wp (emplaceHintEqual lt hdr pos k) w Q := by
  rw [emplaceHintEqual_eq]
  refine wp_withNode h herr ?_ hQ
  intro w1 a c hT hz hv Q hk
  simp only [wp_bind]
  rw [wp_keyOf hz (by simp) hv]
  refine wp_hintEqual_spec hs hT hsort hn0 hpos ?_ ?_
  · intro ctx x n hpl hside hnear hn hg hpn
    simp only [ne_eq, hpn, not_false_eq_true, if_true]
    refine wp_insertNode_side (o := o) (w := w1.addCmp n) (by rw [hpl]; exact hT) hside hz (by simp) hv ?_
    intro m hm
    rw [World.addCmp_addCmp]
    refine hk ctx _ hpl (by omega) ⟨hnear, ?_⟩
    intro hw
    rcases hg hw with h1 | h1
    · omega
    · have : t.height = 0 := by
        cases t with
        | nil => rfl
        | node p c l k r => simp [T.nodes] at h1
      omega
  · intro hex hnear
    simp only [ne_eq, not_true, if_false]
    refine wp_insertEqualLowerNode (o := o) (w := w1.addCmp 2) (t := t) hT hz (by simp) hv ?_
    intro ctx m hpl hm hcut
    rw [World.addCmp_addCmp]
    refine hk ctx _ hpl (by omega) ⟨hnear _ _ (hole_nodes hpl) (hcut hs hsort), ?_⟩
    intro hw
    obtain ⟨b, hb, hbk⟩ := hex
    rw [hw.2 b hb] at hbk; cases hbk

theorem Refused.addCmp_iff {w : W K} (n : Nat) : Refused (w.addCmp n) ↔ Refused w := Iff.rfl

theorem wp_insertEqualLower {Q : Ptr → W K → Prop} (h : Tree w.heap hdr o t) (herr : w.err = none)
    (hQ : Inserts w hdr o t k (t.height + 1) (fun A B _ => SWO lt → WSorted lt t.nodes → LCut lt k A B) Q) :
    wp (insertEqualLower lt hdr k) w Q := by
  unfold insertEqualLower
  simp only [wp_bind]
  rw [wp_rd h.cell h.hdr_ne]
  simp only [hdCell]
  refine wp_lowerDescend (ctx := []) (t := t) (by exact h) (by intro f hf; simp at hf) ?_
  intro ctx n hpl hpath hn
  simp only [plug] at hpl
  have main : ∀ m, m ≤ 1 → wp (finish hdr (par hdr ctx) (isL ctx) k) (w.addCmp (n + m)) Q := by
    intro m hm
    refine wp_withNode (F := link hdr (par hdr ctx) (isL ctx)) (w := w.addCmp (n + m)) (o := o) (t := t) (b := 0)
      (C := fun A B _ => A = pre ctx ∧ B = post ctx) h herr ?_ ⟨?_, ?_⟩
    · intro w1 a c hT hz hv Q hk
      have := hk ctx 0 hpl (by omega) ⟨rfl, rfl⟩
      exact this
    · intro w' e h1 h2 h3 h4 h5
      refine hQ.fail w' e h1 ((Ext.addCmp w _).trans h2) h3 h4 ?_
      simp only [World.addCmp_nCmp] at h5
      omega
    · intro w' a t' A B m' h1 h2 h3 h4 h5 h6 h7 h8 h9 h10 h11
      simp only [World.addCmp_nCmp] at h3
      obtain ⟨rfl, rfl⟩ := h10
      refine hQ.ok w' a t' _ _ (n + m) h1 ((Ext.addCmp w _).trans h2) (by omega) (by omega) h5 ⟨h6.none, h6.req⟩ h7 h8 h9 ?_ h11
      intro hs hsort
      rw [hole_nodes hpl] at hsort
      exact hpath.cut hs hsort
  unfold insertLower
  rw [wp_bind]
  cases ctx with
  | nil =>
    simp only [par_nil, if_true, wp_pure]
    exact main 0 (by omega)
  | cons f fs =>
    have h' := h
    rw [← hpl] at h'
    have hne : ¬ f.p = hdr := h'.toZ.par_ne_hdr
    have hcl := h'.toZ.parCell
    simp only [par_cons, hne, if_false, wp_bind]
    rw [wp_keyOf (w := w.addCmp n) hcl h'.toZ.par_ne_null (cellS_val ..), wp_cmp, wp_pure]
    have e : (!lt f.k k) = isL (f :: fs) := by
      rw [hpath f (by simp)]
      rcases f with ⟨_ | _, p, c, kf, sib⟩ <;> rfl
    rw [e, World.addCmp_addCmp]
    have := main 1 (by omega)
    unfold finish link at this
    simp only [wp_bind] at this
    exact this

end
end Nestl.RB
