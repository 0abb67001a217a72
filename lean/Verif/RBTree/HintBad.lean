import Verif.RBTree.HintAny
set_option autoImplicit false
/-
Hinted insertion with a comparator that is not asymmetric: what the code does to a tree of two nodes (helper lemmas of the
counterexample of C84).
-/
namespace Nestl.RB
variable {K : Type} {lt : K → K → Bool} {w : W K} {hdr p x : Ptr} {o : Nat}

/-- Nothing is rebalanced below a black root. -/
theorem wp_insFix_black {ch cp cx : TNode K} {Q : Unit → W K → Prop} (hh : w.heap hdr = some ch) (hp : w.heap p = some cp)
    (hx : w.heap x = some cx) (h0 : hdr ≠ .null) (p0 : p ≠ .null) (x0 : x ≠ .null) (hxp : x ≠ p)
    (hroot : ch.parent = p) (hpar : cx.parent = p) (hblack : cp.color = .black) (hQ : Q () w) :
    wp (do insFix hdr x; setColor (← rd hdr).parent .black) w Q := by
  rw [wp_bind]
  unfold insFix
  simp only [wp_bind]
  rw [wp_rd hh h0, if_neg (by rw [hroot]; exact hxp)]
  simp only [wp_bind]
  rw [wp_rd hx x0, hpar, wp_rd hp p0, if_neg (by rw [hblack]; simp), wp_pure, wp_rd hh h0, hroot]
  unfold setColor
  rw [wp_modCell hp p0, ← hblack]
  have : upd w.heap p (some { cp with color := cp.color }) = w.heap := by
    funext q
    by_cases e : q = p
    · subst e; simp [upd, hp]
    · simp [upd, e]
  rw [this]
  exact hQ

/-- Linking a node as the left child of a black root, whatever the old left child is. -/
theorem wp_insertLeft_root {ch cp cx : TNode K} {Q : Unit → W K → Prop} (hh : w.heap hdr = some ch) (hp : w.heap p = some cp)
    (hx : w.heap x = some cx) (h0 : hdr ≠ .null) (p0 : p ≠ .null) (x0 : x ≠ .null) (hph : p ≠ hdr) (hxh : x ≠ hdr) (hxp : x ≠ p)
    (hroot : ch.parent = p) (hblack : cp.color = .black)
    (hQ : ∀ H', H' hdr = some (if p = ch.left then { ch with left := x } else ch) → H' p = some { cp with left := x } →
      H' x = some { cx with parent := p, left := .null, right := .null, color := .red } →
      (∀ q, q ≠ hdr → q ≠ p → q ≠ x → H' q = w.heap q) → Q () (w.setHeap H')) :
    wp (insertAndRebalance true x p hdr) w Q := by
  unfold insertAndRebalance insLink setParent setLeft setRight setColor
  simp only [wp_bind, if_true]
  rw [wp_modCell hx x0]
  rw [wp_modCell (c := { cx with parent := p }) (by simp [upd]) x0]
  rw [wp_modCell (c := { cx with parent := p, left := .null }) (by simp [upd]) x0]
  rw [wp_modCell (c := { cx with parent := p, left := .null, right := .null }) (by simp [upd]) x0]
  rw [wp_modCell (c := cp) (by simp [upd, Ne.symm hxp, hp]) p0]
  rw [if_neg hph]
  simp only [wp_bind]
  rw [wp_rd (c := ch) (by simp [upd, Ne.symm hph, Ne.symm hxh, hh]) h0]
  by_cases e : p = ch.left
  · rw [if_pos e, wp_modCell (c := ch) (by simp [upd, Ne.symm hph, Ne.symm hxh, hh]) h0]
    have := wp_insFix_black (hdr := hdr) (p := p) (x := x) (Q := Q) (ch := { ch with left := x }) (cp := { cp with left := x })
      (cx := { cx with parent := p, left := .null, right := .null, color := .red })
      (w := w.setHeap (upd (upd (upd (upd (upd (upd w.heap x (some { cx with parent := p })) x (some { cx with parent := p, left := .null }))
        x (some { cx with parent := p, left := .null, right := .null }))
        x (some { cx with parent := p, left := .null, right := .null, color := .red })) p (some { cp with left := x }))
        hdr (some { ch with left := x })))
      (by simp [upd]) (by simp [upd, hph]) (by simp [upd, hxh, hxp]) h0 p0 x0 hxp hroot rfl hblack
      (hQ _ (by simp [upd, e]) (by simp [upd, hph]) (by simp [upd, hxh, hxp]) (by intro q a b c; simp [upd, a, b, c]))
    simp only [wp_bind] at this
    exact this
  · rw [if_neg e, wp_pure]
    have := wp_insFix_black (hdr := hdr) (p := p) (x := x) (Q := Q) (ch := ch) (cp := { cp with left := x })
      (cx := { cx with parent := p, left := .null, right := .null, color := .red })
      (w := w.setHeap (upd (upd (upd (upd (upd w.heap x (some { cx with parent := p })) x (some { cx with parent := p, left := .null }))
        x (some { cx with parent := p, left := .null, right := .null }))
        x (some { cx with parent := p, left := .null, right := .null, color := .red })) p (some { cp with left := x })))
      (by simp [upd, Ne.symm hph, Ne.symm hxh, hh]) (by simp [upd]) (by simp [upd, hxp]) h0 p0 x0 hxp hroot rfl hblack
      (hQ _ (by simp [upd, Ne.symm hph, Ne.symm hxh, hh, e]) (by simp [upd]) (by simp [upd, hxp]) (by intro q a b c; simp [upd, b, c]))
    simp only [wp_bind] at this
    exact this

/-- Insertion of a node to the left of the root of a tree of black height one. -/
theorem wp_insert_left_root {ch cp : TNode K} {k m : K} {Q : Ptr → W K → Prop} (hh : w.heap hdr = some ch) (hp : w.heap p = some cp)
    (hs : ∃ i, hdr = .stk i) (p0 : p ≠ .null) (hph : p ≠ hdr) (herr : w.err = none) (hno : ¬ Refused w)
    (hroot : ch.parent = p) (hblack : cp.color = .black) (hv : cp.val = some m) (hkm : lt k m = true)
    (hQ : ∀ a c H' w', Fresh w w' (.dyn a) → Ext w w' → w'.err = none → w'.heap = H' →
      H' hdr = some { (if p = ch.left then { ch with left := .dyn a } else ch) with count := ch.count + 1 } →
      H' p = some { cp with left := .dyn a } → H' (.dyn a) = some c → c.parent = p → c.left = .null → c.right = .null →
      c.color = .red → c.val = some k → c.owner = ch.owner → c.count = 0 →
      (∀ q, q ≠ hdr → q ≠ p → q ≠ .dyn a → H' q = w.heap q) → Q (.dyn a) w') :
    wp (insert_ lt hdr .null p k) w Q := by
  have h0 : hdr ≠ .null := by obtain ⟨i, rfl⟩ := hs; simp
  unfold insert_
  simp only [wp_bind, ne_eq, not_true, if_false, hph]
  rw [wp_keyOf hp p0 hv, wp_cmp, hkm]
  refine wp_createNode (w := w.addCmp 1) hh hs herr ?_ ?_
  · intro w' e h1
    exact absurd h1 hno
  · intro a c w1 h1 h2 h3 h4 h5 h6 h7 h8 h9
    have ha : w.heap (.dyn a) = none := h2.none
    have hah : Ptr.dyn a ≠ hdr := by rintro rfl; rw [ha] at hh; cases hh
    have hap : Ptr.dyn a ≠ p := by rintro rfl; rw [ha] at hp; cases hp
    have h5' : w1.heap = upd w.heap (.dyn a) (some c) := h5
    simp only [wp_hasErr, h9, Option.isSome_none, Bool.false_eq_true, if_false, wp_bind]
    refine wp_insertLeft_root (ch := ch) (cp := cp) (cx := c) (by rw [h5']; simp [upd, Ne.symm hah, hh])
      (by rw [h5']; simp [upd, Ne.symm hap, hp]) (by rw [h5']; simp [upd]) h0 p0 (by simp) hph hah hap hroot hblack ?_
    intro H2 k1 k2 k3 k4
    unfold setCount
    rw [wp_modCell k1 h0, wp_pure]
    refine hQ a { c with parent := p, left := .null, right := .null, color := .red } _ _ ⟨h2.none, h2.req⟩ ((Ext.addCmp w _).trans (h3.trans (Ext.setHeap _ _))) h9 rfl ?_ ?_ ?_ rfl rfl rfl rfl h6 h7 h8 ?_
    · show upd _ _ _ _ = _
      rw [upd_same]
      split <;> rfl
    · simp [upd, hph, k2]
    · simp [upd, hah, k3]
    · intro q a1 a2 a3
      simp [upd, a1, k4 q a1 a2 a3, h5', a3]

/-- `insert` into a tree of one node whose key is after the new key. -/
theorem insertUnique_one {ch cp : TNode K} {k m : K} {Q : Ptr × Bool → W K → Prop} (hh : w.heap hdr = some ch)
    (hp : w.heap p = some cp) (h0 : hdr ≠ .null) (p0 : p ≠ .null) (hroot : ch.parent = p) (hl : ch.left = p)
    (hv : cp.val = some m) (hcl : cp.left = .null) (hkm : lt k m = true)
    (hQ : wp (insert_ lt hdr .null p k) (w.addCmp 1) (fun r w' => Q (r, true) w')) : wp (insertUnique lt hdr k) w Q := by
  unfold insertUnique getInsertUniquePos
  simp only [wp_bind]
  rw [wp_rd hh h0, hroot]
  unfold insDescend
  simp only [ne_eq, p0, not_false_eq_true, if_true, wp_bind]
  rw [wp_keyOf hp p0 hv, wp_cmp, hkm, wp_rd (w := w.addCmp 1) (c := cp) hp p0]
  simp only [if_true, hcl]
  unfold insDescend
  simp only [ne_eq, not_true, if_false, wp_pure, if_true, wp_bind]
  rw [wp_rd (w := w.addCmp 1) (c := ch) hh h0, if_pos hl.symm, wp_pure]
  simp only [p0, not_false_eq_true, if_true, wp_bind, wp_pure]
  exact hQ

/-- Hinted insertion at the end when the last key is before the new key. -/
theorem insertUniqueAt_end {ch cp : TNode K} {k m : K} {Q : Ptr → W K → Prop} (hh : w.heap hdr = some ch)
    (hp : w.heap p = some cp) (h0 : hdr ≠ .null) (p0 : p ≠ .null) (hr : ch.right = p) (hcnt : 0 < ch.count)
    (hv : cp.val = some m) (hmk : lt m k = true)
    (hQ : wp (insert_ lt hdr .null p k) (w.addCmp 1) Q) : wp (insertUniqueAt lt hdr hdr k) w Q := by
  unfold insertUniqueAt getInsertHintUniquePos size
  simp only [wp_bind, if_true]
  rw [wp_rd hh h0, wp_pure, if_pos hcnt]
  simp only [wp_bind]
  rw [wp_rd hh h0, hr, wp_keyOf hp p0 hv, wp_cmp, hmk, if_pos rfl]
  simp only [wp_bind]
  rw [wp_rd (w := w.addCmp 1) (c := ch) hh h0, hr, wp_pure]
  simp only [ne_eq, p0, not_false_eq_true, if_true]
  exact hQ

end Nestl.RB
