import Verif.RBTree.Erase
set_option autoImplicit false
/-
Construction and move construction.
-/
namespace Nestl.RB
variable {K : Type}

section
variable {hdr src : Ptr} {w : W K} {t : T K} {o : Nat}

theorem Tree.empty {H : Ptr → Option (TNode K)} (hc : H hdr = some (hdrInit o hdr)) (hs : ∃ i, hdr = .stk i) :
    Tree H hdr o .nil :=
  ⟨hc, trivial, ⟨by simp [T.ptrs, T.nodes], by simp [T.ptrs, T.nodes], hs⟩, ⟨0, rfl⟩, rfl⟩

/-- Default construction. -/
theorem wp_newTree {Q : Ptr → W K → Prop}
    (hQ : Tree (upd w.heap (.stk w.sp) (some (hdrInit o (.stk w.sp)))) (.stk w.sp) o .nil →
      Q (.stk w.sp) { w with sp := w.sp + 1, heap := upd w.heap (.stk w.sp) (some (hdrInit o (.stk w.sp))) }) :
    wp (newTree o) w Q := by
  unfold newTree
  rw [wp_newObj]
  exact hQ (Tree.empty (upd_same _ _ _) ⟨_, rfl⟩)

theorem Tree.congr {H H' : Ptr → Option (TNode K)} (h : Tree H hdr o t) (hh : H' hdr = H hdr)
    (hp : ∀ q ∈ t.ptrs, H' q = H q) : Tree H' hdr o t :=
  ⟨hh.trans h.cell, Rep_congr hp h.rep, h.ok, h.rb, h.black⟩

theorem wp_moveData {Q : Unit → W K → Prop} (h : Tree w.heap src o t) (ht : t ≠ .nil)
    (hd : w.heap hdr = some (hdrInit o hdr)) (hs : ∃ i, hdr = .stk i) (hne : hdr ≠ src)
    (hQ : ∀ H', Tree H' hdr o t → Tree H' src o .nil → (∀ q, q ≠ hdr → q ≠ src → q ∉ t.ptrs → H' q = w.heap q) →
      Q () (w.setHeap H')) : wp (moveData hdr src) w Q := by
  have hsn := h.hdr_ne
  have hdn : hdr ≠ .null := by obtain ⟨i, rfl⟩ := hs; simp
  have hsrc := h.cell
  have hsh : src ≠ hdr := Ne.symm hne
  have hht : hdr ∉ t.ptrs := by
    intro e
    obtain ⟨i, rfl⟩ := hs
    obtain ⟨j, hj⟩ := h.ok.dyn _ e
    cases hj
  have hst : src ∉ t.ptrs := fun e => h.node_ne_hdr e rfl
  unfold moveData setParent setLeft setRight setCount
  simp only [wp_bind]
  rw [wp_rd hsrc hsn]
  rw [wp_modCell hd hdn]
  rw [wp_rd (by exact (upd_other _ _ hsh).trans hsrc) hsn]
  rw [wp_modCell (by exact upd_same _ _ _) hdn]
  simp only [World.setHeap_heap, World.setHeap_setHeap, upd_upd]
  rw [wp_rd (by exact (upd_other _ _ hsh).trans hsrc) hsn]
  rw [wp_modCell (by exact upd_same _ _ _) hdn]
  simp only [World.setHeap_heap, World.setHeap_setHeap, upd_upd]
  rw [wp_rd (by exact upd_same _ _ _) hdn]
  simp only [hdCell]
  have hrep1 : ∀ n, Rep (upd w.heap hdr n) o src t := fun n => Rep_upd h.rep hht
  refine wp_setParent_root (w := w.setHeap _) (b := t) (x := hdr) ht (by exact hrep1 _) h.ok.nodup h.null_notMem ?_
  intro H1 hr1 hf1
  simp only [World.setHeap_heap, World.setHeap_setHeap] at hf1 ⊢
  have hs1 : H1 src = some _ := (hf1 src hst).trans ((upd_other _ _ hsh).trans hsrc)
  have hd1 : H1 hdr = some _ := (hf1 hdr hht).trans (upd_same _ _ _)
  rw [wp_modCell (by exact hs1) hsn]
  rw [wp_modCell (by exact upd_same _ _ _) hsn]
  rw [wp_modCell (by exact upd_same _ _ _) hsn]
  simp only [World.setHeap_heap, World.setHeap_setHeap, upd_upd]
  rw [wp_rd (by exact upd_same _ _ _) hsn]
  rw [wp_modCell (by exact (upd_other _ _ hne).trans hd1) hdn]
  rw [wp_modCell (by exact (upd_other _ _ hsh).trans (upd_same _ _ _)) hsn]
  simp only [World.setHeap_heap, World.setHeap_setHeap]
  refine hQ _ ⟨?_, ?_, ⟨h.ok.nodup, h.ok.dyn, hs⟩, h.rb, h.black⟩ (Tree.empty ?_ h.stk) ?_
  · rw [upd_other _ _ hne, upd_same]
    have : ∀ (L : List (Ptr × K)), L ≠ [] → firstP src L = firstP hdr L ∧ lastP src L = lastP hdr L := by
      intro L hL
      obtain ⟨A, a, rfl⟩ := (List.eq_nil_or_concat L).resolve_left hL
      rw [List.concat_eq_append]
      refine ⟨?_, by simp [lastP]⟩
      cases A <;> simp
    obtain ⟨e1, e2⟩ := this _ (nodes_ne_nil ht)
    simp [hdCell, e1, e2, hdrInit]
  · refine Rep_upd (Rep_upd (Rep_upd hr1 hst) hht) hst
  · rw [upd_same]; rfl
  · intro q h1 h2 h3
    rw [upd_other _ _ h2, upd_other _ _ h1, upd_other _ _ h2, hf1 q h3, upd_other _ _ h1]

/-- Move construction: all nodes are handed over, the source is left empty. -/
theorem wp_moveCtor {Q : Ptr → W K → Prop} (h : Tree w.heap src o t) (hfresh : w.heap (.stk w.sp) = none)
    (hQ : ∀ H', Tree H' (.stk w.sp) o t → Tree H' src o .nil →
      (∀ q, q ≠ .stk w.sp → q ≠ src → q ∉ t.ptrs → H' q = w.heap q) →
      Q (.stk w.sp) { w with sp := w.sp + 1, heap := H' }) : wp (moveCtor src) w Q := by
  have hne : Ptr.stk w.sp ≠ src := by
    intro e; rw [e, h.cell] at hfresh; cases hfresh
  unfold moveCtor
  simp only [wp_bind]
  rw [wp_rd h.cell h.hdr_ne]
  simp only [hdCell]
  refine wp_newTree ?_
  intro hnt
  have hht : Ptr.stk w.sp ∉ t.ptrs := by
    intro e
    obtain ⟨j, hj⟩ := h.ok.dyn _ e
    cases hj
  have h' : Tree (upd w.heap (.stk w.sp) (some (hdrInit o (.stk w.sp)))) src o t :=
    h.congr (upd_other _ _ (Ne.symm hne)) (fun q hq => upd_other _ _ (by rintro rfl; exact hht hq))
  rw [wp_rd (by exact h'.cell) h.hdr_ne]
  simp only [hdCell]
  by_cases ht : t = .nil
  · subst ht
    refine wp_if_neg (by simp [T.ptr]) ?_
    rw [wp_pure]
    exact hQ _ hnt h' (fun q h1 _ _ => upd_other _ _ h1)
  · have htp : t.ptr ≠ .null := h.node_ne_null (ptr_mem_ptrs ht)
    refine wp_if_pos htp ?_
    simp only [wp_bind]
    refine wp_moveData (w := { w with sp := w.sp + 1, heap := _ }) (by exact h') ht (by exact upd_same _ _ _) ⟨_, rfl⟩ hne ?_
    intro H' h1 h2 h3
    refine hQ H' h1 h2 ?_
    intro q a b c
    rw [h3 q a b c]
    exact upd_other _ _ a

end
end Nestl.RB
