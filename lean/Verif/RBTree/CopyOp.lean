import Verif.RBTree.Copy
set_option autoImplicit false
/-
`copy_nothrow`.
-/
namespace Nestl.RB
variable {K : Type}
section
variable {hdr src : Ptr} {w : W K} {t t0 : T K} {o o' : Nat} {prop : Bool}

/-- Allocator of the destination after `copy_nothrow`. -/
def copyOwner (prop : Bool) (o o' : Nat) : Nat := if prop then o' else o

theorem wp_copyNothrow {Q : Unit → W K → Prop} (hd : Tree w.heap hdr o t0) (hs : Tree w.heap src o' t)
    (hne : hdr ≠ src) (hdis : ∀ q ∈ t0.ptrs, q ∉ t.ptrs) (herr : w.err = none)
    (hfail : ∀ w' e, ¬ Good w → Ext w w' → w'.nCmp = w.nCmp → w'.err = some e → Tree w'.heap hdr (copyOwner prop o o') .nil →
      (∀ q ∈ t0.ptrs, w'.heap q = none) → (∀ q, q ≠ hdr → q ∉ t0.ptrs → w'.heap q = w.heap q) → Q () w')
    (hok : ∀ w' t2, Ext w w' → w'.nCmp = w.nCmp → w'.err = none → Tree w'.heap hdr (copyOwner prop o o') t2 → Like t t2 →
      (∀ q ∈ t2.ptrs, q ∈ t0.ptrs ∨ Fresh w w' q) →
      (∀ q ∈ t0.ptrs, q ∉ t2.ptrs → w'.heap q = none) →
      (∀ q, q ≠ hdr → q ∉ t0.ptrs → q ∉ t2.ptrs → w'.heap q = w.heap q) → Q () w') :
    wp (copyNothrow prop hdr src) w Q := by
  have hhn := hd.hdr_ne
  have hsn := hs.hdr_ne
  have hst0 : src ∉ t0.ptrs := by
    intro e; obtain ⟨i, hi⟩ := hd.ok.dyn _ e; obtain ⟨j, hj⟩ := hs.ok.hdr; rw [hi] at hj; cases hj
  have hht : hdr ∉ t.ptrs := by
    intro e; obtain ⟨i, hi⟩ := hs.ok.dyn _ e; obtain ⟨j, hj⟩ := hd.ok.hdr; rw [hi] at hj; cases hj
  have hht0 : hdr ∉ t0.ptrs := fun e => hd.node_ne_hdr e rfl
  unfold copyNothrow
  refine wp_if_pos hne ?_
  rw [wp_bind]
  refine wp_clear hd ?_
  intro H1 hn1 hf1 hfr1
  -- the state after the optional propagation of the allocator
  suffices hmain : ∀ H2, Tree H2 hdr (copyOwner prop o o') .nil → (∀ q, q ≠ hdr → H2 q = H1 q) →
      wp (do
        if (← hasErr) then pure () else do
        let _ ← tryCtor
        if (← hasErr) then pure () else do
        if (← rd src).parent ≠ .null then
          let link ← mCopy hdr (← rd src).parent hdr
          if (← hasErr) then pure () else do
          setParent hdr link
          setLeft hdr (← minLoop (← rd hdr).parent)
          setRight hdr (← maxLoop (← rd hdr).parent)
          let c := (← rd src).count
          setCount hdr (fun _ => c)
        else pure ()) (w.setHeap H2) Q by
    unfold allocOnCopy
    cases prop with
    | false =>
      simp only [Bool.false_eq_true, if_false, wp_bind, wp_pure, wp_ite]
      have := hmain H1 hn1 (fun _ _ => rfl)
      simp only [wp_bind, wp_ite, wp_pure] at this
      exact this
    | true =>
      simp only [if_true, wp_bind]
      rw [wp_rd (by exact (hfr1 _ (Ne.symm hne) hst0).trans hs.cell) hsn]
      rw [wp_modCell (by exact hn1.cell) hhn]
      have := hmain (upd H1 hdr (some (hdrInit o' hdr))) (Tree.empty (upd_same _ _ _) hd.ok.hdr)
        (fun q hq => upd_other _ _ hq)
      simp only [wp_bind] at this
      exact this
  intro H2 ht2 hfr2
  have hfr12 : ∀ q, q ≠ hdr → q ∉ t0.ptrs → H2 q = w.heap q := fun q h1 h2 => (hfr2 q h1).trans (hfr1 q h1 h2)
  have hf2 : ∀ q ∈ t0.ptrs, H2 q = none := fun q hq => (hfr2 q (by rintro rfl; exact hht0 hq)).trans (hf1 q hq)
  have hs2 : Tree H2 src o' t := hs.congr (hfr12 _ (Ne.symm hne) hst0)
    (fun q hq => hfr12 q (by rintro rfl; exact hht hq) (fun e => hdis q e hq))
  have hsub : ∀ {w'} q, H2 q ≠ none → w.heap q ≠ none ∨ Fresh w w' q := by
    intro w' q hq
    by_cases h1 : q = hdr
    · subst h1; left; rw [hd.cell]; simp
    · by_cases h2 : q ∈ t0.ptrs
      · exact absurd (hf2 q h2) hq
      · left; rw [← hfr12 q h1 h2]; exact hq
  simp only [wp_bind, wp_hasErr, World.setHeap_err, herr, Option.isSome_none]
  refine wp_if_neg (by simp) ?_
  rw [wp_bind]
  refine wp_tryCtor (fun _ => ?_) (fun hct => ?_)
  · generalize hw1 : ({ (w.setHeap H2) with nCtor := (w.setHeap H2).nCtor + 1 } : W K) = w1
    have hheap : w1.heap = H2 := by rw [← hw1]; rfl
    have hext : Ext w w1 := by rw [← hw1]; exact ⟨rfl, rfl, Nat.le_refl _, by simp, Nat.le_refl _⟩
    have hcmp : w1.nCmp = w.nCmp := by rw [← hw1]; rfl
    have herr1 : w1.err = none := by rw [← hw1]; exact herr
    clear hw1
    simp only [wp_bind, wp_hasErr, herr1, Option.isSome_none]
    refine wp_if_neg (by simp) ?_
    simp only [wp_bind]
    rw [wp_rd (by rw [hheap]; exact hs2.cell) hsn]
    simp only [hdCell]
    by_cases htn : t = .nil
    · subst htn
      refine wp_if_neg (by simp [T.ptr]) ?_
      rw [wp_pure]
      exact hok w1 .nil hext hcmp herr1 (by rw [hheap]; exact ht2) trivial (by simp [T.ptrs, T.nodes])
        (fun q hq _ => by rw [hheap]; exact hf2 q hq) (fun q a b _ => by rw [hheap]; exact hfr12 q a b)
    · have htp : t.ptr ≠ .null := fun e => hs.null_notMem (e ▸ ptr_mem_ptrs htn)
      refine wp_if_pos htp ?_
      simp only [wp_bind]
      rw [wp_rd (by rw [hheap]; exact hs2.cell) hsn]
      simp only [hdCell]
      refine copy_spec (o := copyOwner prop o o') hd.ok.hdr t htn (o' := o') (pr := src) (by rw [hheap]; exact hs2.rep)
        hs.null_notMem ⟨_, by rw [hheap]; exact ht2.cell, rfl⟩ hd.ok.hdr herr1 ?_ ?_
      · intro w' e hng h1 h2 h3 h4
        simp only [wp_hasErr, h4, Option.isSome_some]
        refine wp_if_pos trivial ?_
        rw [wp_pure]
        rw [hheap] at h3
        exact hfail w' e (fun g => hng (g.ext hext (by rw [hheap]; exact hsub))) (hext.trans h1) (h2.trans hcmp) h4 (by rw [h3]; exact ht2) (by rw [h3]; exact hf2)
          (by rw [h3]; exact hfr12)
      · intro w' t2 hcp
        simp only [wp_hasErr, hcp.err, Option.isSome_none]
        refine wp_if_neg (by simp) ?_
        simp only [wp_bind]
        have hfr := hcp.frame
        have hfresh := hcp.fresh
        rw [hheap] at hfr
        have hh2 : hdr ∉ t2.ptrs := by
          intro e; obtain ⟨i, hi⟩ := hcp.dyn _ e; obtain ⟨j, hj⟩ := hd.ok.hdr; rw [hi] at hj; cases hj
        have hs2' : src ∉ t2.ptrs := by
          intro e; obtain ⟨i, hi⟩ := hcp.dyn _ e; obtain ⟨j, hj⟩ := hs.ok.hdr; rw [hi] at hj; cases hj
        have hnull : Ptr.null ∉ t2.ptrs := by
          intro e; obtain ⟨i, hi⟩ := hcp.dyn _ e; cases hi
        have ht2n : t2 ≠ .nil := hcp.like.ne_nil htn
        have hch := (hfr _ hh2).trans ht2.cell
        have hcs := (hfr _ hs2').trans hs2.cell
        have hsh : src ≠ hdr := Ne.symm hne
        unfold setParent setLeft setRight setCount
        rw [wp_modCell (by exact hch) hhn]
        rw [wp_rd (by exact upd_same _ _ _) hhn]
        simp only [hdCell]
        refine wp_minLoop (w := w'.setHeap _) (Rep_upd hcp.rep hh2) ht2n hnull hdr ?_
        rw [wp_modCell (by exact upd_same _ _ _) hhn]
        simp only [World.setHeap_heap, World.setHeap_setHeap, upd_upd]
        rw [wp_rd (by exact upd_same _ _ _) hhn]
        refine wp_maxLoop (w := w'.setHeap _) (Rep_upd hcp.rep hh2) ht2n hnull hdr ?_
        rw [wp_modCell (by exact upd_same _ _ _) hhn]
        simp only [World.setHeap_heap, World.setHeap_setHeap, upd_upd]
        rw [wp_rd (by exact (upd_other _ _ hsh).trans hcs) hsn]
        rw [wp_modCell (by exact upd_same _ _ _) hhn]
        simp only [World.setHeap_heap, World.setHeap_setHeap, upd_upd, hdCell]
        have hlen : t.nodes.length = t2.nodes.length := by
          have := congrArg List.length hcp.like.keys
          simpa using this.symm
        obtain ⟨n, hn⟩ := hs.rb
        refine hok _ t2 ((hext.trans hcp.ext).trans (Ext.setHeap _ _)) (hcp.cmp.trans hcmp) hcp.err
          ⟨?_, Rep_upd hcp.rep hh2, ⟨hcp.nodup, hcp.dyn, hd.ok.hdr⟩, ⟨n, hcp.like.RB hn⟩, hcp.like.color.trans hs.black⟩
          hcp.like ?_ ?_ ?_
        · rw [World.setHeap_heap, upd_same, hlen]; rfl
        · intro q hq
          by_cases h0 : q ∈ t0.ptrs
          · exact Or.inl h0
          · right
            have := (hfresh q hq).none
            rw [hheap, hfr12 q (by rintro rfl; exact hh2 hq) h0] at this
            exact ((hfresh q hq).ext_left hext this).ext_right (Ext.setHeap _ _)
        · intro q h1 h2
          rw [World.setHeap_heap, upd_other _ _ (by rintro rfl; exact hht0 h1), hfr q h2, hf2 q h1]
        · intro q h1 h2 h3
          rw [World.setHeap_heap, upd_other _ _ h1, hfr q h3, hfr12 q h1 h2]
  · simp only [wp_bind, wp_hasErr, Option.isSome_some]
    refine wp_if_pos trivial ?_
    rw [wp_pure]
    exact hfail _ .ctorFailed (fun g => by rw [World.setHeap_env, g.ctor] at hct; cases hct) ⟨rfl, rfl, Nat.le_refl _, by simp, Nat.le_refl _⟩ rfl rfl ht2 hf2 hfr12

/-- Self copy does nothing. -/
theorem wp_copyNothrow_self {Q : Unit → W K → Prop} (hQ : Q () w) : wp (copyNothrow prop hdr hdr) w Q := by
  unfold copyNothrow
  exact wp_if_neg (by simp) hQ

end
end Nestl.RB
