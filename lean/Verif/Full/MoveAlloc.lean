import Verif.RBTree.ModelMove
import Verif.RBTree.AsksCopy
import Verif.Full.Props
import Verif.Full.Costs
set_option autoImplicit false
/-
C117: move construction of a tree with a given allocator.
-/
namespace Nestl.RB
variable {K : Type} {hdr src : Ptr} {w : W K} {t : T K} {o o' : Nat}

/-- If the first node of a copy cannot be made, the copy fails. -/
theorem wp_mCopy_refused {Q : Ptr → W K → Prop} {p : Ptr} (ht : t ≠ .nil) (hr : Rep w.heap o' src t) (h0 : Ptr.null ∉ t.ptrs)
    (hh : HdrOk w.heap hdr o) (hs : ∃ i, hdr = .stk i) (he : w.err = none) (hrf : Refused w) (hQ : ∀ w', Q .null w') :
    wp (mCopy hdr t.ptr p) w Q := by
  cases t with
  | nil => exact absurd rfl ht
  | node x c l k r =>
    obtain ⟨hx, -, -⟩ := (Rep_mk (s := .L)).1 hr
    have hxn : x ≠ .null := fun e => h0 (by rw [ptrs_mk_L, mem_ptrs_mk]; exact Or.inl e.symm)
    obtain ⟨hn, hh, -⟩ := hh
    rw [mCopy]
    unfold cloneNode
    simp only [wp_bind, T.ptr]
    rw [wp_keyOf hx hxn (cellS_val ..)]
    refine wp_createNode hh hs he ?_ (fun _ _ _ h => absurd hrf h)
    intro w' e _ _ _ _ h
    simp only [wp_hasErr, h, Option.isSome_some]
    refine wp_if_pos trivial ?_
    simp only [wp_pure, wp_bind, wp_hasErr, h, Option.isSome_some]
    exact wp_if_pos trivial (hQ w')

/-- What `m_move_data` does between trees with different allocators. -/
theorem moveDataAny_other (hs : Tree w.heap src o' t) (hd : Tree w.heap hdr o .nil) (hne : hdr ≠ src) (hoo : o ≠ o') (ht : t ≠ .nil)
    (he : w.err = none) :
    (∃ w' t2, Runs (moveDataAny hdr src) w () w' ∧ Tree w'.heap hdr o t2 ∧ Like t t2 ∧ Set.Change w w' hdr .nil t2 ∧
      w'.err = none ∧ w'.nCmp = w.nCmp ∧ ¬ Refused w) ∨
    (¬ Good w ∧ Faults (moveDataAny hdr src) w .assertFail) := by
  have hhn := hd.hdr_ne
  have hsn := hs.hdr_ne
  -- the copy itself
  have hc : ∃ p w', Runs (mCopy hdr t.ptr hdr) w p w' ∧ ((¬ Good w ∧ w'.heap = w.heap ∧ p = .null) ∨
      ∃ t2, p = t2.ptr ∧ Copied w w' o hdr t t2) :=
    wp_iff_runs.1 (copy_spec (o := o) hd.ok.hdr t ht hs.rep hs.null_notMem ⟨_, hd.cell, rfl⟩ hd.ok.hdr he
      (fun w' e h1 _ _ h4 _ => Or.inl ⟨h1, h4, rfl⟩) (fun w' t2 h => Or.inr ⟨t2, rfl, h⟩))
  obtain ⟨p, w', hrun, hc⟩ := hc
  rcases hc with ⟨hg, hheap, rfl⟩ | ⟨t2, rfl, hcp⟩
  · right
    refine ⟨hg, ?_⟩
    unfold moveDataAny
    refine wp.faults_bind ((wp_rd hd.cell hhn).2 ?_)
    refine wp.faults_bind ((wp_rd hs.cell hsn).2 ?_)
    refine Faults.if_neg (by simpa [hdCell] using hoo) ?_
    refine wp.faults_bind ((wp_rd hs.cell hsn).2 ?_)
    refine wp.faults_bind (wp_iff_runs.2 ⟨_, _, hrun, ?_⟩)
    unfold setParent
    refine wp.faults_bind ((wp_modCell (by rw [hheap]; exact hd.cell) hhn).2 ?_)
    refine wp.faults_bind ((wp_rd (by exact upd_same _ _ _) hhn).2 ?_)
    refine Faults.bind ?_
    unfold sMinimum
    exact Faults.bind (Faults.assertM (by simp))
  · left
    have hnrf : ¬ Refused w := by
      intro hrf
      obtain ⟨p1, w1, h1, h2⟩ := (wp_mCopy_refused (Q := fun p _ => p = .null) ht hs.rep hs.null_notMem ⟨_, hd.cell, rfl⟩ hd.ok.hdr he hrf
        (p := hdr) (fun _ => rfl)).runs
      obtain ⟨rfl, -⟩ := Runs.det h1 hrun
      have h3 := ptr_mem_ptrs (hcp.like.ne_nil ht)
      rw [h2] at h3
      obtain ⟨i, hi⟩ := hcp.dyn _ h3
      cases hi
    have hfr := hcp.frame
    have hh2 : hdr ∉ t2.ptrs := by
      intro e; obtain ⟨i, hi⟩ := hcp.dyn _ e; obtain ⟨j, hj⟩ := hd.ok.hdr; rw [hi] at hj; cases hj
    have hs2 : src ∉ t2.ptrs := by
      intro e; obtain ⟨i, hi⟩ := hcp.dyn _ e; obtain ⟨j, hj⟩ := hs.ok.hdr; rw [hi] at hj; cases hj
    have hnull : Ptr.null ∉ t2.ptrs := by
      intro e; obtain ⟨i, hi⟩ := hcp.dyn _ e; cases hi
    have ht2n : t2 ≠ .nil := hcp.like.ne_nil ht
    have htp : t2.ptr ≠ .null := fun e => hnull (e ▸ ptr_mem_ptrs ht2n)
    have hch := (hfr _ hh2).trans hd.cell
    have hcs := (hfr _ hs2).trans hs.cell
    have hsh : src ≠ hdr := Ne.symm hne
    have hlen : t.nodes.length = t2.nodes.length := by
      have := congrArg List.length hcp.like.keys
      simpa using this.symm
    obtain ⟨n, hn⟩ := hs.rb
    suffices h : wp (moveDataAny hdr src) w fun _ w' => ∃ t2, Tree w'.heap hdr o t2 ∧ Like t t2 ∧ Set.Change w w' hdr .nil t2 ∧
        w'.err = none ∧ w'.nCmp = w.nCmp by
      obtain ⟨_, w2, h1, t3, h2, h3, h4, h5, h6⟩ := h.runs
      exact ⟨w2, t3, h1, h2, h3, h4, h5, h6, hnrf⟩
    unfold moveDataAny
    simp only [wp_bind]
    rw [wp_rd hd.cell hhn, wp_rd hs.cell hsn]
    refine wp_if_neg (by simpa [hdCell] using hoo) ?_
    simp only [wp_bind]
    rw [wp_rd hs.cell hsn]
    refine wp_iff_runs.2 ⟨_, _, hrun, ?_⟩
    unfold setParent setLeft setRight setCount sMinimum sMaximum
    rw [wp_modCell (by exact hch) hhn]
    rw [wp_rd (by exact upd_same _ _ _) hhn]
    simp only [hdCell, wp_bind]
    refine (wp_assertM _ _ _).2 ⟨by simpa using htp, ?_⟩
    refine wp_minLoop (w := w'.setHeap _) (Rep_upd hcp.rep hh2) ht2n hnull hdr ?_
    rw [wp_modCell (by exact upd_same _ _ _) hhn]
    simp only [World.setHeap_heap, World.setHeap_setHeap, upd_upd]
    rw [wp_rd (by exact upd_same _ _ _) hhn]
    simp only [wp_bind]
    refine (wp_assertM _ _ _).2 ⟨by simpa using htp, ?_⟩
    refine wp_maxLoop (w := w'.setHeap _) (Rep_upd hcp.rep hh2) ht2n hnull hdr ?_
    rw [wp_modCell (by exact upd_same _ _ _) hhn]
    simp only [World.setHeap_heap, World.setHeap_setHeap, upd_upd]
    rw [wp_rd (by exact (upd_other _ _ hsh).trans hcs) hsn]
    rw [wp_modCell (by exact upd_same _ _ _) hhn]
    simp only [World.setHeap_heap, World.setHeap_setHeap, upd_upd, hdCell]
    refine ⟨t2, ⟨?_, Rep_upd hcp.rep hh2, ⟨hcp.nodup, hcp.dyn, hd.ok.hdr⟩, ⟨n, hcp.like.RB hn⟩, hcp.like.color.trans hs.black⟩,
      hcp.like, ⟨hcp.ext.trans (Ext.setHeap _ _), by simp [T.ptrs, T.nodes], ?_, ?_⟩, hcp.err, hcp.cmp⟩
    · rw [upd_same, hlen]; rfl
    · intro q hq
      exact Or.inr ((hcp.fresh q hq).ext_right (Ext.setHeap _ _))
    · intro q h1 _ h3
      rw [World.setHeap_heap, upd_other _ _ h1, hfr q h3]

end Nestl.RB

namespace Nestl.Full
open Nestl.RB Nestl.Set Nestl.Multi
variable {K : Type} {lt : K → K → Bool} {w w' : W K} {s t d : Ptr} {L M : List (Ptr × K)} {a : Nat}

/-- Move construction with the allocator of the source is move construction. -/
theorem moveCtorAlloc_same {o : Nat} {t : T K} (hI : InvP (fun L => SWO lt → WSorted lt L) w) (h : Tree w.heap s o t) {d : Ptr}
    (hr : Runs (moveCtor s) w d w') : Runs (moveCtorAlloc o s) w d w' := by
  have hfresh := hI.fresh_stk
  have hne : s ≠ Ptr.stk w.sp := by
    intro e; rw [← e, h.cell] at hfresh; cases hfresh
  unfold moveCtor at hr
  obtain ⟨n, w1, h1, hr1⟩ := runs_steps hr
  clear hr
  obtain ⟨e1, h1⟩ := runs_rd h1
  subst e1
  have hn : n.owner = o := by rw [h.cell] at h1; cases h1; rfl
  simp only [hn] at hr1
  obtain ⟨hdr, w2, h2, hr2⟩ := runs_steps hr1
  clear hr1
  unfold moveCtorAlloc
  refine runs_seq h2 ?_
  obtain ⟨rfl, hw2⟩ := Runs.wp (Q := fun x y => x = Ptr.stk w1.sp ∧ y.heap = upd w1.heap (.stk w1.sp) (some (hdrInit o (.stk w1.sp))))
    (wp_newTree fun _ => ⟨rfl, rfl⟩) h2
  obtain ⟨n2, w3, h3, hr3⟩ := runs_steps hr2
  clear hr2
  refine runs_seq h3 ?_
  obtain ⟨e3, h4⟩ := runs_rd h3
  subst e3
  by_cases hp : n2.parent ≠ .null
  · simp only [if_pos hp] at hr3 ⊢
    obtain ⟨_, w4, h5, hr4⟩ := runs_steps hr3
    refine runs_seq (a := ()) (s1 := w4) ?_ hr4
    unfold moveDataAny
    have h6 : Runs (rd (Ptr.stk w1.sp)) w3 (hdrInit o (.stk w1.sp)) w3 := by
      obtain ⟨_, _, g, rfl, rfl⟩ := wp.runs ((wp_rd (Q := fun x y => x = hdrInit o (.stk w1.sp) ∧ y = w3) (by rw [hw2, upd_same]) (by simp)).2 ⟨rfl, rfl⟩)
      exact g
    refine runs_seq h6 (runs_seq h3 ?_)
    have ho : n2.owner = o := by
      rw [hw2, upd_other _ _ hne, h.cell] at h4; cases h4; rfl
    rw [if_pos (by rw [ho]; rfl)]
    exact h5
  · simp only [if_neg hp] at hr3 ⊢
    exact hr3

theorem UsesAlloc.eq {o : Nat} {u : T K} (h : Tree w.heap s o u) : UsesAlloc w s a ↔ o = a := by
  constructor
  · rintro ⟨n, n1, n2⟩
    rw [h.cell] at n1
    cases n1; exact n2
  · rintro rfl
    exact ⟨_, h.cell, rfl⟩

/-- C117 (equal allocators): constructing a tree from an expiring one with an equal allocator hands over the nodes: the new object
holds exactly the elements of the old one, in the same nodes, the old one is empty, nothing is requested, constructed or compared,
and no other object changes. -/
theorem tree_move_alloc_same (hr : FReach lt w) (hs : Alive w s) (hL : Contents w s L) (ha : UsesAlloc w s a) :
    ∃ d w', Runs (moveCtorAlloc a s) (ready w) d w' ∧ FReach lt w' ∧ ¬ Alive w d ∧ Alive w' d ∧ Contents w' d L ∧ UsesAlloc w' d a ∧
      Alive w' s ∧ Contents w' s [] ∧ w'.err = none ∧ w'.nAlloc = w.nAlloc ∧ w'.nCtor = w.nCtor ∧ w'.nCmp = w.nCmp ∧
      ∀ x N, Alive w x → x ≠ s → Contents w x N → Alive w' x ∧ Contents w' x N := by
  have hI := hr.inv
  obtain ⟨o, t, ht, rfl⟩ := hr.tree hs hL
  obtain rfl := (UsesAlloc.eq ht).1 ha
  obtain ⟨r, w', h1, h2, h3⟩ := hr.step (c := .multi (.base (.move s))) hs
  have hcmp := tree_no_comparisons (c := .multi (.base (.move s))) trivial h1
  cases h3 with
  | multi h3 =>
    cases h3 with
    | base h3 =>
      cases h3 with
      | move ht2 hm he hct =>
        obtain ⟨rfl, rfl⟩ := Tree.unique (by exact ht2) ht
        refine ⟨_, w', ?_, h2, ?_, ⟨_, rfl, hm.tree.ne_none⟩, (contents_iff hm.tree).2 rfl, (UsesAlloc.eq hm.tree).2 rfl,
          ?_, (contents_iff hm.srcTree).2 rfl, he, hm.nAlloc, hct, hcmp, ?_⟩
        · refine moveCtorAlloc_same hI.ready ht ?_
          have h4 : Runs (do pure (.multi (← mexec lt (.base (.move s))))) (ready w) (FRes.multi _) w' := h1
          obtain ⟨r1, w1, g1, g2⟩ := runs_seq_inv h4
          cases g2
          obtain ⟨n, w2, f1, f2⟩ := runs_seq_inv g1
          cases f1
          obtain ⟨r2, w2, g3, g4⟩ := runs_seq_inv f2
          cases g4
          have h6 : Runs (do pure (Res.obj (← moveCtor s))) (ready w) _ w' := g3
          obtain ⟨r3, w3, g5, g6⟩ := runs_seq_inv h6
          cases g6
          exact g5
        · rintro ⟨j, hj, hne⟩
          exact hne hI.fresh_stk
        · obtain ⟨i, rfl⟩ := ht.ok.hdr
          exact ⟨i, rfl, hm.srcTree.ne_none⟩
        · intro x N hx hxs hN
          obtain ⟨o2, u, hu, rfl⟩ := hr.tree hx hN
          obtain ⟨i, rfl, -⟩ := hx
          have := hm.other hI.ready ht hu hxs
          exact ⟨⟨i, rfl, this.ne_none⟩, (contents_iff this).2 rfl⟩

/-- The new object and the copy. -/
theorem moveCtorAlloc_other {o : Nat} {t : T K} (hI : MInv lt w) (ht : Tree w.heap s o t) (htn : t ≠ .nil) (he : w.err = none) (ha : o ≠ a) :
    (∃ w' t2, Runs (moveCtorAlloc a s) w (.stk w.sp) w' ∧ MInv lt w' ∧ Tree w'.heap (.stk w.sp) a t2 ∧ Like t t2 ∧
      (∀ q ∈ t2.ptrs, w.heap q = none) ∧ w'.err = none ∧ w'.nCmp = w.nCmp ∧ ¬ Refused w ∧
      ∀ i o2 u, Tree w.heap (.stk i) o2 u → Tree w'.heap (.stk i) o2 u) ∨
    (¬ Good w ∧ Faults (moveCtorAlloc a s) w .assertFail) := by
  obtain ⟨d, w1, h1, rfl, h2, h3⟩ := (wp_newTree (w := w) (o := a) (Q := fun d w1 => d = .stk w.sp ∧ Created w w1 a ∧ w1.err = none ∧
      w1.nCmp = w.nCmp ∧ w1.nCtor = w.nCtor)
    fun h => ⟨rfl, ⟨rfl, rfl, rfl, h, fun q hq => upd_other _ _ hq⟩, he, rfl, rfl⟩).runs
  obtain ⟨h3, hcm, hct⟩ := h3
  have hI1 : MInv lt w1 := h2.inv (fun _ => .nil) hI
  obtain ⟨i, rfl⟩ := ht.ok.hdr
  have ht1 := h2.other hI ht
  have hne : Ptr.stk w.sp ≠ .stk i := by
    intro e; exact ht.ne_none (e ▸ hI.fresh_stk)
  have hn : t.ptr ≠ .null := fun e => ht.null_notMem (e ▸ ptr_mem_ptrs htn)
  have hgood : Good w → Good w1 := by
    intro g
    refine ⟨?_, ?_, ?_, hI1.past⟩
    · rw [h2.env]; exact g.some
    · rw [h2.env]; exact g.inj
    · rw [h2.env]; exact g.ctor
  have hrefused : Refused w → Refused w1 := by
    unfold Refused
    rw [h2.env, h2.nAlloc, hct]
    rintro (h | h)
    · left
      intro b hb
      rw [h2.frame _ (by simp)]
      exact h b hb
    · exact Or.inr h
  rcases moveDataAny_other ht1 h2.tree hne (Ne.symm ha) htn h3 with ⟨w', t2, k1, k2, k3, k4, k5, k6, k7⟩ | ⟨k1, k2⟩
  · left
    refine ⟨w', t2, ?_, k4.inv hI1 h2.tree k2 ?_, k2, k3, ?_, k5, k6.trans hcm, fun h => k7 (hrefused h), ?_⟩
    · unfold moveCtorAlloc
      refine runs_seq h1 ?_
      obtain ⟨n, w3, g1, rfl, rfl⟩ := ((wp_rd (Q := fun x y => x = _ ∧ y = w1) ht1.cell ht1.hdr_ne).2 ⟨rfl, rfl⟩).runs
      refine runs_seq g1 ?_
      refine (congrArg (fun m => Runs m w3 (Ptr.stk w.sp) w') (if_pos hn)).mpr ?_
      exact runs_seq (a := ()) k1 rfl
    · intro hs
      exact (Closed.wsorted lt).keys _ _ k3.keys.symm (hI.prop ht) hs
    · intro q hq
      rcases k4.fresh q hq with h | h
      · simp [T.ptrs, T.nodes] at h
      · have h4 := h.none
        obtain ⟨j, rfl⟩ := k2.ok.dyn _ hq
        rwa [h2.frame _ (by simp)] at h4
    · intro j o2 u hu
      refine k4.other hI1 h2.tree ?_ (h2.other hI hu) k2
      intro e
      exact hu.ne_none (e ▸ hI.fresh_stk)
  · right
    refine ⟨fun g => k1 (hgood g), ?_⟩
    unfold moveCtorAlloc
    refine wp.faults_bind (wp_iff_runs.2 ⟨_, _, h1, ?_⟩)
    refine wp.faults_bind ((wp_rd ht1.cell ht1.hdr_ne).2 ?_)
    exact Faults.if_pos hn (Faults.bind k2)

/-- C117 (different allocators): otherwise the elements are copied into new nodes obtained from the given allocator, and the old
object keeps its elements; but the constructor has no error to report.  If a node cannot be made it asks for the least element of
an empty tree: the assertion of `s_minimum` fails.  This happens only if a request is refused. -/
theorem tree_move_alloc_other_partial (hr : FReach lt w) (hs : Alive w s) (hL : Contents w s L) (ha : ¬ UsesAlloc w s a) :
    (∃ d w' L', Runs (moveCtorAlloc a s) (ready w) d w' ∧ MInv lt w' ∧ ¬ Alive w d ∧ Alive w' d ∧ Contents w' d L' ∧
      L'.map Prod.snd = L.map Prod.snd ∧ (∀ x ∈ L', w.heap x.1 = none) ∧ UsesAlloc w' d a ∧ w'.err = none ∧ w'.nCmp = w.nCmp ∧
      ∀ x N, Alive w x → Contents w x N → Alive w' x ∧ Contents w' x N) ∨
    (L ≠ [] ∧ ¬ Good w ∧ Faults (moveCtorAlloc a s) (ready w) .assertFail) := by
  have hI := hr.inv
  obtain ⟨o, t, ht, rfl⟩ := hr.tree hs hL
  have ho : o ≠ a := fun e => ha ((UsesAlloc.eq ht).2 e)
  have hna : ¬ Alive w (.stk w.sp) := by
    rintro ⟨j, hj, hne⟩
    exact hne hI.fresh_stk
  by_cases htn : t = .nil
  · subst htn
    left
    obtain ⟨d, w1, h1, rfl, h2, h3, h4⟩ := (wp_newTree (w := ready w) (o := a) (Q := fun d w1 => d = .stk w.sp ∧ Created (ready w) w1 a ∧
        w1.err = none ∧ w1.nCmp = w.nCmp)
      fun h => ⟨rfl, ⟨rfl, rfl, rfl, h, fun q hq => upd_other _ _ hq⟩, rfl, rfl⟩).runs
    refine ⟨_, w1, [], ?_, h2.inv (fun _ => .nil) hI.ready, hna, ⟨_, rfl, h2.tree.ne_none⟩, (contents_iff h2.tree).2 rfl, rfl, by simp,
      (UsesAlloc.eq h2.tree).2 rfl, h3, h4, ?_⟩
    · unfold moveCtorAlloc
      refine runs_seq h1 ?_
      obtain ⟨i, rfl⟩ := ht.ok.hdr
      have ht1 := h2.other hI.ready ht
      obtain ⟨n, w3, g1, rfl, rfl⟩ := ((wp_rd (Q := fun x y => x = _ ∧ y = w1) ht1.cell ht1.hdr_ne).2 ⟨rfl, rfl⟩).runs
      exact runs_seq g1 rfl
    · intro x N hx hN
      obtain ⟨o2, u, hu, rfl⟩ := hr.tree hx hN
      obtain ⟨i, rfl, -⟩ := hx
      have := h2.other hI.ready hu
      exact ⟨⟨i, rfl, this.ne_none⟩, (contents_iff this).2 rfl⟩
  · rcases moveCtorAlloc_other (w := ready w) hI.ready ht htn rfl ho with ⟨w', t2, k1, k2, k3, k4, k5, k6, k7, _, k9⟩ | ⟨k1, k2⟩
    · refine Or.inl ⟨_, w', t2.nodes, k1, k2, hna, ⟨_, rfl, k3.ne_none⟩, (contents_iff k3).2 rfl, k4.keys, ?_, (UsesAlloc.eq k3).2 rfl, k6, k7, ?_⟩
      · intro x hx
        exact k5 _ (List.mem_map_of_mem hx)
      · intro x N hx hN
        obtain ⟨o2, u, hu, rfl⟩ := hr.tree hx hN
        obtain ⟨i, rfl, -⟩ := hx
        have := k9 i o2 u hu
        exact ⟨⟨i, rfl, this.ne_none⟩, (contents_iff this).2 rfl⟩
    · refine Or.inr ⟨?_, fun g => k1 ⟨g.some, g.inj, g.ctor, g.past⟩, k2⟩
      cases t with
      | nil => exact absurd rfl htn
      | node => simp [T.nodes]

/-- C117: with different allocators, if the first node cannot be obtained or its element cannot be copied, the constructor runs
into the failing assertion. -/
theorem tree_move_alloc_crashes (hr : FReach lt w) (hs : Alive w s) (hL : Contents w s L) (hne : L ≠ []) (ha : ¬ UsesAlloc w s a)
    (hrf : Refused w) : Faults (moveCtorAlloc a s) (ready w) .assertFail := by
  have hI := hr.inv
  obtain ⟨o, t, ht, rfl⟩ := hr.tree hs hL
  have htn : t ≠ .nil := by rintro rfl; exact hne rfl
  rcases moveCtorAlloc_other (w := ready w) hI.ready ht htn rfl (fun e => ha ((UsesAlloc.eq ht).2 e)) with ⟨_, _, _, _, _, _, _, _, _, k8, _⟩ | ⟨_, k2⟩
  · exact absurd hrf k8
  · exact k2

/-- An allocator that delivers a single node. -/
def oneEnv : Env (TNode (Nat × Nat)) :=
  { addr := fun k => if k = 0 then some 0 else none, ctor := fun _ => true, junk := fun _ => ⟨.red, .null, .null, .null, none, 0, 0⟩ }

theorem oneDemo : ∃ w L, FReach pairLt w ∧ Alive w (.stk 0) ∧ Contents w (.stk 0) L ∧ L.map Prod.snd = [(2, 0)] ∧ UsesAlloc w (.stk 0) 7 ∧
    Refused w := by
  have h0 : FReach pairLt (start oneEnv) := ⟨oneEnv, [], .start⟩
  obtain ⟨r1, w1, -, h1, e1⟩ := h0.step (c := .multi (.base (.create 7))) trivial
  obtain ⟨t1, env1, al1, cl1⟩ : Tree w1.heap (.stk 0) 7 .nil ∧ w1.env = oneEnv ∧ w1.nAlloc = 0 ∧ ∀ a, w1.heap (.dyn a) = none := by
    cases e1 with
    | multi e1 =>
      cases e1 with
      | base e1 _ =>
        cases e1 with
        | create hc _ => exact ⟨hc.tree, hc.env, hc.nAlloc, fun a => hc.frame _ (by simp)⟩
  have a1 : Alive w1 (.stk 0) := ⟨0, rfl, t1.ne_none⟩
  obtain ⟨r2, w2, -, h2, e2⟩ := h1.step (c := .multi (.equal .upper (.stk 0) (2, 0))) a1
  cases e2 with
  | multi e2 =>
    cases e2 with
    | fail _ hr =>
      exfalso
      rcases hr with hr | hr
      · have h3 := hr 0 (by show w1.env.addr w1.nAlloc = _; rw [env1, al1]; rfl)
        exact h3 (cl1 0)
      · have h3 : w1.env.ctor w1.nCtor = false := hr
        rw [env1] at h3
        cases h3
    | @new _ _ _ _ _ o t t' A B a _ ht ht' hA hA' _ hc hf =>
      obtain ⟨rfl, rfl⟩ := Tree.unique ht t1
      have hAB : A ++ B = [] := hA.symm
      obtain ⟨rfl, rfl⟩ := List.append_eq_nil_iff.1 hAB
      refine ⟨w2, _, h2, ⟨0, rfl, ht'.ne_none⟩, (contents_iff ht').2 rfl, by rw [hA']; rfl, (UsesAlloc.eq ht').2 rfl, Or.inl ?_⟩
      intro b hb
      obtain ⟨k, _, _, _, hk, _⟩ := hf.req
      have e : w2.env = oneEnv := hc.ext.env.trans env1
      rw [e] at hb
      unfold oneEnv at hb
      simp only at hb
      rw [if_neg (by omega)] at hb
      cases hb

/-- A tree of four elements is move constructed with its own allocator (7) and with another one (8). -/
example : ∃ w L d w' d2 w2 L2, FReach pairLt w ∧ L.length = 4 ∧ Contents w (.stk 0) L ∧ Runs (moveCtorAlloc 7 (.stk 0)) (ready w) d w' ∧
    Contents w' d L ∧ Runs (moveCtorAlloc 8 (.stk 0)) (ready w) d2 w2 ∧ Contents w2 d2 L2 ∧ Contents w2 (.stk 0) L ∧
    L2.map Prod.snd = [(1, 0), (2, 0), (2, 1), (3, 0)] := by
  obtain ⟨w, L, M, hr, hg, h0, h1, hL, hM, hk, -, hu, -⟩ := fdemo 7
  obtain ⟨d, w', k1, -, -, -, k2, -⟩ := tree_move_alloc_same hr h0 hL hu
  have hu8 : ¬ UsesAlloc w (.stk 0) 8 := by
    rintro ⟨n, n1, n2⟩
    obtain ⟨m, m1, m2⟩ := hu
    rw [n1] at m1
    cases m1
    omega
  rcases tree_move_alloc_other_partial hr h0 hL hu8 with ⟨d2, w2, L2, g1, -, -, -, g2, g3, -, -, -, -, g4⟩ | ⟨-, hng, -⟩
  · exact ⟨w, L, d, w', d2, w2, L2, hr, by simpa using congrArg List.length hk, hL, k1, k2, g1, g2, (g4 _ _ h0 hL).2, g3.trans hk⟩
  · exact absurd hg hng

/-- Here the second node is refused and the constructor crashes. -/
example : ∃ w L, FReach pairLt w ∧ Alive w (.stk 0) ∧ Contents w (.stk 0) L ∧ L ≠ [] ∧ ¬ UsesAlloc w (.stk 0) 8 ∧ Refused w := by
  obtain ⟨w, L, hr, h0, hL, hk, hu, hrf⟩ := oneDemo
  refine ⟨w, L, hr, h0, hL, (by rintro rfl; cases hk), ?_, hrf⟩
  rintro ⟨n, n1, n2⟩
  obtain ⟨m, m1, m2⟩ := hu
  rw [n1] at m1
  cases m1
  omega

end Nestl.Full
