import Verif.TreeOf.Constructs
import Verif.TreeOf.Range
set_option autoImplicit false
/-
Property theorem about the elements that the insertion of a range into a set of objects constructs (C133).
-/
namespace Nestl.TO
open Nestl.VO (Elem ElemOps Counts)
open Nestl.NO
open Nestl.RB (runs_seq_inv)
open Nestl.Set (Alive contents_iff posOf put)
variable {S : Type} {F : ElemOps S} {m : S → Nat} {less : Ptr → Ptr → M S Bool} {s s' : ST S}

/-- No node is requested. -/
def NoNode (s s' : ST S) : Prop := s'.o.nAlloc = s.o.nAlloc

theorem moves_noNode : Moves (NoNode (S := S)) where
  refl _ := rfl
  trans _ _ _ h h' := Eq.trans h' h
  link m h s r s' hr := by
    obtain ⟨o, h1, rfl⟩ := of_onO hr
    exact (h _ _ _ h1).1.allocs
  inner _ _ := rfl

/-- At most one node is requested. -/
theorem createNode_asks {t : Ptr} {a : Arg} {p : Ptr} (h : Runs (createNode F t a) s p s') : s'.o.nAlloc ≤ s.o.nAlloc + 1 := by
  have hR : Moves (NoNode (S := S)) := moves_noNode
  unfold createNode at h
  obtain ⟨c, s1, h1, h2⟩ := VO.runs_bind_iff.1 h
  have e1 : s1.o.nAlloc = s.o.nAlloc := d_node hR _ _ _ _ h1
  obtain ⟨l, s2, h3, h4⟩ := VO.runs_bind_iff.1 h2
  have e2 : s2.o.nAlloc = s1.o.nAlloc + 1 := by
    obtain ⟨o, h5, rfl⟩ := of_onO h3
    exact allocCell_one h5
  obtain ⟨b, s3, h5, h6⟩ := VO.runs_bind_iff.1 h4
  have e3 : s3.o.nAlloc = s2.o.nAlloc := Does.failed hR _ _ _ h5
  split at h6
  · cases h6; omega
  · obtain ⟨u, s4, h7, h8⟩ := VO.runs_bind_iff.1 h6
    have e4 := (construct_makes (f := fun _ => 0) (F := F)
      ⟨fun _ _ _ _ => by simp, fun _ _ _ _ _ => by simp, fun _ _ _ _ _ => by simp, fun _ _ _ _ _ => by simp⟩ h7).2
    have e5 : s'.o.nAlloc = s4.o.nAlloc := by
      have : Does (NoNode (S := S)) (failed >>= fun b => if b then (do onO (RB.putNode t l); pure Ptr.null) else pure l) := by
        repeat' does1
      exact this _ _ _ h8
    omega

theorem insertUniqueAt_asks {t pos : Ptr} {a : Arg} {p : Ptr} (h : Runs (insertUniqueAt less F t pos a) s p s') :
    s'.o.nAlloc ≤ s.o.nAlloc + 1 := by
  have hR : Moves (NoNode (S := S)) := moves_noNode
  unfold insertUniqueAt at h
  obtain ⟨⟨x, y⟩, s1, h1, h2⟩ := VO.runs_bind_iff.1 h
  have e1 : s1.o.nAlloc = s.o.nAlloc := d_getInsertHintUniquePos hR _ _ _ _ _ _ _ h1
  dsimp only at h2
  split at h2
  · unfold insert_ at h2
    obtain ⟨b, s2, h3, h4⟩ := VO.runs_bind_iff.1 h2
    have e2 : s2.o.nAlloc = s1.o.nAlloc := by
      have : Does (NoNode (S := S)) (if x ≠ .null then pure true else if y = t then pure true
          else do compare less (theArg a) (← keyOf y)) := by
        repeat' does1
      exact this _ _ _ h3
    obtain ⟨l, s3, h5, h6⟩ := VO.runs_bind_iff.1 h4
    have e3 := createNode_asks h5
    have e4 : s'.o.nAlloc = s3.o.nAlloc := by
      have : Does (NoNode (S := S)) (failed >>= fun c => if c then pure t else onO (linkNode b t y l)) := by
        repeat' does1
      exact this _ _ _ h6
    omega
  · cases h2; omega

/-- C133 (ranges): inserting a range of `n` objects into a set requests at most `n` nodes and constructs at most `n` elements, in every
state and also if it fails. -/
theorem treeOf_constructions_range (hF : Counts F m) (hL : Looks m less) {t : Ptr} {ts : List Ptr} {u : Unit}
    (h : Runs (insertUniqueRange less F t ts) s u s') :
    s'.o.nAlloc ≤ s.o.nAlloc + ts.length ∧ m s'.i ≤ m s.i + ts.length := by
  have h1 : s'.o.nAlloc ≤ s.o.nAlloc + ts.length := by
    clear hF hL
    induction ts generalizing s with
    | nil => cases h; exact Nat.le_refl _
    | cons q ts ih =>
      unfold insertUniqueRange at h
      obtain ⟨p, s1, h1, h2⟩ := VO.runs_bind_iff.1 h
      have e1 := insertUniqueAt_asks h1
      obtain ⟨b, s2, h3, h4⟩ := VO.runs_bind_iff.1 h2
      have e2 : s2 = s1 := by cases h3; rfl
      subst e2
      rw [List.length_cons]
      split at h4
      · cases h4; omega
      · have := ih h4; omega
  have h2 : Within m (insertUniqueRange less F t ts) := by
    clear h h1
    induction ts with
    | nil => exact .pure _
    | cons q ts ih => exact .bind (w_insertUniqueAt hF hL _ _ _) fun _ => .bind .failed fun _ => .ite (.pure _) ih
  have h3 := h2 _ _ _ h
  exact ⟨h1, by omega⟩

/-! ### A range of another set, and move assignment -/

section
variable {A X : Type} {E : Elem S A X} {lt : A → A → Bool}

/-- C133 (ranges): the same for a range of `M.length` elements of another set. -/
theorem treeOf_constructions_from (hF : Counts E.toElemOps m) (hL : Looks m less) {t t' : Ptr} {al al' : Nat} {B : AState A}
    {L Y M Z : List (Ptr × A)} (hr : Reach E s) (hc : Compares E less lt) (hs : SWO lt) (hB : Shows E s B) (ht : B t = some (al, L))
    (hst : L.Pairwise fun a b => lt a.2 b.2 = true) (hne : t' ≠ t) (ht' : B t' = some (al', Y ++ (M ++ Z))) {u : Unit}
    (h : Runs (insertFrom less E.toElemOps t (posOf t' (M ++ Z)) (posOf t' Z)) (ready s) u s') :
    s'.o.nAlloc ≤ s.o.nAlloc + M.length ∧ m s'.i ≤ m s.i + M.length := by
  have ha : Alive s.o t := (hB.1 t).2 (by rw [ht]; simp)
  have ha' : Alive s.o t' := (hB.1 t').2 (by rw [ht']; simp)
  obtain ⟨qs, h1, h2⟩ := (hB.2 _ _ _ ht').2
  rw [List.map_append, List.map_append] at h2
  obtain ⟨Y', N, rfl, e1, h2⟩ := List.map_eq_append_iff.1 h2
  obtain ⟨C, Z', rfl, e2, e3⟩ := List.map_eq_append_iff.1 h2
  have hx : (C.map Prod.snd).map (E.val s.i) = (M.map Prod.snd).map some := by
    have := congrArg (List.map Prod.snd) e2
    simpa [List.map_map, Function.comp_def] using this
  have hlen : (C.map Prod.snd).length = M.length := by
    have := congrArg List.length e2
    simpa using this
  obtain ⟨s2, us, rest, L', h3, h4, h5⟩ := treeOf_insert_range hr hc hs hB ht hst hx
  have hpos : ∀ {P : List (Ptr × Ptr)} {R : List (Ptr × A)}, (P.map fun x => (x.1, E.val s.i x.2)) = (R.map fun x => (x.1, some x.2)) →
      posOf t' P = posOf t' R := by
    intro P R h
    cases P <;> cases R <;> simp at h ⊢
    · rfl
    · exact h.1.1
  rw [← hpos (P := C ++ Z') (R := M ++ Z) (by simp [e2, e3]), ← hpos e3] at h
  have h6 := insertFrom_range (Y := Y') hc hs hne (hr.ready ha) rfl (hr.inv.shows_ready hB) ht hst ha' (by
    obtain ⟨i, a, v, rfl, -, htr, -⟩ := hr.inv.outer.tree ha'
    rw [(contents_iff htr).1 h1]
    exact (contents_iff (w := (ready s).o) htr).2 rfl) h4
  obtain ⟨-, rfl⟩ := Runs.det h h6
  have := treeOf_constructions_range hF hL h4
  rw [hlen] at this
  exact this

/-- Destruction of an element requests no node. -/
theorem noNode_destroy (p : Ptr) : Does NoNode (destroyElem F p : M (ST S) Unit) := by
  have hR : Moves (NoNode (S := S)) := moves_noNode
  intro s r s' h
  obtain ⟨q, s1, h1, h2⟩ := VO.runs_bind_iff.1 h
  obtain ⟨_, s2, h3, h4⟩ := VO.runs_bind_iff.1 h2
  have e1 : s1.o.nAlloc = s.o.nAlloc := by
    obtain ⟨o, h5, rfl⟩ := of_onO h1
    rw [(runs_theVal.1 h5).2.2]
  have e2 : s2.o.nAlloc = s1.o.nAlloc := Does.inner hR _ _ _ _ h3
  have e3 : s'.o.nAlloc = s2.o.nAlloc := by
    obtain ⟨o, h5, rfl⟩ := of_onO h4
    refine (Quiet.bind (.rd _) (fun c => ?_) _ _ _ h5).allocs
    split
    · exact .fault _
    · exact .modCell _ _
  exact e3.trans (e2.trans e1)

/-- C133 (move assignment of sets): if the allocator propagates or the allocators are equal, nothing is constructed; otherwise at most
one element for every element of the source. -/
theorem treeOf_constructions_assign (hF : Counts E.toElemOps m) (hL : Looks m less) {prop : Bool} {d t : Ptr} {al al' : Nat} {B : AState A}
    {L L' : List (Ptr × A)} (hr : Reach E s) (hc : Compares E less lt) (hs : SWO lt) (hB : Shows E s B) (hd : B d = some (al, L))
    (ht : B t = some (al', L')) (hne : d ≠ t) {e : Option Err} (h : Runs (setAssign less E.toElemOps prop d t) (ready s) e s') :
    m s'.i ≤ m s.i + L'.length ∧ (prop = true ∨ al = al' → m s'.i ≤ m s.i) := by
  have hR : Moves (NoNode (S := S)) := moves_noNode
  have had : Alive s.o d := (hB.1 d).2 (by rw [hd]; simp)
  have hat : Alive s.o t := (hB.1 t).2 (by rw [ht]; simp)
  have hv : Valid E s (.assign prop d t) := ⟨⟨had, hat⟩, trivial, fun _ h => h.elim, fun _ h => h.elim, fun _ h => h.elim, fun _ h => by cases h⟩
  obtain ⟨b, s1, h1, h2⟩ := runs_seq_inv h
  have w1 : m s1.i + s.o.nAlloc ≤ m s.i + s1.o.nAlloc := w_moveAssign hF _ _ _ (ready s) _ _ h1
  have n1 : s1.o.nAlloc = s.o.nAlloc := d_moveAssign hR noNode_destroy _ _ _ (ready s) _ _ h1
  have hx : Runs (exec E.toElemOps (.assign prop d t : Call S A)) (ready s) (.ok b) s1 := RB.runs_seq h1 rfl
  have hr1 : Reach E s1 := by
    obtain ⟨r, s2, g1, g2⟩ := treeOf_calls_safe hr hv
    obtain ⟨-, rfl⟩ := Runs.det g1 hx
    exact g2
  obtain ⟨B1, h3, o, o', L0, L0', e1, e2, e3, h4⟩ := treeOf_calls_refine hr hv hx rfl hB
  rw [hd] at e1; cases e1
  rw [ht] at e2; cases e2
  rcases h4 with ⟨k1, k2, k3, rfl⟩ | ⟨k1, k2, rfl⟩
  · cases k3
    have he1 : s1.o.err = none := by simpa using e3
    obtain ⟨s3, c1, c2, c3, c4, -⟩ := clear_step (fun u => u ≠ d ∧ u ≠ t) (fun h => h.1 rfl) hr1 h3 hd
    rw [ready_of he1] at c1
    obtain ⟨_, s3', g1, g2⟩ := runs_seq_inv h2
    obtain ⟨-, rfl⟩ := Runs.det c1 g1
    have w3 := w_clear hF _ _ _ _ c1
    have n3 : s3.o.nAlloc = s1.o.nAlloc := d_clear hR noNode_destroy _ _ _ _ c1
    have ht3 : put B1 d (some (al, [])) t = some (al', [] ++ (L' ++ [])) := by
      rw [Set.put_other _ _ hne.symm, ht]; simp
    obtain ⟨x, s4, g3, g4⟩ := runs_seq_inv g2
    have hx : x = posOf t (L' ++ []) ∧ s4 = s3 := by
      have hat3 : Alive s3.o t := (c3.1 t).2 (by rw [ht3]; simp)
      obtain ⟨i, a, v, rfl, -, htr, -⟩ := c2.inv.outer.tree hat3
      obtain ⟨qs, j1, j2⟩ := (c3.2 _ _ _ ht3).2.fst
      have hpos : posOf (.stk i) (L' ++ []) = RB.firstP (.stk i) v.nodes := by
        rw [(contents_iff htr).1 j1] at j2
        simp only [List.nil_append, List.append_nil] at j2 ⊢
        rw [← Set.posOf_eq]
        generalize v.nodes = V at j2
        cases V <;> cases L' <;> simp at j2 ⊢
        · rfl
        · exact j2.1.symm
      rw [hpos]
      obtain ⟨a2, w2, g5, rfl, rfl⟩ := wp.runs (m := RB.begin_ (.stk i)) (s := s3.o) (Q := fun a2 w2 => a2 = RB.firstP (.stk i) v.nodes ∧ w2 = s3.o) (by
        unfold RB.begin_
        rw [wp_bind, wp_rd htr.cell htr.hdr_ne]
        exact ⟨rfl, rfl⟩)
      exact Runs.det g3 (runs_onO g5)
    obtain ⟨rfl, rfl⟩ := hx
    obtain ⟨_, s5, g5, g6⟩ := runs_seq_inv g4
    have c5 := treeOf_constructions_from (Y := []) (M := L') (Z := []) hF hL c2 hc hs c3 (Set.put_same _ _ _) .nil hne.symm ht3
      (by rw [ready_of c4]; exact g5)
    obtain ⟨e6, s6, g7, g8⟩ := runs_seq_inv g6
    have w6 : s6.i = s5.i := by cases g7; rfl
    obtain ⟨_, s7, g9, g10⟩ := runs_seq_inv g8
    have w7 := w_clear hF _ _ _ _ g9
    have n7 : s7.o.nAlloc = s6.o.nAlloc := d_clear hR noNode_destroy _ _ _ _ g9
    cases g10
    rw [w6] at w7
    refine ⟨by omega, fun hp => ?_⟩
    rcases hp with hp | hp
    · rw [hp] at k1; cases k1
    · exact absurd hp k2
  · cases k2
    cases h2
    exact ⟨by omega, fun _ => by omega⟩
end

/-- Three boxes, two of them with the value 7, are inserted into the set `u`. -/
example : ∃ s', Runs (insertUniqueRange Demo.ord.less VO.boxOps Demo.u [.stk 2, .stk 0, .stk 3]) (ready Demo.s4) () s' ∧
    s'.o.nAlloc ≤ Demo.s4.o.nAlloc + 3 ∧ s'.i.next ≤ Demo.s4.i.next + 3 := by
  obtain ⟨B, h1, h2, -⟩ := Demo.shows4
  obtain ⟨s', us, rest, L', -, h3, -⟩ := treeOf_insert_range (ts := [.stk 2, .stk 0, .stk 3]) (xs := [7, 7, 8]) Demo.r4 Demo.ord_ok
    Demo.ord_swo h1 h2 .nil (by decide +kernel)
  exact ⟨s', h3, treeOf_constructions_range VO.counts_box looks_box h3⟩

/-- The two elements of `v` are inserted into the set `u`. -/
example : ∃ s', Runs (insertFrom Demo.ord.less VO.boxOps Demo.u (.dyn 0) Demo.v) (ready Demo.s4) () s' ∧
    s'.i.next ≤ Demo.s4.i.next + 2 := by
  obtain ⟨B, h1, h2, h3⟩ := Demo.shows4
  obtain ⟨s', us, rest, L', -, h4, -⟩ := treeOf_insert_from (t := Demo.u) (t' := Demo.v) (Y := []) (M := [(.dyn 0, 7), (.dyn 1, 8)]) (Z := [])
    Demo.r4 Demo.ord_ok Demo.ord_swo h1 h2 .nil (by decide) h3
  exact ⟨s', h4, (treeOf_constructions_from (Y := []) (M := [(.dyn 0, 7), (.dyn 1, 8)]) (Z := []) VO.counts_box looks_box Demo.r4 Demo.ord_ok
    Demo.ord_swo h1 h2 .nil (by decide) h3 h4).2⟩

/-- Move assignment between sets with the same allocator, and between sets with different allocators. -/
example : (∃ e s', Runs (setAssign Demo.ord.less VO.boxOps false Demo.u Demo.v) (ready Demo.s4) e s' ∧ s'.i.next ≤ Demo.s4.i.next) ∧
    ∃ e s', Runs (setAssign Demo.ord.less VO.boxOps false Demo.u Demo.v) (ready Demo.q3) e s' ∧ s'.i.next ≤ Demo.q3.i.next + 1 := by
  obtain ⟨B, h1, h2, h3⟩ := Demo.shows4
  obtain ⟨B', k1, k2, k3⟩ := Demo.qshows3
  obtain ⟨e, s', _, _, h4, -⟩ := treeOf_set_assign_partial (prop := false) Demo.r4 Demo.ord_ok Demo.ord_swo h1 h2 h3 (by decide) (by simp [Demo.ord])
  obtain ⟨e', s'', _, _, k4, -⟩ := treeOf_set_assign_partial (prop := false) Demo.qr3 Demo.ord_ok Demo.ord_swo k1 k2 k3 (by decide) (by simp)
  exact ⟨⟨e, s', h4, (treeOf_constructions_assign VO.counts_box looks_box Demo.r4 Demo.ord_ok Demo.ord_swo h1 h2 h3 (by decide) h4).2 (.inr rfl)⟩,
    e', s'', k4, (treeOf_constructions_assign VO.counts_box looks_box Demo.qr3 Demo.ord_ok Demo.ord_swo k1 k2 k3 (by decide) k4).1⟩

end Nestl.TO
