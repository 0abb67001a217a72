import Verif.VectorOf.RefProps
set_option autoImplicit false
/-
Lemmas for the theorems about insertions into vectors of objects.
-/
namespace Nestl.VO
open Nestl.Vec (W VCell Obj Blk Sg ElemSize maxBytes slotsOf)
open Classical
variable {S A X : Type} {E : Elem S A X} {s s' : NS S} {σ : Sg Ptr} {r : VC.Res} {v t : Ptr} {i : Nat} {x : Ins} {qs rs : List Ptr}

/-- Reading a vector depends on its object and its block. -/
theorem walkFrom_congr {V : Type} {w w' : W V} {o : Obj} (h1 : w.heap t = some (.obj o)) (h2 : w'.heap t = w.heap t)
    (h3 : o.start ≠ .null → w'.heap o.start = w.heap o.start) (n : Nat) : ∀ {i : Nat} {L : List V},
    Runs (VC.walkFrom t i n) w L w → Runs (VC.walkFrom t i n) w' L w' := by
  induction n with
  | zero => intro i L h; cases h; rfl
  | succ n ih =>
    intro i L h
    obtain ⟨x, w1, a1, a2⟩ := runs_bind_iff.1 h
    obtain ⟨y, w2, a3, a4⟩ := runs_bind_iff.1 a1
    obtain ⟨b1, b2, rfl⟩ := runs_rdObj.1 a3
    rw [h1] at b2; cases b2
    obtain ⟨_, w3, a5, a6⟩ := runs_bind_iff.1 a4
    obtain ⟨b3, rfl⟩ := of_assert a5
    obtain ⟨b4, ⟨b, b5, b6⟩, rfl⟩ := runs_slotRd.1 a6
    obtain ⟨L', w4, a7, a8⟩ := runs_bind_iff.1 a2
    cases a8
    refine runs_bind_iff.2 ⟨x, w', runs_bind_iff.2 ⟨o, w', runs_rdObj.2 ⟨b1, by rw [h2]; exact h1, rfl⟩,
      runs_bind_iff.2 ⟨(), w', ?_, runs_slotRd.2 ⟨b4, ⟨b, by rw [h3 b4]; exact b5, b6⟩, rfl⟩⟩⟩, runs_bind_iff.2 ⟨L', w', ih a7, rfl⟩⟩
    rw [b3]; rfl

section sized
variable [ElemSize Ptr]

/-- A vector whose object and block are as they were has the same elements. -/
theorem NInv.objs_congr (h : NInv E s σ) {y : Vec.Vec Ptr} (hy : σ t = some y) (h2 : s'.o.heap t = s.o.heap t)
    (h3 : y.start ≠ .null → s'.o.heap y.start = s.o.heap y.start) : Objs s' t y.els := by
  have h1 := (h.outer.st.obj _ _ hy).2
  have h4 : VC.Contents s.o t y.els := (VC.contents_iff h.outer hy).2 rfl
  obtain ⟨n, w1, a1, a2⟩ := runs_bind_iff.1 h4
  obtain ⟨o, w2, a3, a4⟩ := runs_bind_iff.1 a1
  obtain ⟨b1, b2, rfl⟩ := runs_rdObj.1 a3
  rw [h1] at b2; cases b2
  cases a4
  refine runs_bind_iff.2 ⟨_, s'.o, runs_bind_iff.2 ⟨_, s'.o, runs_rdObj.2 ⟨b1, by rw [h2]; exact h1, rfl⟩, rfl⟩, ?_⟩
  exact walkFrom_congr h1 h2 h3 _ a2

/-- Specification: the vectors other than `v` are as before; they consist of the same objects, which have the same values. -/
def OthersKeep (E : Elem S A X) (v : Ptr) (s s' : NS S) : Prop :=
  ∀ t qs, t ≠ v → VC.Alive s.o t → Objs s t qs →
    s'.o.heap t = s.o.heap t ∧ VC.Alive s'.o t ∧ Objs s' t qs ∧ ∀ q, q ∈ qs → E.val s'.i q = E.val s.i q

omit [ElemSize Ptr] in
theorem OthersKeep.refl (v : Ptr) (s : NS S) : OthersKeep E v s s := fun _ _ _ h1 h2 => ⟨rfl, h1, h2, fun _ _ => rfl⟩

omit [ElemSize Ptr] in
theorem OthersKeep.trans {s1 s2 : NS S} (h : OthersKeep E v s s1) (h' : OthersKeep E v s1 s2) : OthersKeep E v s s2 := by
  intro t qs h1 h2 h3
  obtain ⟨a0, a1, a2, a3⟩ := h t qs h1 h2 h3
  obtain ⟨b0, b1, b2, b3⟩ := h' t qs h1 a1 a2
  exact ⟨b0.trans a0, b1, b2, fun q hq => (b3 q hq).trans (a3 q hq)⟩

/-- An insertion leaves memory outside of its vector as it is. -/
theorem insert_heap {E : ElemOps S} {n : Nat} {a : Arg} {o : Obj} (he : s.o.err = none) (hv : s.o.heap v = some (.obj o)) (hle : o.fin ≤ o.cap)
    (h : Runs (insertValue E v i a) s n s') : ∀ q, q ≠ v → q ≠ o.start → s.o.heap q ≠ none → s'.o.heap q = s.o.heap q := by
  intro q h1 h2 h3
  by_cases hc : o.fin = o.cap
  · obtain ⟨s1, -, -, h4, h5⟩ := runs_insert_full he hv hc h
    have hs1 : s1.o.heap q = s.o.heap q ∧ ∀ o', s1.o.heap v = some (.obj o') → s1.o.err = none → q ≠ o'.start := by
      rcases h4 with ⟨k1, k2⟩ | ⟨k1, y, k2, k3, k4⟩
      · exact ⟨k2 q h3, fun _ _ e => (k1 e).elim⟩
      · have hne : q ≠ .dyn y := fun e => h3 (e ▸ k2)
        refine ⟨k4 q h1 h2 hne, fun o' e _ => ?_⟩
        rw [k3] at e; cases e; exact hne
    rcases h5 with ⟨-, rfl, -⟩ | ⟨o', k1, k2, -, -, -, -, k3⟩
    · exact hs1.1
    · rw [k3.other q h1 (hs1.2 o' k2 k1)]; exact hs1.1
  · exact (runs_insert_room he hv (by omega) h).2.2.other q h1 h2

/-- An insertion leaves the other vectors as they are, even if it fails. -/
theorem NInv.insert_others (h : NInv E s σ) (hv : InsValid E s v i x) (hrun : Runs (insExec E.toElemOps v i x) (VO.ready s) r s') :
    OthersKeep E v s s' := by
  intro t qs h1 h2 h3
  obtain ⟨b, hm⟩ := Ins.Means.exists (blank := E.blank) fun q hq => (hv.uses q hq).1
  obtain ⟨r1, s1, y, k1, -, hy, -, k2⟩ := h.insertion hv hm
  obtain ⟨-, rfl⟩ := Runs.det hrun k1
  obtain ⟨z, hz⟩ := (VC.alive_iff h.outer).1 h2
  obtain rfl := (h.objs hz).1 h3
  obtain ⟨a, n, -, k3⟩ := ins_run hrun
  have hst := h.outer.st
  have hk := hst.ok _ _ hy
  have hheap := insert_heap rfl (h.ready.outer.st.obj _ _ hy).2 hk.len k3
  obtain ⟨⟨j, rfl⟩, k4⟩ := hst.obj _ _ hz
  obtain ⟨⟨j', rfl⟩, k5⟩ := hst.obj _ _ hy
  have hsep : z.start ≠ .null → z.start ≠ .stk j' ∧ z.start ≠ y.start ∧ s.o.heap z.start = some z.blk := by
    intro hn
    rcases (hst.ok _ _ hz).blk with ⟨k6, -⟩ | ⟨⟨a, k6⟩, k7⟩
    · exact (hn k6).elim
    · exact ⟨by rw [k6]; simp, fun e => h1 (hst.disj _ _ _ _ hz hy e hn), k7⟩
  have hobj : s'.o.heap (.stk j) = s.o.heap (.stk j) := by
    refine hheap _ h1 (fun e => ?_) (by rw [show (VO.ready s).o.heap (.stk j) = _ from k4]; simp)
    rcases hk.blk with ⟨k6, -⟩ | ⟨⟨a, k6⟩, -⟩ <;> · rw [show y.start = _ from k6] at e; cases e
  have hblk : z.start ≠ .null → s'.o.heap z.start = s.o.heap z.start := fun hn => by
    obtain ⟨k6, k7, k8⟩ := hsep hn
    exact hheap _ k6 k7 (by rw [show (VO.ready s).o.heap z.start = _ from k8]; simp)
  refine ⟨hobj, ⟨j, rfl, by rw [hobj, k4]; simp⟩, h.objs_congr hz hobj hblk, fun q hq => ?_⟩
  have hn : z.start ≠ .null := by
    intro e
    rcases (hst.ok _ _ hz).blk with ⟨-, k6⟩ | ⟨⟨a, k6⟩, -⟩
    · have := (hst.ok _ _ hz).len
      have : z.els = [] := List.length_eq_zero_iff.1 (by omega)
      rw [this] at hq; cases hq
    · rw [k6] at e; cases e
  obtain ⟨k6, k7, k8⟩ := hsep hn
  have k9 := k2 _ k6 k7 (by rw [k8]; simp)
  rw [hblk hn, k8] at k9
  simp only [Vec.Vec.blk, Option.map_some, absCell, Option.some.injEq, VCell.blk.injEq, Blk.mk.injEq, and_true] at k9
  obtain ⟨n, hn2⟩ := List.getElem?_of_mem hq
  have e1 : (slotsOf z.els z.cap)[n]? = some (some q) := slotsOf_get.2 hn2
  have := congrArg (fun l => l[n]?) k9
  simp only [List.getElem?_map, e1, Option.map_some, Option.bind_some, Option.some.injEq] at this
  exact this

omit [ElemSize Ptr] in
theorem ready_of (h : s.o.err = none) : VO.ready s = s := by
  obtain ⟨o, i⟩ := s
  cases o
  cases h
  rfl

/-- The insertion of the same argument at another position. -/
theorem ins_runs {E : ElemOps S} (h : Runs (insExec E v i x) s r s') : ∃ a n, r = .pos n ∧ Runs (insertValue E v i a) s n s' ∧
    ∀ j s2, Runs (insertValue E v j a) s n s2 → Runs (insExec E v j x) s r s2 := by
  cases x with
  | copy a =>
    obtain ⟨b, s1, h1, h2⟩ := runs_bind_iff.1 h
    obtain rfl := of_evalArg h1
    obtain ⟨n, s2, h3, h4⟩ := runs_bind_iff.1 h2
    cases h4
    exact ⟨b, n, rfl, h3, fun j s2 h5 => runs_bind_iff.2 ⟨b, _, h1, runs_bind_iff.2 ⟨n, s2, h5, rfl⟩⟩⟩
  | move t =>
    obtain ⟨n, s2, h3, h4⟩ := runs_bind_iff.1 h
    cases h4
    exact ⟨_, n, rfl, h3, fun j s2 h5 => runs_bind_iff.2 ⟨n, s2, h5, rfl⟩⟩

/-- Specification: the copies of elements do not fail. -/
def Sure (E : ElemOps S) : Prop := ∀ q i e i', ¬ Runs (E.copy q) i (.error e) i'

omit [ElemSize Ptr] in
theorem Calm.sure {E : ElemOps S} (h : Calm E s s') (hw : Sure E) : s'.o.err = s.o.err := by
  rcases h.err with h | ⟨e, q, i, i', -, h⟩
  · exact h
  · exact (hw _ _ _ _ h).elim

/-- If no copy of an element fails, an insertion that fails does the same at the end of the vector. -/
theorem NInv.insert_sure (h : NInv E s σ) (hw : Sure E.toElemOps) {y : Vec.Vec Ptr} (hy : σ v = some y)
    (hrun : Runs (insExec E.toElemOps v i x) (VO.ready s) r s') (he : s'.o.err ≠ none) :
    Runs (insExec E.toElemOps v y.els.length x) (VO.ready s) r s' := by
  obtain ⟨a, n, -, h1, h2⟩ := ins_runs hrun
  have hk := h.outer.st.ok _ _ hy
  have hv := (h.ready.outer.st.obj _ _ hy).2
  refine h2 _ _ ?_
  by_cases hc : y.els.length = y.cap
  · obtain ⟨s1, -, -, -, h3⟩ := runs_insert_full rfl hv hc h1
    rcases h3 with ⟨-, -, h3⟩ | ⟨o', h3, -, -, -, h4, -⟩
    · exact h3 a
    · exact (he ((h4.sure hw).trans h3)).elim
  · have := hk.len
    exact (he (((runs_insert_room rfl hv (by show y.els.length < y.cap; omega) h1).1).sure hw)).elim

end sized
end Nestl.VO
