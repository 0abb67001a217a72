import Verif.VectorOf.Step
import Verif.Vector.Anywhere
set_option autoImplicit false
/-
The effect of insertions into vectors of objects at any position.
-/
namespace Nestl.VO
open Nestl.Vec (W VCell Obj Blk Sg St rdObj slotsOf ElemSize)
open Classical
variable {S A X α : Type} [ElemSize Ptr] {E : Elem S A X} {s : NS S} {σ : Sg Ptr} {u : (Ptr → Option A) × X}

/-- What an insertion does outside of the vectors. -/
def InsEffect (E : Elem S A X) (u : (Ptr → Option A) × X) : Ins → NS S → Prop
  | .move t => Gone E u t
  | .copy _ => Keep E u

theorem sim_insExec {k i : Nat} {x : Ins} {b : VC.CArg A} (hm : x.Means E.blank u.1 b) :
    Sim E (Good E u) (insExec E.toElemOps (.stk k) i x) (@VC.exec A (valueSize A) (.insert (.stk k) i b)) fun _ => InsEffect E u x := by
  cases x with
  | copy a => exact sim_arg hm fun x y hxy => Sim.bind (sim_insertValue k i hxy) fun _ => Sim.pure _ fun _ h => h
  | move t =>
    cases b with
    | elem _ _ => exact (show False from hm).elim
    | val x =>
      have hm : u.1 t = some x := hm
      exact Sim.bind (Q := fun _ => Gone E u t) (sim_insertValue_move k i hm) fun _ =>
        Sim.pure (Q := fun _ => Gone E u t) _ fun _ h => h

/-- The preconditions in terms of the values. -/
theorem insValid_lift (h : NInv E s σ) {v : Ptr} {i : Nat} {x : Ins} {b : VC.CArg A} {y : Vec.Vec Ptr} (hy : σ v = some y)
    (ha : VC.ArgOk s.o x.arg.addr) (hf : VC.Foreign v x.arg.addr ∨ VC.Spare s.o v ∧ ∃ j, x.arg = .elem v j ∧ j < i)
    {f : Ptr → Option A} (hm : x.Means E.blank f b) {w : W A} (hi : @VC.Inv A (valueSize A) w (lift (E.val s.i) σ)) :
    VC.ArgOk w b ∧ (VC.Foreign v b ∨ VC.Spare w v ∧ ∃ j, b = .elem v j ∧ j < i) := by
  have hv : VC.Valid s.o (Call.pushBack v x.arg).addr := ⟨(VC.alive_iff h.outer).2 ⟨_, hy⟩, ha, hf.imp id (·.1)⟩
  have hm' : (Call.pushBack v x.arg).Means E.blank f (.pushBack v b) := ⟨b, hm, rfl⟩
  obtain ⟨-, h1, h2⟩ := valid_lift h hv hm' hi
  refine ⟨h1, ?_⟩
  rcases hf with h3 | ⟨-, j, h3, h4⟩
  · refine .inl ?_
    have hm2 : x.arg.Means E.blank f b := hm
    generalize x.arg = a at h3 hm2
    cases a <;> cases b <;> first | exact hm2.elim | trivial | skip
    obtain ⟨rfl, rfl⟩ := hm2
    exact h3
  · have hm2 : x.arg.Means E.blank f b := hm
    rw [h3] at hm2
    cases b with
    | val _ => exact hm2.elim
    | elem v' j' =>
      obtain ⟨rfl, rfl⟩ := hm2
      exact .inr ⟨h2.resolve_left fun h => h rfl, _, rfl, h4⟩

/-- The effect of an insertion. -/
theorem NInv.insert (h : NInv E s σ) (he : s.o.err = none) {v : Ptr} {i : Nat} {x : Ins} {b : VC.CArg A} {y : Vec.Vec Ptr}
    (hy : σ v = some y) (hi : i ≤ y.els.length) (ha : VC.ArgOk s.o x.arg.addr)
    (hf : VC.Foreign v x.arg.addr ∨ VC.Spare s.o v ∧ ∃ j, x.arg = .elem v j ∧ j < i) (hm : x.Means E.blank (outside E s).1 b) :
    ∃ r s', Runs (insExec E.toElemOps v i x) s r s' ∧ InsEffect E (outside E s) x s' ∧
      ((i = y.els.length ∨ s'.o.err = none) → ∃ σ', NInv E s' σ' ∧
        VC.Spec (seqs E s.i σ) (.insert v i b) r s'.o.err.isSome (seqs E s'.i σ')) ∧
      (∀ q, q ≠ v → q ≠ y.start → s.o.heap q ≠ none →
        (s'.o.heap q).map (absCell (E.val s'.i)) = (s.o.heap q).map (absCell (E.val s.i))) := by
  letI := valueSize A
  obtain ⟨⟨k, rfl⟩, -⟩ := h.outer.st.obj _ _ hy
  have hy' : VO.lift (E.val s.i) σ (.stk k) = some ⟨y.alloc, y.start, y.els.filterMap (E.val s.i), y.cap⟩ := by simp [VO.lift, hy]
  have hn : (y.els.filterMap (E.val s.i)).length = y.els.length := length_live fun q hq => h.live _ _ _ hy hq
  have hall := fun cc => by
    have hI : VC.Inv (oracle (absW E s) cc) (VO.lift (E.val s.i) σ) := ⟨h.lift.st, h.lift.top⟩
    obtain ⟨k1, k2⟩ := insValid_lift h hy ha hf hm hI
    exact VC.wp_insertAny hI he hy' k1 (by simp only [hn]; exact hi) k2
  obtain ⟨r, s', w', h1, h2, h3, h4, h5, h6⟩ := sim_insExec (k := k) (i := i) hm s (absW E s) h.rel ⟨rfl, he⟩ (fun cc _ => by
    obtain ⟨r, w', h1, -⟩ := (hall cc).runs
    exact ⟨r, w', h1⟩)
  have h7 := h6 w'.env.ctor fun _ _ => rfl
  obtain ⟨h8, h9⟩ := h7.wp (hall _)
  have h11 : w'.err.isSome = s'.o.err.isSome := h2.err
  refine ⟨r, s', h1, h3, fun hc => ?_, fun q k3 k4 k1 => ?_⟩
  · obtain ⟨τ, k1, k2, -, -⟩ := h8 (by
      rcases hc with hc | hc
      · exact .inl (by simp only [hn]; exact hc)
      · right
        rw [hc] at h11
        show w'.err = none
        cases e : w'.err with
        | none => rfl
        | some _ => rw [e] at h11; cases h11)
    obtain ⟨σ', h10, rfl⟩ := NInv.of_rel h2 k1
    refine ⟨σ', h10, ?_⟩
    rw [← h11]
    exact k2
  · have := h9 q k3 k4 (by
      show (s.o.heap q).map _ ≠ none
      intro e
      exact k1 (Option.map_eq_none_iff.1 e))
    have h12 := h2.heap q
    rw [← h12]
    exact this

end Nestl.VO
