import Verif.VectorOf.InsertRuns
import Verif.VectorOf.RefDemo
import Verif.Report
set_option autoImplicit false
/-
C102 and C103: references to the elements of vectors of objects, and the errors and requests of calls.
-/
namespace Nestl.VO
open Nestl.Vec (W VCell Obj Blk Sg ElemSize maxBytes)
variable {S A X : Type} {E : Elem S A X} {s s' : NS S} {c : Call} {r : VC.Res} {v t : Ptr} {qs rs : List Ptr}

/-! ### C102: references -/

section sized
variable [ElemSize Ptr]

/-- The states before and after a call. -/
theorem Reach.both (hr : Reach E s) (hv : Valid E s c) (hrun : Runs (exec E.toElemOps c) (ready s) r s') :
    ∃ σ σ', NInv E (ready s) σ ∧ NInv E s' σ' ∧ NInv E s σ ∧ VC.Valid (ready s).o c.addr := by
  obtain ⟨σ, h⟩ := hr.inv
  obtain ⟨σ', h'⟩ := (Reach.call hr hv hrun).inv
  exact ⟨σ, σ', h.ready, h', h, VC.valid_ready h.outer hv.1⟩

theorem NInv.objs {σ : Sg Ptr} (h : NInv E s σ) {x : Vec.Vec Ptr} (hx : σ v = some x) : Objs s v qs ↔ qs = x.els :=
  VC.contents_iff h.outer hx

/-- A call on vectors that needs no element operations. -/
theorem outer_call {σ : Sg Ptr} {m : M (W Ptr) VC.Res} {c' : VC.Call Ptr} (h : NInv E s σ) (he : s.o.err = none) (hv : VC.Valid s.o c')
    (hm : m = VC.exec c') (hrun : Runs (onO m) s r s') :
    ∃ σ', VC.Inv s'.o σ' ∧ VC.Spec (VC.abs σ) c' r s'.o.err.isSome (VC.abs σ') ∧ ∀ x, ¬ VC.Touches c' x → σ x ≠ none → σ' x = σ x := by
  subst hm
  obtain ⟨r1, w1, h1, σ', h2, h3, -, h4⟩ := wp_iff_runs.1 (VC.exec_fsim h.outer he hv)
  obtain ⟨w2, h5, rfl⟩ := of_onO hrun
  obtain ⟨rfl, rfl⟩ := Runs.det h1 h5
  exact ⟨σ', h2, h3, h4⟩

theorem onO_obj {α : Type} {m : M (W Ptr) α} {f : α → VC.Res} (h : Runs (do pure (f (← onO m)) : M (NS S) VC.Res) s r s') :
    Runs (onO (do pure (f (← m)))) s r s' := by
  obtain ⟨a, s1, h1, h2⟩ := runs_bind_iff.1 h
  cases h2
  obtain ⟨w, h3, rfl⟩ := of_onO h1
  exact runs_onO (runs_bind_iff.2 ⟨a, w, h3, rfl⟩)

theorem onO_unit {m : M (W Ptr) Unit} (h : Runs (do onO m; pure .unit : M (NS S) VC.Res) s r s') :
    Runs (onO (do m; pure .unit)) s r s' := by
  obtain ⟨a, s1, h1, h2⟩ := runs_bind_iff.1 h
  cases h2
  obtain ⟨w, h3, rfl⟩ := of_onO h1
  exact runs_onO (runs_bind_iff.2 ⟨a, w, h3, rfl⟩)

end sized

/-- The call is a `push_back` to the vector. -/
def Call.pushes : Call → Ptr → Prop
  | .pushBack v _, x | .pushMove v _, x => x = v
  | _, _ => False

variable [ElemSize Ptr] in
/-- C102: a call keeps all the elements of every vector it does not change: they are the same objects afterwards, whatever the call
does with its own vector and whatever fails.  In particular copying from a vector or passing its elements does not affect it. -/
theorem vectorOf_references (hr : Reach E s) (hv : Valid E s c) (hrun : Runs (exec E.toElemOps c) (ready s) r s')
    (ht : ¬ VC.Touches c.addr t) (ha : VC.Alive s.o t) (ho : Objs s t qs) : VC.Alive s'.o t ∧ Objs s' t qs := by
  obtain ⟨σ, σ', h, h', h0, hva⟩ := hr.both hv hrun
  obtain ⟨x, hx⟩ := (VC.alive_iff h0.outer).1 ha
  obtain rfl := (h0.objs hx).1 ho
  have fin : (∃ x', σ' t = some x' ∧ x'.els = x.els) → VC.Alive s'.o t ∧ Objs s' t x.els := by
    rintro ⟨x', h1, h2⟩
    exact ⟨(VC.alive_iff h'.outer).2 ⟨x', h1⟩, (h'.objs h1).2 h2.symm⟩
  have other : ∀ {y : Ptr} {u : Vec.Vec Ptr}, σ y = some u → t ≠ y →
      (∀ z, (ready s).o.heap z ≠ none → z ≠ y → z ≠ u.start → s'.o.heap z = (ready s).o.heap z) → VC.Alive s'.o t ∧ Objs s' t x.els := by
    intro y u hy hne hz
    have h1 := h.outer.st.obj _ _ hx
    obtain ⟨x', h2, h3, -⟩ := same_vec h h' hx (hz t (by rw [h1.2]; simp [Vec.Vec.obj]) hne (h.outer.st.stk_ne hx hy)) (by
      intro hn
      rcases (h.outer.st.ok _ _ hx).blk with ⟨h2, -⟩ | ⟨-, h2⟩
      · exact (hn h2).elim
      · exact hz _ (by rw [h2]; simp [Vec.Vec.blk]) (h.outer.st.stk_ne hy hx).symm (fun e => hne (h.outer.st.disj _ _ _ _ hx hy e hn)))
    exact fin ⟨x', h2, h3⟩
  have foot : ∀ y, c.on = some y → VC.Alive s.o y → t ≠ y → VC.Alive s'.o t ∧ Objs s' t x.els := by
    intro y hy ha hne
    obtain ⟨u, hu⟩ := (VC.alive_iff h0.outer).1 ha
    obtain ⟨o', -, -, h1⟩ := (h.sum rfl hva hrun).2 y hy _ (h.outer.st.obj _ _ hu).2
    exact other hu hne h1
  have outer : ∀ {m : M (W Ptr) VC.Res}, m = VC.exec c.addr → Runs (onO m) (ready s) r s' → VC.Alive s'.o t ∧ Objs s' t x.els := by
    intro m hm h1
    obtain ⟨τ, h2, -, h3⟩ := outer_call h rfl hva hm h1
    have := (h3 t ht (by rw [hx]; simp)).trans hx
    exact ⟨(VC.alive_iff h2).2 ⟨x, this⟩, (VC.contents_iff h2 this).2 rfl⟩
  cases c with
  | create al => exact outer rfl (onO_obj hrun)
  | move y => exact outer rfl (onO_obj hrun)
  | swap y z => exact outer rfl (onO_unit hrun)
  | moveAssign y z =>
    have hy : t ≠ y := fun e => ht (.inl e)
    have hz : t ≠ z := fun e => ht (.inr e)
    obtain ⟨u, hu⟩ := (VC.alive_iff h0.outer).1 hv.1.1
    obtain ⟨u', hu'⟩ := (VC.alive_iff h0.outer).1 hv.1.2.1
    have := outside_moveAssign h hu hu' (of_unit hrun)
    have h1 := h.outer.st.obj _ _ hx
    obtain ⟨x', h2, h3, -⟩ := same_vec h h' hx (this t (by rw [h1.2]; simp [Vec.Vec.obj]) hy hz (h.outer.st.stk_ne hx hu)) (by
      intro hn
      rcases (h.outer.st.ok _ _ hx).blk with ⟨h2, -⟩ | ⟨-, h2⟩
      · exact (hn h2).elim
      · exact this _ (by rw [h2]; simp [Vec.Vec.blk]) (h.outer.st.stk_ne hu hx).symm (h.outer.st.stk_ne hu' hx).symm
          (fun e => hy (h.outer.st.disj _ _ _ _ hx hu e hn)))
    exact fin ⟨x', h2, h3⟩
  | destroy y =>
    obtain ⟨u, hu⟩ := (VC.alive_iff h0.outer).1 hv.1
    obtain ⟨-, -, -, h1⟩ := runs_destroyVec (h.outer.st.obj _ _ hu).2 (of_unit hrun)
    exact other hu ht fun z _ h2 h3 => h1 z h2 h3
  | clear y => exact foot y rfl hv.1 ht
  | shrink y => exact foot y rfl hv.1 ht
  | pushBack y a => exact foot y rfl hv.1.1 ht
  | pushMove y a => exact foot y rfl hv.1.1 ht
  | reserve y n => exact foot y rfl hv.1.1 ht
  | resize y n a => exact foot y rfl hv.1.1 ht
  | assignN y n a => exact foot y rfl hv.1.1 ht
  | assignObjs y as => exact foot y rfl hv.1.1 ht
  | assignSub y z i n => exact foot y rfl hv.1.1 ht
  | copy y z => exact foot y rfl hv.1.1 ht

open Demo in
/-- The source of a copy. -/
example : Reach Elem.box Demo.s4 ∧ Valid Elem.box Demo.s4 (.copy Demo.u Demo.v) ∧
    (∃ r, Runs (exec boxOps (.copy Demo.u Demo.v)) (ready Demo.s4) r Demo.s5) ∧
    ¬ VC.Touches (Call.copy Demo.u Demo.v).addr Demo.v ∧ VC.Alive Demo.s4.o Demo.v ∧ Objs Demo.s4 Demo.v [.stk 3, .stk 4] :=
  ⟨Demo.r4, Demo.v4, Demo.runs (by decide +kernel), by show ¬ Demo.v = Demo.u; decide, Demo.alive (by decide +kernel),
    Demo.objs Demo.r4 (Demo.alive (by decide +kernel)) (by decide +kernel)⟩

variable [ElemSize Ptr] in
/-- What a `push_back` runs. -/
theorem pushes_run (hc : c.pushes v) {E : ElemOps S} (hrun : Runs (exec E c) s r s') : ∃ a, Runs (pushBack E v a) s () s' := by
  cases c with
  | pushBack y a =>
    cases (show v = y from hc)
    obtain ⟨b, s1, h1, h2⟩ := runs_bind_iff.1 hrun
    obtain rfl := of_evalArg h1
    exact ⟨b, of_unit h2⟩
  | pushMove y a =>
    cases (show v = y from hc)
    exact ⟨_, of_unit hrun⟩
  | _ => exact hc.elim

variable [ElemSize Ptr] in
theorem pushes_alive (hc : c.pushes v) {w : W Ptr} (hv : VC.Valid w c.addr) : VC.Alive w v := by
  cases c with
  | pushBack y a => cases (show v = y from hc); exact hv.1
  | pushMove y a => cases (show v = y from hc); exact hv.1
  | _ => exact hc.elim

variable [ElemSize Ptr] in
/-- An attempt to add an element to a vector with room. -/
theorem added_els {σ σ' : Sg Ptr} (h : NInv E s σ) (h' : NInv E s' σ') {x : Vec.Vec Ptr} (hx : σ v = some x)
    (ha : Added v ⟨x.alloc, x.start, x.els.length, x.cap⟩ s s') : ∃ x', σ' v = some x' ∧ x'.start = x.start ∧
      ((s'.o.err ≠ none ∧ x'.els = x.els) ∨ (s'.o.err = s.o.err ∧ ∃ q, x'.els = x.els ++ [q])) := by
  rcases ha with ⟨h1, h2⟩ | ⟨h1, h2, h3, -, b, b', q, h5, h6, h7, h8⟩
  · obtain ⟨x', k1, k2, k3, -⟩ := same_vec h h' hx (by rw [h2]) (fun _ => by rw [h2])
    exact ⟨x', k1, k3, .inl ⟨h1, k2⟩⟩
  · obtain ⟨⟨i, rfl⟩, -⟩ := h.outer.st.obj _ _ hx
    obtain ⟨x', hx'⟩ := (VC.alive_iff h'.outer).1 ⟨i, rfl, by rw [h2]; simp⟩
    have h9 := (h'.outer.st.obj _ _ hx').2
    rw [h2] at h9
    simp only [Vec.Vec.obj, Option.some.injEq, VCell.obj.injEq, Obj.mk.injEq] at h9
    obtain ⟨-, k1, k2, -⟩ := h9
    refine ⟨x', hx', k1.symm, .inr ⟨h1, ?_⟩⟩
    have k3 := same_els h h' hx hx' k1.symm (Nat.le_refl _) (by omega) (fun b1 hb => by
      rw [show s.o.heap x.start = _ from h5] at hb; cases hb; exact ⟨b', h6, h8⟩)
    rw [List.take_length] at k3
    have k4 : x.els.length < x'.els.length := by omega
    refine ⟨x'.els[x.els.length], ?_⟩
    have k5 := List.take_append_getElem k4
    rw [k3, List.take_of_length_le (by omega)] at k5
    exact k5.symm

variable [ElemSize Ptr] in
/-- C102: as long as the size is below the capacity, `push_back` (of a copy or of a moved object) keeps all elements where they are: on
success there is one more element at the end, on failure there is none. -/
theorem vectorOf_references_push (hr : Reach E s) (hv : Valid E s c) (hrun : Runs (exec E.toElemOps c) (ready s) r s') (hc : c.pushes v)
    (hs : VC.Spare s.o v) (ho : Objs s v qs) :
    (s'.o.err ≠ none → Objs s' v qs) ∧ (s'.o.err = none → ∃ q, Objs s' v (qs ++ [q])) := by
  obtain ⟨σ, σ', h, h', h0, hva⟩ := hr.both hv hrun
  obtain ⟨x, hx⟩ := (VC.alive_iff h0.outer).1 (pushes_alive hc hv.1)
  obtain rfl := (h0.objs hx).1 ho
  obtain ⟨L, cap, h1, h2, h3⟩ := hs
  obtain rfl := (VC.contents_iff h0.outer hx).1 h1
  obtain rfl := (VC.hasCap_iff h0.outer hx).1 h2
  obtain ⟨a, h4⟩ := pushes_run hc hrun
  obtain ⟨-, -, h5⟩ := runs_push_room rfl (h.outer.st.obj _ _ hx).2 h3 h4
  obtain ⟨x', h6, -, h7⟩ := added_els h h' hx h5
  rcases h7 with ⟨h7, h8⟩ | ⟨h7, q, h8⟩
  · exact ⟨fun _ => (h'.objs h6).2 h8.symm, fun e => (h7 e).elim⟩
  · exact ⟨fun e => (e h7).elim, fun _ => ⟨q, (h'.objs h6).2 h8.symm⟩⟩

open Demo in
/-- One copy succeeds, the next one fails. -/
example : Reach Elem.box s5 ∧ Valid Elem.box s5 (.pushBack Demo.v (.obj (.stk 0))) ∧
    (∃ r, Runs (exec boxOps (.pushBack Demo.v (.obj (.stk 0)))) (ready s5) r a6) ∧ VC.Spare s5.o Demo.v ∧ Objs s5 Demo.v [.stk 3, .stk 4] ∧
    a6.o.err = none ∧ Objs a6 Demo.v [.stk 3, .stk 4, .stk 7] ∧ Reach Elem.box a7 ∧ Valid Elem.box a7 (.pushBack Demo.v (.obj (.stk 0))) ∧
    (∃ r, Runs (exec boxOps (.pushBack Demo.v (.obj (.stk 0)))) (ready a7) r a8) ∧ VC.Spare a7.o Demo.v ∧ Objs a7 Demo.v [.stk 3] ∧ a8.o.err ≠ none :=
  ⟨r5, va5, runs (by decide +kernel), spare5, o5, by decide +kernel, oa6, ra7, va7, runs (by decide +kernel), spare7, oa7, by decide +kernel⟩

/-- The calls that add at the end or change the capacity of the vector. -/
def Call.extends : Call → Ptr → Prop
  | .pushBack v _, x | .pushMove v _, x | .reserve v _, x | .shrink v, x => x = v
  | _, _ => False

variable [ElemSize Ptr] in
/-- A reallocation has failed, or it has changed the block. -/
theorem moved_els {σ σ' : Sg Ptr} (h : NInv E s σ) (h' : NInv E s' σ') {n : Nat} {x : Vec.Vec Ptr} (hx : σ v = some x)
    (ha : Moved v ⟨x.alloc, x.start, x.els.length, x.cap⟩ n s s') : ∃ x', σ' v = some x' ∧
      ((s'.o.err ≠ none ∧ x'.els = x.els ∧ x'.start = x.start) ∨ (s'.o.err = none ∧ x'.start ≠ x.start)) := by
  have hst := h.outer.st
  rcases ha with ⟨h1, h2⟩ | ⟨h1, y, h2, h3, -⟩
  · obtain ⟨x', k1, k2, k3, -⟩ := same_vec h h' hx (h2 _ (by rw [(hst.obj _ _ hx).2]; simp [Vec.Vec.obj])) (by
      intro hn
      rcases (hst.ok _ _ hx).blk with ⟨k, -⟩ | ⟨-, k⟩
      · exact (hn k).elim
      · exact h2 _ (by rw [k]; simp [Vec.Vec.blk]))
    exact ⟨x', k1, .inl ⟨h1, k2, k3⟩⟩
  · obtain ⟨⟨i, rfl⟩, -⟩ := h.outer.st.obj _ _ hx
    obtain ⟨x', hx'⟩ := (VC.alive_iff h'.outer).1 ⟨i, rfl, by rw [h3]; simp⟩
    have h9 := (h'.outer.st.obj _ _ hx').2
    rw [h3] at h9
    simp only [Vec.Vec.obj, Option.some.injEq, VCell.obj.injEq, Obj.mk.injEq] at h9
    obtain ⟨-, k1, -⟩ := h9
    refine ⟨x', hx', .inr ⟨h1, fun e => ?_⟩⟩
    rcases (hst.ok _ _ hx).blk with ⟨k, -⟩ | ⟨-, k⟩
    · rw [← k1, k] at e; cases e
    · rw [← e, ← k1, h2] at k; cases k

variable [ElemSize Ptr] in
/-- C102: `data()` tells whether references are still valid: if `push_back`, `reserve` or `shrink_to_fit` leave `data()` as it was, then
the old elements are the same objects at the same positions, whether or not the call failed. -/
theorem vectorOf_references_data (hr : Reach E s) (hv : Valid E s c) (hrun : Runs (exec E.toElemOps c) (ready s) r s') (hc : c.extends v)
    {p : Ptr} (hp : VC.HasData s.o v p) (hp' : VC.HasData s'.o v p) (ho : Objs s v qs) (ho' : Objs s' v rs) : qs <+: rs := by
  obtain ⟨σ, σ', h, h', h0, hva⟩ := hr.both hv hrun
  have ha : VC.Alive s.o v := by
    cases c with
    | pushBack y a => cases (show v = y from hc); exact hv.1.1
    | pushMove y a => cases (show v = y from hc); exact hv.1.1
    | reserve y a => cases (show v = y from hc); exact hv.1.1
    | shrink y => cases (show v = y from hc); exact hv.1
    | _ => exact hc.elim
  obtain ⟨x, hx⟩ := (VC.alive_iff h0.outer).1 ha
  obtain rfl := (h0.objs hx).1 ho
  obtain rfl := (VC.hasData_iff h0.outer hx).1 hp
  have ho1 := (h.outer.st.obj _ _ hx).2
  have same : s' = ready s → x.els <+: rs := by
    rintro rfl
    rw [(h.objs hx).1 ho']
    exact List.prefix_refl _
  have moved : ∀ {n}, Moved v ⟨x.alloc, x.start, x.els.length, x.cap⟩ n (ready s) s' → x.els <+: rs := by
    intro n hm
    obtain ⟨x', h1, h2⟩ := moved_els h h' hx hm
    rcases h2 with ⟨-, h2, -⟩ | ⟨-, h2⟩
    · rw [(h'.objs h1).1 ho', h2]; exact List.prefix_refl _
    · exact (h2 ((VC.hasData_iff h'.outer h1).1 hp').symm).elim
  have push : ∀ {a}, Runs (pushBack E.toElemOps v a) (ready s) () s' → x.els <+: rs := by
    intro a h4
    by_cases hf : x.els.length < x.cap
    · obtain ⟨-, -, h5⟩ := runs_push_room rfl ho1 hf h4
      obtain ⟨x', h6, -, h7⟩ := added_els h h' hx h5
      rw [(h'.objs h6).1 ho']
      rcases h7 with ⟨-, h8⟩ | ⟨-, q, h8⟩
      · rw [h8]; exact List.prefix_refl _
      · rw [h8]; exact List.prefix_append _ _
    · obtain ⟨s1, -, -, h5, h6⟩ := runs_push_full rfl ho1 (show x.els.length = x.cap by have := (h.outer.st.ok _ _ hx).len; omega) h4
      rcases h6 with ⟨-, rfl⟩ | ⟨o', h7, h8, -, -, -, -, h9⟩
      · exact moved h5
      · exfalso
        rcases h5 with ⟨h5, -⟩ | ⟨-, y, h5, h6, -⟩
        · exact h5 h7
        rw [h6] at h8; cases h8
        have hd : ∃ o2, s'.o.heap v = some (.obj o2) ∧ o2.start = .dyn y := by
          rcases h9 with ⟨-, h9⟩ | ⟨-, h9, -⟩
          · exact ⟨_, by rw [h9]; exact h6, rfl⟩
          · exact ⟨_, h9, rfl⟩
        obtain ⟨o2, k1, k2⟩ := hd
        obtain ⟨⟨i, rfl⟩, -⟩ := h.outer.st.obj _ _ hx
        obtain ⟨x', hx'⟩ := (VC.alive_iff h'.outer).1 ⟨i, rfl, by rw [k1]; simp⟩
        have k3 := (h'.outer.st.obj _ _ hx').2
        rw [k1] at k3; cases k3
        have k4 := (VC.hasData_iff h'.outer hx').1 hp'
        rcases (h.outer.st.ok _ _ hx).blk with ⟨k, -⟩ | ⟨-, k⟩
        · rw [k] at k4; rw [← k4] at k2; cases k2
        · have k2 : x'.start = .dyn y := k2
          rw [k4, k2, h5] at k; cases k
  cases c with
  | pushBack y a =>
    obtain ⟨b, h1⟩ := pushes_run (v := v) (by exact hc) hrun
    exact push h1
  | pushMove y a =>
    obtain ⟨b, h1⟩ := pushes_run (v := v) (by exact hc) hrun
    exact push h1
  | reserve y n =>
    cases (show v = y from hc)
    rcases runs_reserve rfl ho1 (of_unit hrun) with ⟨-, h1⟩ | ⟨-, -, -, h1⟩
    · exact same h1
    · exact moved h1
  | shrink y =>
    cases (show v = y from hc)
    rcases runs_shrink rfl ho1 (of_unit hrun) with ⟨-, h1⟩ | ⟨-, -, -, h1⟩
    · exact same h1
    · exact moved h1
  | _ => exact hc.elim

open Demo in
/-- `reserve(10)` fails and leaves `data()` alone; see `Demo.run5`. -/
example : Reach Elem.box s5 ∧ Valid Elem.box s5 (.reserve Demo.v 10) ∧ Call.extends (.reserve Demo.v 10) Demo.v ∧
    (∃ p, VC.HasData s5.o Demo.v p ∧ VC.HasData s6.o Demo.v p) ∧ Objs s5 Demo.v [.stk 3, .stk 4] ∧ Objs s6 Demo.v [.stk 3, .stk 4] ∧
    Runs (exec boxOps (.reserve Demo.v 10)) (ready s5) .unit s6 := by
  refine ⟨r5, v5, rfl, ⟨.dyn 1, ?_, ?_⟩, o5, o6, ?_⟩
  · exact data (by decide +kernel) (alive (by decide +kernel)) r5
  · exact data (by decide +kernel) (alive (by decide +kernel)) r6
  · obtain ⟨r, h⟩ := run5
    obtain ⟨_, _, h1, h2⟩ := runs_bind_iff.1 h
    cases h2
    exact h

variable [ElemSize Ptr] in
/-- C102: a `reserve` or a `shrink_to_fit` that fails leaves all elements in place, and so does a `reserve` of no more than the capacity,
which cannot fail. -/
theorem vectorOf_references_reserve (hr : Reach E s) {n cap : Nat} (hv : Valid E s (.reserve v n))
    (hrun : Runs (exec E.toElemOps (.reserve v n)) (ready s) r s') (hcap : VC.HasCap s.o v cap) (ho : Objs s v qs) :
    (n ≤ cap → s' = ready s) ∧ (s'.o.err ≠ none → Objs s' v qs) := by
  obtain ⟨σ, σ', h, h', h0, hva⟩ := hr.both hv hrun
  obtain ⟨x, hx⟩ := (VC.alive_iff h0.outer).1 hv.1.1
  obtain rfl := (h0.objs hx).1 ho
  obtain rfl := (VC.hasCap_iff h0.outer hx).1 hcap
  rcases runs_reserve rfl (h.outer.st.obj _ _ hx).2 (of_unit hrun) with ⟨-, h1⟩ | ⟨h0, -, -, h1⟩
  · exact ⟨fun _ => h1, fun e => (e (by rw [h1]; rfl)).elim⟩
  · refine ⟨fun h2 => ?_, fun e => ?_⟩
    · have h0 : x.cap < n := h0
      omega
    · obtain ⟨x', h2, h3⟩ := moved_els h h' hx h1
      rcases h3 with ⟨-, h3, -⟩ | ⟨h3, -⟩
      · exact (h'.objs h2).2 h3.symm
      · exact (e h3).elim

open Demo in
example : Reach Elem.box s5 ∧ Valid Elem.box s5 (.reserve Demo.v 10) ∧ (∃ r, Runs (exec boxOps (.reserve Demo.v 10)) (ready s5) r s6) ∧
    VC.HasCap s5.o Demo.v 3 ∧ Objs s5 Demo.v [.stk 3, .stk 4] ∧ s6.o.err ≠ none ∧ Valid Elem.box s5 (.reserve Demo.v 3) :=
  ⟨r5, v5, run5, cap (by decide +kernel) (alive (by decide +kernel)) r5, o5, by decide +kernel,
    ⟨alive (by decide +kernel), by unfold VC.Countable; decide⟩, fun _ h => h.elim⟩

variable [ElemSize Ptr] in
/-- C102: see `vectorOf_references_reserve`. -/
theorem vectorOf_references_shrink (hr : Reach E s) (hv : Valid E s (.shrink v))
    (hrun : Runs (exec E.toElemOps (.shrink v)) (ready s) r s') (ho : Objs s v qs) :
    (VC.HasCap s.o v qs.length → s' = ready s) ∧ (s'.o.err ≠ none → Objs s' v qs) := by
  obtain ⟨σ, σ', h, h', h0, hva⟩ := hr.both hv hrun
  obtain ⟨x, hx⟩ := (VC.alive_iff h0.outer).1 hv.1
  obtain rfl := (h0.objs hx).1 ho
  rcases runs_shrink rfl (h.outer.st.obj _ _ hx).2 (of_unit hrun) with ⟨-, h1⟩ | ⟨h2, -, -, h1⟩
  · exact ⟨fun _ => h1, fun e => (e (by rw [h1]; rfl)).elim⟩
  · refine ⟨fun h3 => ?_, fun e => ?_⟩
    · have h2 : x.els.length < x.cap := h2
      have := (VC.hasCap_iff h0.outer hx).1 h3
      omega
    · obtain ⟨x', h2, h3⟩ := moved_els h h' hx h1
      rcases h3 with ⟨-, h3, -⟩ | ⟨h3, -⟩
      · exact (h'.objs h2).2 h3.symm
      · exact (e h3).elim

open Demo in
/-- One copy is left and two are needed. -/
example : Reach Elem.box s5 ∧ Valid Elem.box s5 (.shrink Demo.v) ∧ okB boxOps (.shrink Demo.v) s5 = true ∧ (go boxOps (.shrink Demo.v) s5).o.err ≠ none ∧
    Objs s5 Demo.v [.stk 3, .stk 4] := ⟨r5, ⟨alive (by decide +kernel), fun _ h => h.elim⟩, by decide +kernel, by decide +kernel, o5⟩

variable [ElemSize Ptr] in
/-- C102: `resize` to a smaller size keeps the first elements in place, and cannot fail. -/
theorem vectorOf_references_resize (hr : Reach E s) {n : Nat} {a : CArg} (hv : Valid E s (.resize v n a))
    (hrun : Runs (exec E.toElemOps (.resize v n a)) (ready s) r s') (ho : Objs s v qs) (hn : n ≤ qs.length) :
    s'.o.err = none ∧ Objs s' v (qs.take n) := by
  obtain ⟨σ, σ', h, h', h0, hva⟩ := hr.both hv hrun
  obtain ⟨x, hx⟩ := (VC.alive_iff h0.outer).1 hv.1.1
  obtain rfl := (h0.objs hx).1 ho
  obtain ⟨b, s1, h1, h2⟩ := runs_bind_iff.1 hrun
  obtain rfl := of_evalArg h1
  obtain ⟨⟨i, rfl⟩, ho1⟩ := h.outer.st.obj _ _ hx
  obtain ⟨s2, k1, k2, rfl⟩ := runs_resize_less ho1 hn (of_unit h2)
  refine ⟨k2, ?_⟩
  obtain ⟨x', hx'⟩ := (VC.alive_iff h'.outer).1 ⟨i, rfl, by rw [show World.heap _ _ = _ from upd_same _ _ _]; simp⟩
  have k3 := (h'.outer.st.obj _ _ hx').2
  rw [show World.heap _ _ = _ from upd_same _ _ _] at k3
  simp only [Vec.Vec.obj, Option.some.injEq, VCell.obj.injEq, Obj.mk.injEq] at k3
  obtain ⟨-, k4, k5, -⟩ := k3
  have k6 := same_els h h' hx hx' k4.symm hn (by omega) (fun b hb => by
    obtain ⟨b', k6, k7⟩ := k1.blk b hb
    refine ⟨b', ?_, k7⟩
    have : x.start ≠ .stk i := (h.outer.st.stk_ne hx hx).symm
    exact (upd_other _ _ this).trans k6)
  rw [List.take_of_length_le (by omega)] at k6
  exact (h'.objs hx').2 k6.symm

open Demo in
example : Reach Elem.box a6 ∧ Valid Elem.box a6 (.resize Demo.v 1 .fresh) ∧ (∃ r, Runs (exec boxOps (.resize Demo.v 1 .fresh)) (ready a6) r a7) ∧
    Objs a6 Demo.v [.stk 3, .stk 4, .stk 7] ∧ Objs a7 Demo.v [.stk 3] := ⟨ra6, va6, runs (by decide +kernel), oa6, oa7⟩

variable [ElemSize Ptr] in
/-- C102: `swap` exchanges the elements without touching them. -/
theorem vectorOf_references_swap (hr : Reach E s) (hv : Valid E s (.swap v t)) (hrun : Runs (exec E.toElemOps (.swap v t)) (ready s) r s')
    (ho : Objs s v qs) (ho' : Objs s t rs) : Objs s' v rs ∧ Objs s' t qs := by
  obtain ⟨σ, σ', h, h', h0, hva⟩ := hr.both hv hrun
  obtain ⟨x, hx⟩ := (VC.alive_iff h0.outer).1 hv.1.1
  obtain ⟨y, hy⟩ := (VC.alive_iff h0.outer).1 hv.1.2
  obtain rfl := (h0.objs hx).1 ho
  obtain rfl := (h0.objs hy).1 ho'
  obtain ⟨τ, h1, h2, -⟩ := outer_call h rfl hva rfl (onO_unit hrun)
  obtain ⟨-, al, L, bl, M, h3, h4, h5⟩ := h2
  rw [VC.abs_some hx] at h3; cases h3
  rw [VC.abs_some hy] at h4; cases h4
  have get : ∀ {z : Ptr} {b : Nat} {L : List Ptr}, VC.abs τ z = some (b, L) → Objs s' z L := by
    intro z b L hz
    obtain ⟨u, h6, h7⟩ := Option.map_eq_some_iff.1 hz
    cases h7
    exact (VC.contents_iff h1 h6).2 rfl
  have ht : VC.abs τ t = some (x.alloc, x.els) := by rw [h5, upd_same]
  refine ⟨?_, get ht⟩
  by_cases e : v = t
  · subst e
    rw [hx] at hy; cases hy
    exact get ht
  · exact get (b := y.alloc) (by rw [h5, upd_other _ _ e, upd_same])

variable [ElemSize Ptr] in
/-- C102: the elements of a vector that is moved from belong to the new vector. -/
theorem vectorOf_references_move (hr : Reach E s) (hv : Valid E s (.move v)) (hrun : Runs (exec E.toElemOps (.move v)) (ready s) r s')
    (ho : Objs s v qs) : ∃ d, r = .obj d ∧ ¬ VC.Alive s.o d ∧ Objs s' d qs ∧ Objs s' v [] := by
  obtain ⟨σ, σ', h, h', h0, hva⟩ := hr.both hv hrun
  obtain ⟨x, hx⟩ := (VC.alive_iff h0.outer).1 hv.1
  obtain rfl := (h0.objs hx).1 ho
  obtain ⟨τ, h1, h2, -⟩ := outer_call h rfl hva rfl (onO_obj hrun)
  obtain ⟨-, d, al, L, rfl, h3, h4, h5⟩ := h2
  rw [VC.abs_some hx] at h4; cases h4
  have get : ∀ {z : Ptr} {b : Nat} {L : List Ptr}, VC.abs τ z = some (b, L) → Objs s' z L := by
    intro z b L hz
    obtain ⟨u, h6, h7⟩ := Option.map_eq_some_iff.1 hz
    cases h7
    exact (VC.contents_iff h1 h6).2 rfl
  have hne : v ≠ d := by rintro rfl; rw [VC.abs_some hx] at h3; cases h3
  refine ⟨d, rfl, fun ha => ?_, get (b := x.alloc) (by rw [h5, upd_same]), get (b := x.alloc) (by rw [h5, upd_other _ _ hne, upd_same])⟩
  obtain ⟨u, hu⟩ := (VC.alive_iff h0.outer).1 ha
  rw [VC.abs_some hu] at h3; cases h3

variable [ElemSize Ptr] in
/-- C102: the elements of a vector that is move-assigned belong to the target. -/
theorem vectorOf_references_moveAssign (hr : Reach E s) (hv : Valid E s (.moveAssign v t))
    (hrun : Runs (exec E.toElemOps (.moveAssign v t)) (ready s) r s') (hne : v ≠ t) (ho : Objs s t qs) : Objs s' v qs ∧ Objs s' t [] := by
  obtain ⟨σ, σ', h, h', h0, hva⟩ := hr.both hv hrun
  obtain ⟨x, hx⟩ := (VC.alive_iff h0.outer).1 hv.1.1
  obtain ⟨y, hy⟩ := (VC.alive_iff h0.outer).1 hv.1.2.1
  obtain rfl := (h0.objs hy).1 ho
  obtain ⟨⟨i, rfl⟩, hox⟩ := h.outer.st.obj _ _ hx
  obtain ⟨⟨j, rfl⟩, hoy⟩ := h.outer.st.obj _ _ hy
  obtain ⟨⟨k1, k2⟩, k3⟩ := runs_moveAssign hne hox hoy h.fresh (h.outer.st.stk_ne hx hx).symm (h.outer.st.stk_ne hy hx).symm (of_unit hrun)
  obtain ⟨x', hx'⟩ := (VC.alive_iff h'.outer).1 ⟨i, rfl, by rw [k1]; simp⟩
  obtain ⟨y', hy'⟩ := (VC.alive_iff h'.outer).1 ⟨j, rfl, by rw [k2]; simp⟩
  have e1 := (h'.outer.st.obj _ _ hx').2
  rw [k1] at e1
  simp only [Vec.Vec.obj, Option.some.injEq, VCell.obj.injEq, Obj.mk.injEq] at e1
  have e2 := (h'.outer.st.obj _ _ hy').2
  rw [k2] at e2
  simp only [Vec.Vec.obj, Option.some.injEq, VCell.obj.injEq, Obj.mk.injEq] at e2
  constructor
  · have e3 := same_els h h' hy hx' e1.2.1.symm (Nat.le_refl _) (by omega) (fun b hb => ⟨b, (by
      refine (k3 _ (by rw [hb]; simp) (h.outer.st.stk_ne hx hy).symm (h.outer.st.stk_ne hy hy).symm fun e => ?_).trans hb
      refine hne.symm (h.outer.st.disj _ _ _ _ hy hx e fun e => ?_)
      rw [e, h.outer.st.null] at hb; cases hb), fun _ _ => rfl⟩)
    rw [List.take_length, e1.2.2.1, List.take_length] at e3
    exact (h'.objs hx').2 e3.symm
  · exact (h'.objs hy').2 (List.eq_nil_of_length_eq_zero e2.2.2.1.symm).symm


open Demo in
/-- `swap`, the move constructor and move assignment. -/
example : Reach Elem.box s5 ∧ Objs s5 Demo.v [.stk 3, .stk 4] ∧ Objs s5 Demo.u [.stk 5, .stk 6] ∧ Demo.v ≠ Demo.u ∧ Valid Elem.box s5 (.swap Demo.v Demo.u) ∧
    okB boxOps (.swap Demo.v Demo.u) s5 = true ∧ Valid Elem.box s5 (.move Demo.v) ∧ okB boxOps (.move Demo.v) s5 = true ∧
    Valid Elem.box s5 (.moveAssign Demo.v Demo.u) ∧ okB boxOps (.moveAssign Demo.v Demo.u) s5 = true := by
  have hv : VC.Alive s5.o Demo.v := alive (by decide +kernel)
  have hu : VC.Alive s5.o Demo.u := alive (by decide +kernel)
  refine ⟨r5, o5, o5u, by decide, ⟨⟨hv, hu⟩, fun _ h => h.elim⟩, by decide +kernel, ⟨hv, fun _ h => h.elim⟩, by decide +kernel,
    ⟨⟨hv, hu, .inr (.inr ?_)⟩, fun _ h => h.elim⟩, by decide +kernel⟩
  obtain ⟨σ, hi⟩ := r5.inv
  obtain ⟨x, hx⟩ := (VC.alive_iff hi.outer).1 hv
  obtain ⟨y, hy⟩ := (VC.alive_iff hi.outer).1 hu
  have h1 := (hi.outer.st.obj _ _ hx).2
  have h2 := (hi.outer.st.obj _ _ hy).2
  have e1 : (s5.o.heap Demo.v).map (fun | .obj o => o.alloc | _ => 1) = some 0 := by decide +kernel
  have e2 : (s5.o.heap Demo.u).map (fun | .obj o => o.alloc | _ => 1) = some 0 := by decide +kernel
  rw [h1] at e1; rw [h2] at e2
  simp only [Vec.Vec.obj, Option.map_some, Option.some.injEq] at e1 e2
  exact ⟨0, (VC.hasAlloc_iff hi.outer hx).2 e1.symm, (VC.hasAlloc_iff hi.outer hy).2 e2.symm⟩

open Demo in
/-- C102, what does not hold: a `push_back` on a full vector that fails may invalidate references.  The elements have been copied to a
larger block before the construction of the new element fails. -/
theorem vectorOf_references_push_failed : ∃ (s s' : NS Boxes) (r : VC.Res) (q q' : Ptr), Reach Elem.box s ∧
    Valid Elem.box s (.pushBack Demo.v (.obj (.stk 0))) ∧ Runs (exec boxOps (.pushBack Demo.v (.obj (.stk 0)))) (ready s) r s' ∧
    s'.o.err ≠ none ∧ Objs s Demo.v [q] ∧ Objs s' Demo.v [q'] ∧ q' ≠ q ∧ Elem.box.val s'.i q = none := by
  obtain ⟨r, h⟩ := runs (E := boxOps) (s := b3) (c := .pushBack Demo.v (.obj (.stk 0))) (by decide +kernel)
  exact ⟨b3, b4, r, .stk 2, .stk 3, rb3, vb3, h, by decide +kernel, objs rb3 (alive (by decide +kernel)) (by decide +kernel),
    objs rb4 (alive (by decide +kernel)) (by decide +kernel), by decide, by decide +kernel⟩

/-! ### C103: requests and errors -/

/-- Specification: the call needs memory for `n` elements. -/
def Asks (s : NS S) : Call → Nat → Prop
  | .pushBack v _, n | .pushMove v _, n => ∃ qs, Objs s v qs ∧ VC.HasCap s.o v qs.length ∧ n = 3 * (qs.length + 1) / 2
  | .reserve v m, n => ∃ cap, VC.HasCap s.o v cap ∧ cap < m ∧ n = m
  | .shrink v, n => ∃ qs cap, Objs s v qs ∧ VC.HasCap s.o v cap ∧ qs.length < cap ∧ n = qs.length
  | .resize v m _, n => ∃ qs cap, Objs s v qs ∧ VC.HasCap s.o v cap ∧ qs.length < m ∧ n = max (3 * (cap + 1) / 2) m
  | .assignN _ m _, n | .assignSub _ _ _ m, n => n = max 1 m
  | .assignObjs _ ts, n => n = max 1 ts.length
  | .copy _ v, n => ∃ qs, Objs s v qs ∧ n = max 1 qs.length
  | _, _ => False

section sized
variable [ElemSize Ptr]

theorem asks_iff {σ : Sg Ptr} (h : NInv E s σ) (hv : VC.Valid s.o c.addr) {n : Nat} : Asks s c n ↔ askOf σ c = some n := by
  have push : ∀ {v : Ptr}, VC.Alive s.o v → ((∃ qs, Objs s v qs ∧ VC.HasCap s.o v qs.length ∧ n = 3 * (qs.length + 1) / 2) ↔
      ((σ v).bind fun x => if x.els.length = x.cap then some (Vec.growTo x.cap (x.cap + 1)) else none) = some n) := by
    intro v ha
    obtain ⟨x, hx⟩ := (VC.alive_iff h.outer).1 ha
    rw [hx, Option.bind_some]
    constructor
    · rintro ⟨qs, h1, h2, rfl⟩
      obtain rfl := (h.objs hx).1 h1
      have h3 := (VC.hasCap_iff h.outer hx).1 h2
      rw [if_pos h3, ← h3]
      simp only [Vec.growTo, Option.some.injEq]; omega
    · intro h1
      split at h1 <;> cases h1
      rename_i h2
      refine ⟨_, (h.objs hx).2 rfl, (VC.hasCap_iff h.outer hx).2 h2, ?_⟩
      simp only [Vec.growTo]; omega
  cases c with
  | pushBack v a => exact push hv.1
  | pushMove v a => exact push hv.1
  | reserve v m =>
    obtain ⟨x, hx⟩ := (VC.alive_iff h.outer).1 hv.1
    show _ ↔ (σ v).bind _ = _
    rw [hx, Option.bind_some]
    constructor
    · rintro ⟨cap, h1, h2, rfl⟩
      obtain rfl := (VC.hasCap_iff h.outer hx).1 h1
      rw [if_pos h2]
    · intro h1
      split at h1 <;> cases h1
      exact ⟨_, (VC.hasCap_iff h.outer hx).2 rfl, ‹_›, rfl⟩
  | shrink v =>
    obtain ⟨x, hx⟩ := (VC.alive_iff h.outer).1 hv
    show _ ↔ (σ v).bind _ = _
    rw [hx, Option.bind_some]
    constructor
    · rintro ⟨qs, cap, h0, h1, h2, rfl⟩
      obtain rfl := (h.objs hx).1 h0
      obtain rfl := (VC.hasCap_iff h.outer hx).1 h1
      rw [if_pos h2]
    · intro h1
      split at h1 <;> cases h1
      exact ⟨_, _, (h.objs hx).2 rfl, (VC.hasCap_iff h.outer hx).2 rfl, ‹_›, rfl⟩
  | resize v m a =>
    obtain ⟨x, hx⟩ := (VC.alive_iff h.outer).1 hv.1
    show _ ↔ (σ v).bind _ = _
    rw [hx, Option.bind_some]
    constructor
    · rintro ⟨qs, cap, h0, h1, h2, rfl⟩
      obtain rfl := (h.objs hx).1 h0
      obtain rfl := (VC.hasCap_iff h.outer hx).1 h1
      rw [if_pos h2, Vec.growTo, Nat.mul_comm]
    · intro h1
      split at h1 <;> cases h1
      exact ⟨_, _, (h.objs hx).2 rfl, (VC.hasCap_iff h.outer hx).2 rfl, ‹_›, by rw [Vec.growTo, Nat.mul_comm]⟩
  | assignN v m a => exact ⟨fun h1 => congrArg some (Eq.symm h1), fun h1 => (Option.some.inj h1).symm⟩
  | assignSub v t i m => exact ⟨fun h1 => congrArg some (Eq.symm h1), fun h1 => (Option.some.inj h1).symm⟩
  | assignObjs v ts => exact ⟨fun h1 => congrArg some (Eq.symm h1), fun h1 => (Option.some.inj h1).symm⟩
  | copy d v =>
    obtain ⟨x, hx⟩ := (VC.alive_iff h.outer).1 hv.2
    show _ ↔ (σ v).map _ = _
    rw [hx, Option.map_some]
    constructor
    · rintro ⟨qs, h0, rfl⟩
      rw [(h.objs hx).1 h0]
    · intro h1; cases h1
      exact ⟨_, (h.objs hx).2 rfl, rfl⟩
  | _ => exact ⟨fun h => h.elim, fun h => by cases h⟩

/-- The report of a call, in terms of the state before it. -/
theorem fair_call (hr : Reach E s) (hv : Valid E s c) (hrun : Runs (exec E.toElemOps c) (ready s) r s') :
    ∃ ask, Fair E.toElemOps ask (ready s) s' ∧ (∀ n, ask = some n ↔ Asks s c n) ∧ ∀ n, ask = some n → Vec.NoWrap Ptr n := by
  obtain ⟨σ, σ', h, h', h0, hva⟩ := hr.both hv hrun
  exact ⟨_, (h.sum rfl hva hrun).1, fun n => (asks_iff h0 hv.1).symm, fun n hn => askOf_noWrap h hva hn⟩

/-- The run of an insertion. -/
theorem ins_run {E : ElemOps S} {i : Nat} {x : Ins} (h : Runs (insExec E v i x) s r s') :
    ∃ a n, r = .pos n ∧ Runs (insertValue E v i a) s n s' := by
  cases x with
  | copy a =>
    obtain ⟨b, s1, h1, h2⟩ := runs_bind_iff.1 h
    obtain rfl := of_evalArg h1
    obtain ⟨n, s2, h3, h4⟩ := runs_bind_iff.1 h2
    cases h4
    exact ⟨b, n, rfl, h3⟩
  | move t =>
    obtain ⟨n, s2, h3, h4⟩ := runs_bind_iff.1 h
    cases h4
    exact ⟨_, n, rfl, h3⟩

/-- Specification: an insertion into `v` needs memory for `n` elements: the vector is full. -/
def InsAsks (s : NS S) (v : Ptr) (n : Nat) : Prop := ∃ qs, Objs s v qs ∧ VC.HasCap s.o v qs.length ∧ n = 3 * (qs.length + 1) / 2

/-- The report of an insertion, in terms of the state before it. -/
theorem fair_insertion (hr : Reach E s) {i : Nat} {x : Ins} (hv : InsValid E s v i x) (hrun : Runs (insExec E.toElemOps v i x) (ready s) r s') :
    ∃ ask, Fair E.toElemOps ask (ready s) s' ∧ (∀ n, ask = some n ↔ InsAsks s v n) ∧ ∀ n, ask = some n → Vec.NoWrap Ptr n := by
  obtain ⟨σ, h⟩ := hr.inv
  have hva : VC.Valid s.o (Call.pushBack v x.arg).addr := ⟨hv.alive, hv.arg, hv.apart.imp id (·.1)⟩
  obtain ⟨y, hy⟩ := (VC.alive_iff h.outer).1 hv.alive
  obtain ⟨a, n, -, h1⟩ := ins_run hrun
  have hk := h.outer.st.ok _ _ hy
  have h2 := fair_insert rfl (h.ready.outer.st.obj _ _ hy).2 hk.len h1
  have h3 : askOf σ (.pushBack v x.arg) = if y.els.length = y.cap then some (Vec.growTo y.cap (y.cap + 1)) else none := by
    simp only [askOf, hy, Option.bind_some]
  refine ⟨askOf σ (.pushBack v x.arg), ?_, fun n => (asks_iff h hva).symm, fun n hn => askOf_noWrap h hva hn⟩
  have h4 : Vec.wrap (y.cap + 1) = y.cap + 1 := Nat.mod_eq_of_lt (by have := hk.fits.le; omega)
  rw [h3]
  simp only [growTo_eq hk.fits, h4] at h2
  exact h2

end sized

variable [ElemSize Ptr] in
/-- C103: a call makes one request for memory if it needs memory, and none otherwise. -/
theorem vectorOf_requests (hr : Reach E s) (hv : Valid E s c) (hrun : Runs (exec E.toElemOps c) (ready s) r s') :
    (∀ n, Asks s c n → s'.o.nAlloc = s.o.nAlloc + 1) ∧ ((∀ n, ¬ Asks s c n) → s'.o.nAlloc = s.o.nAlloc) := by
  obtain ⟨ask, h1, h2, -⟩ := fair_call hr hv hrun
  constructor
  · intro n hn
    have := h1.allocs
    rw [(h2 n).2 hn] at this
    exact this
  · intro hn
    have := h1.allocs
    cases ask with
    | none => exact this
    | some n => exact (hn n ((h2 n).1 rfl)).elim

variable [ElemSize Ptr] in
/-- C103: an error has a cause: either the call needed memory, the request was too large or the allocator did not serve it, and the error
says so, or an element could not be copied, and the error is the one reported by the element. -/
theorem vectorOf_error_cause (hr : Reach E s) (hv : Valid E s c) (hrun : Runs (exec E.toElemOps c) (ready s) r s') {e : Err}
    (he : s'.o.err = some e) :
    (e = .badAlloc ∧ ∃ n, Asks s c n ∧ (maxBytes < n * ElemSize.size Ptr ∨ Denied s.o s.o.nAlloc)) ∨
      ∃ q i i', Runs (E.copy q) i (.error e) i' := by
  obtain ⟨ask, h1, h2, h3⟩ := fair_call hr hv hrun
  rcases h1.bad e he with ⟨rfl, n, h4, h5⟩ | h4
  · refine .inl ⟨rfl, n, (h2 n).1 h4, ?_⟩
    rcases h5 with h5 | h5
    · rw [Vec.wrap, Nat.mod_eq_of_lt (h3 n h4)] at h5
      exact .inl h5
    · exact .inr fun a ha => .inl (h5 a ha)
  · exact .inr h4

variable [ElemSize Ptr] in
/-- Everything in dynamic memory was handed out by the allocator. -/
theorem Reach.handed (hr : Reach E s) : Handed s.o := by
  induction hr with
  | start _ => intro a h; exact (h rfl).elim
  | call hr hv hrun ih =>
    obtain ⟨ask, h1, -⟩ := fair_call hr hv hrun
    intro a ha
    rw [h1.env]
    rcases h1.dyn a ha with h2 | ⟨h2, h3⟩
    · obtain ⟨k, h4, h5⟩ := ih a h2
      refine ⟨k, ?_, h5⟩
      have := h1.allocs
      have : _ ≤ _ := Nat.le.intro this.symm
      exact Nat.lt_of_lt_of_le h4 this
    · refine ⟨_, ?_, h3⟩
      have := h1.allocs
      rw [if_pos h2] at this
      rw [this]
      exact Nat.lt_succ_self _
  | insert hr hv hrun _ ih =>
    obtain ⟨ask, h1, -⟩ := fair_insertion hr hv hrun
    intro a ha
    rw [h1.env]
    rcases h1.dyn a ha with h2 | ⟨h2, h3⟩
    · obtain ⟨k, h4, h5⟩ := ih a h2
      refine ⟨k, ?_, h5⟩
      have := h1.allocs
      have : _ ≤ _ := Nat.le.intro this.symm
      exact Nat.lt_of_lt_of_le h4 this
    · refine ⟨_, ?_, h3⟩
      have := h1.allocs
      rw [if_pos h2] at this
      rw [this]
      exact Nat.lt_succ_self _
  | client _ _ _ ih => exact ih

variable [ElemSize Ptr] in
/-- C103: if the copies of elements do not fail and the allocator does not hand out memory twice, then a call fails exactly if it needs
memory and the request is too large or refused. -/
theorem vectorOf_error_iff (hr : Reach E s) (hv : Valid E s c) (hrun : Runs (exec E.toElemOps c) (ready s) r s') (hd : Distinct s.o.env)
    (hw : ∀ q i e i', ¬ Runs (E.copy q) i (.error e) i') :
    s'.o.err = none ↔ ∀ n, Asks s c n → n * ElemSize.size Ptr ≤ maxBytes ∧ s.o.env.addr s.o.nAlloc ≠ none := by
  obtain ⟨ask, h1, h2, h3⟩ := fair_call hr hv hrun
  constructor
  · intro he n hn
    have h4 := h1.good he n ((h2 n).2 hn)
    rw [Vec.wrap, Nat.mod_eq_of_lt (h3 n ((h2 n).2 hn))] at h4
    exact h4
  · intro hs
    cases he : s'.o.err with
    | none => rfl
    | some e =>
      rcases vectorOf_error_cause hr hv hrun he with ⟨-, n, h4, h5⟩ | ⟨q, i, i', h4⟩
      · obtain ⟨h6, h7⟩ := hs n h4
        rcases h5 with h5 | h5
        · omega
        · exact (h7 (Denied.none hd hr.handed (Nat.le_refl _) h5)).elim
      · exact (hw _ _ _ _ h4).elim

open Demo in
/-- A vector that is full, one that is not, no memory, and copies that do not fail. -/
example : Reach Elem.box s3 ∧ Valid Elem.box s3 (.pushMove Demo.v (.stk 1)) ∧ Asks s3 (.pushMove Demo.v (.stk 1)) 3 ∧
    s4.o.nAlloc = s3.o.nAlloc + 1 ∧ Reach Elem.box s5 ∧ Valid Elem.box s5 (.pushBack Demo.v (.obj (.stk 0))) ∧
    (∀ n, ¬ Asks s5 (.pushBack Demo.v (.obj (.stk 0))) n) ∧ Reach Elem.box z1 ∧ Valid Elem.box z1 (.pushBack Demo.v (.obj (.stk 0))) ∧
    (∃ r, Runs (exec boxOps (.pushBack Demo.v (.obj (.stk 0)))) (ready z1) r z2) ∧ z2.o.err = some .badAlloc ∧
    Reach Elem.shared h3 ∧ Valid Elem.shared h3 (.pushBack Demo.v (.obj (.stk 0))) ∧ Distinct h3.o.env ∧
    (∃ r, Runs (exec sharedOps (.pushBack Demo.v (.obj (.stk 0)))) (ready h3) r h4) ∧
    ∀ q i e i', ¬ Runs (sharedOps.copy q : M (SP.W Nat) _) i (.error e) i' := by
  refine ⟨r3, v3, ⟨[.stk 2], objs r3 (alive (by decide +kernel)) (by decide +kernel), cap (by decide +kernel) (alive (by decide +kernel)) r3,
    by decide⟩, by decide +kernel, r5, va5, fun n hn => ?_, rz1, vz1, runs (by decide +kernel), by decide +kernel, hr3, hv3,
    fun i j a k1 k2 => ?_, hrun3, fun _ _ _ _ => shared_copy⟩
  · obtain ⟨qs, k1, k2, -⟩ := hn
    obtain rfl := (Runs.det k1 o5).1
    cases (Runs.det k2 (cap (n := 3) (by decide +kernel) (alive (by decide +kernel)) r5)).1
  · cases (show some i = some a from k1)
    cases (show some j = some i from k2)
    rfl

end Nestl.VO
