import Verif.VectorOf.Foot
set_option autoImplicit false
/-
The footprint and the requests of every call on vectors of objects.
-/
namespace Nestl.VO
open Nestl.Vec (W VCell Obj Blk Sg rdObj setObj rdBlk slotRd slotPut deallocate allocate newVec swapData ElemSize maxBytes wrap slotsOf)

variable {S A X α β : Type} {s s' s1 s2 : NS S} {p v : Ptr} {i n k : Nat} {o : Obj} {a : Arg} {c : Call} {σ σ' : Sg Ptr}

section calm
variable {E : ElemOps S}

theorem calm_rdObj {w' : NS S} {r : Obj} (h : Runs (onO (rdObj v)) s r w') : w' = s := by
  obtain ⟨w1, h1, rfl⟩ := of_onO h
  obtain ⟨-, -, rfl⟩ := runs_rdObj.1 h1
  rfl

theorem calm_setObj {w w' : W Ptr} {r : Unit} (h : Runs (setObj v o) w r w') (i : S) : Calm E ⟨w, i⟩ ⟨w', i⟩ ∧ w'.err = w.err := by
  obtain ⟨h2, rfl⟩ := runs_setObj h
  exact ⟨.upd h2 rfl, rfl⟩

theorem calm_swapData {w w' : W Ptr} {t : Ptr} {r : Unit} (h : Runs (swapData v t) w r w') (i : S) :
    Calm E ⟨w, i⟩ ⟨w', i⟩ ∧ w'.err = w.err := by
  unfold Vec.swapData at h
  obtain ⟨_, w1, h1, g0⟩ := runs_bind_iff.1 h
  obtain ⟨-, -, rfl⟩ := runs_rdObj.1 h1
  obtain ⟨_, w1, h1, g1⟩ := runs_bind_iff.1 g0
  obtain ⟨-, -, rfl⟩ := runs_rdObj.1 h1
  obtain ⟨_, w2, h2, g2⟩ := runs_bind_iff.1 g1
  obtain ⟨k1, k2⟩ := calm_setObj (E := E) h2 i
  obtain ⟨_, w3, h1, g3⟩ := runs_bind_iff.1 g2
  obtain ⟨-, -, rfl⟩ := runs_rdObj.1 h1
  obtain ⟨k3, k4⟩ := calm_setObj (E := E) g3 i
  exact ⟨k1.trans k3, k4.trans k2⟩

theorem calm_swap {w w' : W Ptr} {t : Ptr} {r : Unit} (h : Runs (Vec.swap v t) w r w') (i : S) :
    Calm E ⟨w, i⟩ ⟨w', i⟩ ∧ w'.err = w.err := by
  unfold Vec.swap at h
  obtain ⟨_, w1, h1, g0⟩ := runs_bind_iff.1 h
  obtain ⟨-, -, rfl⟩ := runs_rdObj.1 h1
  obtain ⟨_, w1, h1, g1⟩ := runs_bind_iff.1 g0
  obtain ⟨-, -, rfl⟩ := runs_rdObj.1 h1
  obtain ⟨_, w2, h2, g2⟩ := runs_bind_iff.1 g1
  obtain ⟨k1, k2⟩ := calm_setObj (E := E) h2 i
  obtain ⟨_, w3, h1, g3⟩ := runs_bind_iff.1 g2
  obtain ⟨-, -, rfl⟩ := runs_rdObj.1 h1
  obtain ⟨_, w4, h4, g4⟩ := runs_bind_iff.1 g3
  obtain ⟨k3, k4⟩ := calm_setObj (E := E) h4 i
  obtain ⟨k5, k6⟩ := calm_swapData (E := E) g4 i
  exact ⟨(k1.trans k3).trans k5, k6.trans (k4.trans k2)⟩

theorem calm_newVec {w w' : W Ptr} {al : Nat} {r : Ptr} (h : Runs (newVec al) w r w') (i : S) :
    Calm E ⟨w, i⟩ ⟨w', i⟩ ∧ w'.err = w.err := by
  obtain ⟨rfl, rfl⟩ := runs_newVec h
  refine ⟨.of_heap rfl rfl rfl fun x hx => ?_, rfl⟩
  simpa [upd_apply] using hx

theorem calm_moveCtor {w w' : W Ptr} {t r : Ptr} (h : Runs (Vec.moveCtor t) w r w') (i : S) :
    Calm E ⟨w, i⟩ ⟨w', i⟩ ∧ w'.err = w.err := by
  unfold Vec.moveCtor at h
  obtain ⟨_, w1, h1, g0⟩ := runs_bind_iff.1 h
  obtain ⟨-, -, rfl⟩ := runs_rdObj.1 h1
  obtain ⟨_, w2, h2, g1⟩ := runs_bind_iff.1 g0
  obtain ⟨k1, k2⟩ := calm_newVec (E := E) h2 i
  obtain ⟨_, w3, h3, g2⟩ := runs_bind_iff.1 g1
  cases g2
  obtain ⟨k3, k4⟩ := calm_swapData (E := E) h3 i
  exact ⟨k1.trans k3, k4.trans k2⟩

/-- Evaluating an argument changes nothing. -/
theorem of_evalArg {b : CArg} {r : Arg} (h : Runs (evalArg b) s r s') : s = s' := by
  cases b with
  | obj t => cases h; rfl
  | fresh => cases h; rfl
  | elem t i =>
    obtain ⟨_, s1, h1, g0⟩ := runs_bind_iff.1 h
    obtain rfl := calm_rdObj h1
    obtain ⟨_, s2, h2, g1⟩ := runs_bind_iff.1 g0
    obtain ⟨-, rfl⟩ := of_assert h2
    cases g1; rfl

theorem of_unit {m : M (NS S) Unit} {r : VC.Res} (h : Runs (do m; pure VC.Res.unit) s r s') : Runs m s () s' := by
  obtain ⟨_, s1, h1, g0⟩ := runs_bind_iff.1 h
  cases g0; exact h1

end calm

/-- `move_assign`: the target has the block of the source, the source is empty; otherwise only the block of the target is gone. -/
theorem runs_moveAssign {E : ElemOps S} {t : Ptr} {u : Obj} {r : Unit} (hne : v ≠ t) (hv : s.o.heap v = some (.obj o)) (ht : s.o.heap t = some (.obj u))
    (hf : s.o.heap (.stk s.o.sp) = none) (hs1 : o.start ≠ v) (hs2 : o.start ≠ t)
    (h : Runs (moveAssign E v t) s r s') : (s'.o.heap v = some (.obj { o with start := u.start, fin := u.fin, cap := u.cap }) ∧
      s'.o.heap t = some (.obj { u with start := .null, fin := 0, cap := 0 })) ∧
      (∀ x, s.o.heap x ≠ none → x ≠ v → x ≠ t → x ≠ o.start → s'.o.heap x = s.o.heap x) := by
  unfold moveAssign at h
  obtain ⟨d, s1, h1, g0⟩ := runs_bind_iff.1 h
  obtain ⟨w1, h2, rfl⟩ := of_onO h1
  unfold Vec.moveCtor at h2
  obtain ⟨o1, w2, h3, h2⟩ := runs_bind_iff.1 h2
  obtain ⟨-, h4, rfl⟩ := runs_rdObj.1 h3
  rw [hv] at h4; cases h4
  obtain ⟨d1, w3, h5, h2⟩ := runs_bind_iff.1 h2
  obtain ⟨rfl, rfl⟩ := runs_newVec h5
  obtain ⟨_, w4, h6, h2⟩ := runs_bind_iff.1 h2
  cases h2
  have hdv : Ptr.stk s.o.sp ≠ v := by rintro rfl; rw [hf] at hv; cases hv
  have hdt : Ptr.stk s.o.sp ≠ t := by rintro rfl; rw [hf] at ht; cases ht
  obtain rfl := runs_swapData hdv (o := ⟨o.alloc, .null, 0, 0⟩) (u := o) (upd_same _ _ _) ((upd_other _ _ hdv.symm).trans hv) h6
  obtain ⟨_, s2, h7, g1⟩ := runs_bind_iff.1 g0
  obtain ⟨w5, h8, rfl⟩ := of_onO h7
  obtain rfl := runs_swapData hne (o := ⟨o.alloc, .null, 0, 0⟩) (u := u) (upd_same _ _ _)
    (by show upd (upd (upd _ _ _) _ _) _ _ t = _; rw [upd_other _ _ hne.symm, upd_other _ _ hdt.symm, upd_other _ _ hdt.symm]; exact ht) h8
  have hd : upd (upd (upd (upd (upd s.o.heap (.stk s.o.sp) (some (.obj ⟨o.alloc, .null, 0, 0⟩))) (.stk s.o.sp) (some (.obj o))) v
      (some (.obj ⟨o.alloc, .null, 0, 0⟩))) v (some (.obj ⟨o.alloc, u.start, u.fin, u.cap⟩))) t (some (.obj ⟨u.alloc, .null, 0, 0⟩)) (.stk s.o.sp) =
        some (VCell.obj o) := by
    rw [upd_other _ _ hdt, upd_other _ _ hdv, upd_other _ _ hdv, upd_same]
  obtain ⟨-, -, -, h9⟩ := runs_destroyVec (o := o) hd g1
  refine ⟨⟨?_, ?_⟩, fun x hx h1 h2 h3 => ?_⟩
  · rw [h9 v hdv.symm hs1.symm]
    show upd (upd _ _ _) _ _ v = _
    rw [upd_other _ _ hne, upd_same]
  · rw [h9 t hdt.symm hs2.symm]
    exact upd_same _ _ _
  · have hxd : x ≠ .stk s.o.sp := fun e => hx (e ▸ hf)
    rw [h9 x hxd h3]
    show upd (upd (upd (upd (upd _ _ _) _ _) _ _) _ _) _ _ x = _
    rw [upd_other _ _ h2, upd_other _ _ h1, upd_other _ _ h1, upd_other _ _ hxd, upd_other _ _ hxd]

theorem frame_swapData {w w' : W Ptr} {t x : Ptr} {r : Unit} (h : Runs (swapData v t) w r w') (h1 : x ≠ v) (h2 : x ≠ t) :
    w'.heap x = w.heap x := by
  unfold Vec.swapData at h
  obtain ⟨_, w1, h3, g0⟩ := runs_bind_iff.1 h
  obtain ⟨-, -, rfl⟩ := runs_rdObj.1 h3
  obtain ⟨_, w1, h3, g1⟩ := runs_bind_iff.1 g0
  obtain ⟨-, -, rfl⟩ := runs_rdObj.1 h3
  obtain ⟨_, w2, h4, g2⟩ := runs_bind_iff.1 g1
  obtain ⟨-, rfl⟩ := runs_setObj h4
  obtain ⟨_, w3, h3, g3⟩ := runs_bind_iff.1 g2
  obtain ⟨-, -, rfl⟩ := runs_rdObj.1 h3
  obtain ⟨-, rfl⟩ := runs_setObj g3
  exact (upd_other _ _ h2).trans (upd_other _ _ h1)

/-- `move_assign` changes the two vectors and the block of the target only. -/
theorem frame_moveAssign {E : ElemOps S} {t : Ptr} {r : Unit} (hv : s.o.heap v = some (.obj o)) (ht : s.o.heap t ≠ none)
    (hf : s.o.heap (.stk s.o.sp) = none) (h : Runs (moveAssign E v t) s r s') :
    ∀ x, s.o.heap x ≠ none → x ≠ v → x ≠ t → x ≠ o.start → s'.o.heap x = s.o.heap x := by
  unfold moveAssign at h
  obtain ⟨d, s1, h1, g0⟩ := runs_bind_iff.1 h
  obtain ⟨w1, h2, rfl⟩ := of_onO h1
  unfold Vec.moveCtor at h2
  obtain ⟨o1, w2, h3, g1⟩ := runs_bind_iff.1 h2
  obtain ⟨-, h4, rfl⟩ := runs_rdObj.1 h3
  rw [hv] at h4; cases h4
  obtain ⟨d1, w3, h5, g2⟩ := runs_bind_iff.1 g1
  obtain ⟨rfl, rfl⟩ := runs_newVec h5
  obtain ⟨_, w4, h6, g3⟩ := runs_bind_iff.1 g2
  cases g3
  have hdv : Ptr.stk s.o.sp ≠ v := by rintro rfl; rw [hf] at hv; cases hv
  have hdt : Ptr.stk s.o.sp ≠ t := by rintro rfl; exact ht hf
  obtain rfl := runs_swapData hdv (o := ⟨o.alloc, .null, 0, 0⟩) (u := o) (upd_same _ _ _) ((upd_other _ _ hdv.symm).trans hv) h6
  obtain ⟨_, s2, h7, g4⟩ := runs_bind_iff.1 g0
  obtain ⟨w5, h8, rfl⟩ := of_onO h7
  have hd : w5.heap (.stk s.o.sp) = some (VCell.obj o) := by
    rw [frame_swapData h8 hdv hdt]
    show upd (upd (upd _ _ _) _ _) _ _ _ = _
    rw [upd_other _ _ hdv, upd_same]
  obtain ⟨-, -, -, h9⟩ := runs_destroyVec (o := o) hd g4
  intro x hx k1 k2 k3
  have hxd : x ≠ .stk s.o.sp := fun e => hx (e ▸ hf)
  rw [h9 x hxd k3, show World.heap w5 x = _ from frame_swapData h8 k1 k2]
  show upd (upd (upd _ _ _) _ _) _ _ x = _
  rw [upd_other _ _ k1, upd_other _ _ hxd, upd_other _ _ hxd]

theorem calm_moveAssign {E : ElemOps S} {t : Ptr} {r : Unit} (h : Runs (moveAssign E v t) s r s') : Calm E s s' ∧ s'.o.err = s.o.err := by
  unfold moveAssign at h
  obtain ⟨d, s1, h1, g0⟩ := runs_bind_iff.1 h
  obtain ⟨w1, h2, rfl⟩ := of_onO h1
  obtain ⟨k1, k2⟩ := calm_moveCtor (E := E) h2 s.i
  obtain ⟨_, s2, h7, g1⟩ := runs_bind_iff.1 g0
  obtain ⟨w5, h8, rfl⟩ := of_onO h7
  obtain ⟨k3, k4⟩ := calm_swapData (E := E) h8 s.i
  obtain ⟨o, s3, h9, -⟩ := runs_bind_iff.1 g1
  obtain ⟨w6, h10, rfl⟩ := of_onO h9
  obtain ⟨-, h11, -⟩ := runs_rdObj.1 h10
  obtain ⟨k5, k6, -⟩ := runs_destroyVec h11 g1
  exact ⟨(k1.trans k3).trans k5, k6.trans (k4.trans k2)⟩

/-! ### The requests of calls -/

/-- The number of elements a call asks the allocator for. -/
def askOf (σ : Sg Ptr) : Call → Option Nat
  | .pushBack v _ | .pushMove v _ => (σ v).bind fun x => if x.els.length = x.cap then some (Vec.growTo x.cap (x.cap + 1)) else none
  | .reserve v n => (σ v).bind fun x => if x.cap < n then some n else none
  | .shrink v => (σ v).bind fun x => if x.els.length < x.cap then some x.els.length else none
  | .resize v n _ => (σ v).bind fun x => if x.els.length < n then some (Vec.growTo x.cap n) else none
  | .assignN _ n _ => some (max 1 n)
  | .assignObjs _ ts => some (max 1 ts.length)
  | .assignSub _ _ _ n => some (max 1 n)
  | .copy _ v => (σ v).map fun x => max 1 x.els.length
  | _ => none

/-- The vector a call works on. -/
def Call.on : Call → Option Ptr
  | .pushBack v _ | .pushMove v _ | .clear v | .reserve v _ | .shrink v | .resize v _ _ | .assignN v _ _ => some v
  | .assignObjs v _ | .assignSub v _ _ _ | .copy v _ => some v
  | _ => none

section sized
variable [ElemSize Ptr]

theorem growTo_eq {cap n : Nat} (hf : Vec.Fits Ptr cap) : growTo cap n = Vec.growTo cap n := by
  have hc := hf.le
  have h1 : wrap (cap + 1) = cap + 1 := Nat.mod_eq_of_lt (by omega)
  have h2 : wrap ((cap + 1) * 3) = (cap + 1) * 3 := Nat.mod_eq_of_lt (by omega)
  unfold growTo Vec.growTo
  rw [h1, h2]
  split <;> omega

variable {E : Elem S A X}

/-- The requests are for numbers of elements whose size in bytes is representable. -/
theorem askOf_noWrap (h : NInv E s σ) (hv : VC.Valid s.o c.addr) (hn : askOf σ c = some n) : Vec.NoWrap Ptr n := by
  have one : ∀ {m}, Vec.NoWrap Ptr m → Vec.NoWrap Ptr (max 1 m) := by
    intro m hm
    by_cases h1 : 1 ≤ m
    · rw [Nat.max_eq_right h1]; exact hm
    · rw [Nat.max_eq_left (by omega)]
      have := ElemSize.small (V := Ptr)
      unfold Vec.NoWrap; omega
  have push : ∀ {v : Ptr} {n}, ((σ v).bind fun x => if x.els.length = x.cap then some (Vec.growTo x.cap (x.cap + 1)) else none) = some n →
      Vec.NoWrap Ptr n := by
    intro v n h1
    obtain ⟨x, h2, h3⟩ := Option.bind_eq_some_iff.1 h1
    split at h3 <;> cases h3
    have hf := (h.outer.st.ok _ _ h2).fits
    refine Vec.growTo_noWrap hf ?_
    have := ElemSize.small (V := Ptr)
    unfold Vec.Fits maxBytes at hf; unfold Vec.NoWrap
    rw [Nat.add_mul]; omega
  cases c with
  | pushBack v a => exact push hn
  | pushMove v a => exact push hn
  | reserve v m =>
    obtain ⟨x, h2, h3⟩ := Option.bind_eq_some_iff.1 hn
    split at h3 <;> cases h3
    exact hv.2
  | shrink v =>
    obtain ⟨x, h2, h3⟩ := Option.bind_eq_some_iff.1 hn
    split at h3 <;> cases h3
    have hk := h.outer.st.ok _ _ h2
    exact hk.fits.noWrap.mono hk.len
  | resize v m a =>
    obtain ⟨x, h2, h3⟩ := Option.bind_eq_some_iff.1 hn
    split at h3 <;> cases h3
    exact Vec.growTo_noWrap (h.outer.st.ok _ _ h2).fits hv.2.2.1
  | assignN v m a => cases hn; exact one hv.2.2
  | assignObjs v ts => cases hn; exact one hv.2
  | assignSub v t i m =>
    cases hn
    obtain ⟨-, h1, L, h2, h3⟩ := hv
    obtain ⟨x, hx⟩ := (VC.alive_iff h.outer).1 h1
    obtain rfl := (VC.contents_iff h.outer hx).1 h2
    have hk := h.outer.st.ok _ _ hx
    exact one (hk.fits.noWrap.mono (by have := hk.len; omega))
  | copy d v =>
    obtain ⟨x, h2, rfl⟩ := Option.map_eq_some_iff.1 hn
    have hk := h.outer.st.ok _ _ h2
    exact one (hk.fits.noWrap.mono hk.len)
  | _ => cases hn

theorem NInv.fresh (h : NInv E s σ) : s.o.heap (.stk s.o.sp) = none := by
  apply Classical.byContradiction; intro hc
  rcases h.outer.st.cover _ hc with h1 | ⟨t, x, h1, h2, -⟩
  · exact h1 (h.outer.top _ (Nat.le_refl _))
  · rcases (h.outer.st.ok _ _ h1).blk with ⟨h3, -⟩ | ⟨⟨y, h3⟩, -⟩ <;> rw [h3] at h2 <;> cases h2

theorem outside_moveAssign (h : NInv E s σ) {y z : Ptr} {u u' : Vec.Vec Ptr} (hu : σ y = some u) (hu' : σ z = some u') {r : Unit}
    (hrun : Runs (moveAssign E.toElemOps y z) s r s') :
    ∀ x, s.o.heap x ≠ none → x ≠ y → x ≠ z → x ≠ u.start → s'.o.heap x = s.o.heap x :=
  frame_moveAssign (o := ⟨u.alloc, u.start, u.els.length, u.cap⟩) (h.outer.st.obj _ _ hu).2
    (by rw [(h.outer.st.obj _ _ hu').2]; simp [Vec.Vec.obj]) h.fresh hrun

/-- What every call asks for, and its footprint. -/
theorem NInv.sum (h : NInv E s σ) (he : s.o.err = none) (hv : VC.Valid s.o c.addr) {r : VC.Res} (hrun : Runs (exec E.toElemOps c) s r s') :
    Fair E.toElemOps (askOf σ c) s s' ∧ ∀ v, c.on = some v → Foot v s s' := by
  have hn := h.outer.st.null
  have hf := h.fresh
  have start : ∀ {t : Ptr} {x : Vec.Vec Ptr}, σ t = some x → ∀ {y : Ptr} {i : Nat}, y = .stk i → x.start ≠ y := by
    rintro t x hx y i rfl e
    rcases (h.outer.st.ok _ _ hx).blk with ⟨h3, -⟩ | ⟨⟨y, h3⟩, -⟩ <;> rw [h3] at e <;> cases e
  have get : ∀ {t : Ptr}, VC.Alive s.o t → ∃ x, σ t = some x ∧ s.o.heap t = some x.obj ∧ (x.start ≠ t ∧ x.start ≠ .stk s.o.sp) := by
    intro t ht
    obtain ⟨x, hx⟩ := (VC.alive_iff h.outer).1 ht
    obtain ⟨⟨i, h1⟩, h2⟩ := h.outer.st.obj _ _ hx
    exact ⟨x, hx, h2, start hx h1, start hx rfl⟩
  have nofoot : ∀ {c : Call}, c.on = none → ∀ v, c.on = some v → Foot v s s' := by
    intro c h1 v h2; rw [h1] at h2; cases h2
  have push : ∀ {v : Ptr} {a : Arg}, VC.Alive s.o v → Runs (pushBack E.toElemOps v a) s () s' →
      Fair E.toElemOps ((σ v).bind fun x => if x.els.length = x.cap then some (Vec.growTo x.cap (x.cap + 1)) else none) s s' ∧ Foot v s s' := by
    intro v a hv h1
    obtain ⟨x, hx, h2, -⟩ := get hv
    have hk := h.outer.st.ok _ _ hx
    rw [hx, Option.bind_some]
    by_cases hc : x.els.length = x.cap
    · rw [if_pos hc]
      obtain ⟨s1, k1, -, k2, k3⟩ := runs_push_full he h2 hc h1
      have hw : wrap (x.cap + 1) = x.cap + 1 := Nat.mod_eq_of_lt (by have := hk.fits.le; omega)
      simp only [hw, growTo_eq hk.fits] at k1 k2
      rcases k3 with ⟨-, rfl⟩ | ⟨o', -, h3, -, -, k4, -, k5⟩
      · exact ⟨k1, k2.foot h2⟩
      · exact ⟨k1.calm k4, (k2.foot h2).trans (k5.foot h3)⟩
    · rw [if_neg hc]
      obtain ⟨k1, -, k3⟩ := runs_push_room he h2 (by have := hk.len; show x.els.length < x.cap; omega) h1
      exact ⟨k1.fair he, k3.foot h2⟩
  have on : ∀ {v : Ptr}, Foot v s s' → ∀ v', some v = some v' → Foot v' s s' := by
    intro v h v' e; cases e; exact h
  cases c with
  | create al =>
    obtain ⟨_, s1, h1, h2⟩ := runs_bind_iff.1 hrun
    cases h2
    obtain ⟨w, h2, rfl⟩ := of_onO h1
    exact ⟨(calm_newVec h2 s.i).1.fair he, nofoot (c := .create al) rfl⟩
  | pushBack v a =>
    obtain ⟨b, s1, h1, h2⟩ := runs_bind_iff.1 hrun
    obtain rfl := of_evalArg h1
    obtain ⟨k1, k2⟩ := push hv.1 (of_unit h2)
    exact ⟨k1, on k2⟩
  | pushMove v t =>
    obtain ⟨k1, k2⟩ := push hv.1 (of_unit hrun)
    exact ⟨k1, on k2⟩
  | clear v =>
    obtain ⟨x, hx, h2, -⟩ := get hv
    have := runs_clear h2 (of_unit hrun)
    exact ⟨this.calm.fair he, on this.foot⟩
  | reserve v n =>
    obtain ⟨x, hx, h2, -⟩ := get hv.1
    show Fair _ ((σ v).bind _) s s' ∧ _
    rw [hx, Option.bind_some]
    rcases runs_reserve he h2 (of_unit hrun) with ⟨h3, rfl⟩ | ⟨h3, h4, -, h5⟩
    · have h3 : n ≤ x.cap := h3
      rw [if_neg (by omega)]
      exact ⟨(Calm.refl _).fair he, on (.refl _ _)⟩
    · have h3 : x.cap < n := h3
      rw [if_pos h3]
      exact ⟨h4, on (h5.foot h2)⟩
  | shrink v =>
    obtain ⟨x, hx, h2, -⟩ := get hv
    show Fair _ ((σ v).bind _) s s' ∧ _
    rw [hx, Option.bind_some]
    rcases runs_shrink he h2 (of_unit hrun) with ⟨h3, rfl⟩ | ⟨h3, h4, -, h5⟩
    · have h3 : x.cap ≤ x.els.length := h3
      rw [if_neg (by omega)]
      exact ⟨(Calm.refl _).fair he, on (.refl _ _)⟩
    · have h3 : x.els.length < x.cap := h3
      rw [if_pos h3]
      exact ⟨h4, on (h5.foot h2)⟩
  | resize v n a =>
    obtain ⟨b, s1, h1, h0⟩ := runs_bind_iff.1 hrun
    obtain rfl := of_evalArg h1
    obtain ⟨x, hx, h2, h3, -⟩ := get hv.1
    show Fair _ ((σ v).bind _) s s' ∧ _
    rw [hx, Option.bind_some]
    by_cases hc : n ≤ x.els.length
    · rw [if_neg (by omega)]
      obtain ⟨s2, k1, k2, rfl⟩ := runs_resize_less h2 hc (of_unit h0)
      have h4 : s2.o.heap v ≠ none := by rw [k1.heap v h3.symm, h2]; simp [Vec.Vec.obj]
      refine ⟨(k1.calm.trans (.upd h4 rfl)).fair he, on fun o' ho => ?_⟩
      rw [h2] at ho; cases ho
      exact ⟨_, upd_same _ _ _, .inl rfl, fun y _ h1 h2 => (upd_other _ _ h1).trans (k1.heap y h2)⟩
    · rw [if_pos (by omega)]
      obtain ⟨k1, -, k2⟩ := runs_resize_more he h2 (show x.els.length < n by omega) (of_unit h0)
      simp only [growTo_eq (h.outer.st.ok _ _ hx).fits] at k1
      exact ⟨k1, on k2⟩
  | assignN v n a =>
    obtain ⟨b, s1, h1, h0⟩ := runs_bind_iff.1 hrun
    obtain rfl := of_evalArg h1
    obtain ⟨x, hx, h2, h3⟩ := get hv.1
    obtain ⟨k1, k2⟩ := runs_assignN h2 hn hf he h3 (of_unit h0)
    exact ⟨k1, on k2⟩
  | assignObjs v ts =>
    obtain ⟨x, hx, h2, h3⟩ := get hv.1
    obtain ⟨k1, k2⟩ := runs_assignRandom h2 hn hf he h3 (of_unit hrun)
    rw [List.length_map] at k1
    exact ⟨k1, on k2⟩
  | assignSub v t i n =>
    obtain ⟨b, s1, h1, h0⟩ := runs_bind_iff.1 hrun
    obtain ⟨w, h4, rfl⟩ := of_onO h1
    obtain ⟨_, w1, h5, h6⟩ := runs_bind_iff.1 h4
    obtain ⟨-, -, rfl⟩ := runs_rdObj.1 h5
    cases h6
    obtain ⟨x, hx, h2, h3⟩ := get hv.1
    obtain ⟨k1, k2⟩ := runs_assignRandom h2 hn hf he h3 (of_unit h0)
    simp only [refs, List.length_map, List.length_range'] at k1
    exact ⟨k1, on k2⟩
  | copy d v =>
    obtain ⟨u, s1, h1, h0⟩ := runs_bind_iff.1 (of_unit hrun)
    obtain ⟨y, hy, h4, -⟩ := get hv.2
    obtain ⟨rfl, rfl⟩ := of_rdObj h1 h4
    obtain ⟨x, hx, h2, h3⟩ := get hv.1
    obtain ⟨k1, k2⟩ := runs_assignRandom h2 hn hf he h3 h0
    simp only [refs, List.length_map, List.length_range'] at k1
    refine ⟨?_, on k2⟩
    show Fair _ ((σ v).map _) s s'
    rw [hy]
    exact k1
  | move v =>
    obtain ⟨_, s1, h1, h2⟩ := runs_bind_iff.1 hrun
    cases h2
    obtain ⟨w, h2, rfl⟩ := of_onO h1
    exact ⟨(calm_moveCtor h2 s.i).1.fair he, nofoot (c := .move v) rfl⟩
  | moveAssign v t => exact ⟨(calm_moveAssign (of_unit hrun)).1.fair he, nofoot (c := .moveAssign v t) rfl⟩
  | swap v t =>
    obtain ⟨w, h2, rfl⟩ := of_onO (of_unit hrun)
    exact ⟨(calm_swap h2 s.i).1.fair he, nofoot (c := .swap v t) rfl⟩
  | destroy v =>
    obtain ⟨x, hx, h2, -⟩ := get hv
    exact ⟨(runs_destroyVec h2 (of_unit hrun)).1.fair he, nofoot (c := .destroy v) rfl⟩

/-! ### Which objects are in a block -/

/-- Vectors in the same block have the same objects where the block is the same. -/
theorem same_els (h : NInv E s σ) (h' : NInv E s' σ') {t t' : Ptr} {x x' : Vec.Vec Ptr} (hx : σ t = some x) (hx' : σ' t' = some x')
    (hs : x'.start = x.start) {n : Nat} (hn : n ≤ x.els.length) (hn' : n ≤ x'.els.length)
    (hb : ∀ b, s.o.heap x.start = some (.blk b) → ∃ b', s'.o.heap x.start = some (.blk b') ∧ ∀ j, j < n → b'.slots[j]? = b.slots[j]?) :
    x'.els.take n = x.els.take n := by
  cases n with
  | zero => rfl
  | succ n =>
    have hk := h.outer.st.ok _ _ hx
    have hk' := h'.outer.st.ok _ _ hx'
    have h1 : s.o.heap x.start = some x.blk := by
      rcases hk.blk with ⟨-, h1⟩ | ⟨-, h1⟩
      · have := hk.len; omega
      · exact h1
    have h2 : s'.o.heap x.start = some x'.blk := by
      rcases hk'.blk with ⟨-, h1⟩ | ⟨-, h1⟩
      · have := hk'.len; omega
      · rw [← hs]; exact h1
    obtain ⟨b', h3, h4⟩ := hb _ h1
    rw [h2] at h3; cases h3
    apply List.ext_getElem?
    intro j
    rw [List.getElem?_take, List.getElem?_take]
    split
    · rename_i hj
      have h5 := h4 j hj
      simp only at h5
      have hjx : j < x.els.length := by omega
      have e1 : (slotsOf x.els x.cap)[j]? = some (some x.els[j]) := slotsOf_get.2 (List.getElem?_eq_getElem hjx)
      rw [e1] at h5
      rw [slotsOf_get.1 h5, List.getElem?_eq_getElem hjx]
    · rfl

/-- A vector whose object and block are the same has the same objects. -/
theorem same_vec (h : NInv E s σ) (h' : NInv E s' σ') {t : Ptr} {x : Vec.Vec Ptr} (hx : σ t = some x) (h1 : s'.o.heap t = s.o.heap t)
    (h2 : x.start ≠ .null → s'.o.heap x.start = s.o.heap x.start) : ∃ x', σ' t = some x' ∧ x'.els = x.els ∧ x'.start = x.start ∧ x'.cap = x.cap := by
  obtain ⟨⟨i, rfl⟩, h3⟩ := h.outer.st.obj _ _ hx
  obtain ⟨x', hx'⟩ := (VC.alive_iff h'.outer).1 ⟨i, rfl, by rw [h1, h3]; simp [Vec.Vec.obj]⟩
  have h4 := (h'.outer.st.obj _ _ hx').2
  rw [h1, h3] at h4
  simp only [Vec.Vec.obj, Option.some.injEq, VCell.obj.injEq, Obj.mk.injEq] at h4
  obtain ⟨-, h5, h6, h7⟩ := h4
  refine ⟨x', hx', ?_, h5.symm, h7.symm⟩
  have := same_els h h' hx hx' h5.symm (Nat.le_refl _) (by omega) (fun b hb => ⟨b, by
    rw [h2 (fun e => by rw [e, h.outer.st.null] at hb; cases hb)]; exact hb, fun _ _ => rfl⟩)
  rwa [List.take_length, h6, List.take_length] at this

end sized
end Nestl.VO
