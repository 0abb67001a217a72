import Verif.VectorOf.Constructs
import Verif.VectorOf.RangeProps
import Verif.VectorOf.RangeDemo
set_option autoImplicit false
/-
Property theorems about the cost of inserting ranges into vectors of objects (C132).
-/
namespace Nestl.VO
open Nestl.Vec (W VCell Obj Blk rdObj setObj ElemSize wrap)
variable {S A X : Type} {E : Elem S A X} {s s' : NS S} {v : Ptr} {qs : List Ptr} {cs : List CArg} {r : VC.Res} {n i : Nat} {f : S → Nat}

section
variable [ElemSize Ptr]

/-- A step of the insertion of a range that succeeds: the rest of the range is still valid. -/
theorem range_step {c : CArg} {as : List Arg} (hr : Reach E s) (he : s.o.err = none) (hv : RangeValid E s v i (c :: cs))
    (ha : Runs (evalArgs cs) s as s) {p : Nat} (hrun : Runs (insExec E.toElemOps v i (.copy c)) (ready s) (.pos p) s') (he1 : s'.o.err = none) :
    Reach E s' ∧ RangeValid E s' v (i + 1) cs ∧ Runs (evalArgs cs) s' as s' := by
  obtain ⟨hc1, hc2, hc3⟩ := hv.args c (by simp)
  have hiv : InsValid E s v i (.copy c) := ⟨hv.alive, hv.pos, hc1, .inl hc2, hc3⟩
  obtain ⟨b, hm⟩ := Ins.Means.exists (x := .copy c) (blank := E.blank) fun q hq => (hc3 q hq).1
  have hothers := vectorOf_insert_others hr hiv hrun
  have hl := fun q => vectorOf_insert_leaves hr hiv hrun (.inl he1) q
  obtain ⟨B0, hB0, -⟩ := vectorOf_shows hr
  obtain ⟨qs, hq1, hq2⟩ := hv.pos
  have hlen : ∃ qs', VC.Alive s'.o v ∧ Objs s' v qs' ∧ qs'.length = qs.length + 1 := by
    obtain ⟨B1, k1, al, L, z, k2, k3, k4, k5⟩ := insert_good hr hiv hrun (.inl he1) hm hB0
    rw [he1] at k5
    have k6 : B1 v = some (al, L.take i ++ z :: L.drop i) := by rw [k5.2, upd_same]
    obtain ⟨qs', k7, k8⟩ := (k1.2 _ _ _ k6).2
    obtain ⟨al', L', k9, k10⟩ := hB0.at hv.alive hq1
    rw [k2] at k9; cases k9
    have e1 := congrArg List.length k8
    have e2 := congrArg List.length k10
    simp at e1 e2
    exact ⟨qs', (k1.1 v).2 (by rw [k6]; simp), k7, by omega⟩
  obtain ⟨qs', hq3, hq4, hq5⟩ := hlen
  refine ⟨.insert hr hiv hrun (.inl he1), ⟨hq3, ⟨qs', hq4, by omega⟩, fun c' hc' => ?_⟩, ?_⟩
  · obtain ⟨k1, k2, k3⟩ := hv.args c' (by simp [hc'])
    obtain ⟨a', k4⟩ := evalArg_runs hr k1
    refine ⟨(evalArg_keep hothers k1 k2 k4).2, k2, fun q hq => ?_⟩
    have := (hl q).2 ⟨(k3 q hq).2, (k3 q hq).1⟩
    exact ⟨this.2, this.1⟩
  · have hargs : ∀ {cs : List CArg} {as : List Arg}, (∀ c, c ∈ cs → VC.ArgOk s.o c.addr ∧ VC.Foreign v c.addr) →
        Runs (evalArgs cs) s as s → Runs (evalArgs cs) s' as s' := by
      intro cs
      induction cs with
      | nil => intro as _ k; cases k; rfl
      | cons c cs ih =>
        intro as k1 k2
        obtain ⟨a, s2, k3, k4⟩ := runs_bind_iff.1 k2
        obtain rfl := of_evalArg k3
        obtain ⟨as', s2, k5, k6⟩ := runs_bind_iff.1 k4
        cases k6
        obtain ⟨k7, k8⟩ := k1 c (by simp)
        exact runs_bind_iff.2 ⟨a, s', (evalArg_keep hothers k7 k8 k3).1,
          runs_bind_iff.2 ⟨as', s', ih (fun c hc => k1 c (by simp [hc])) k5, rfl⟩⟩
    exact hargs (fun c hc => ⟨(hv.args c (by simp [hc])).1, (hv.args c (by simp [hc])).2.1⟩) ha

/-- The vector after an insertion that succeeds. -/
theorem insert_step {σ σ' : Vec.Sg Ptr} {x : Vec.Vec Ptr} (h : NInv E s σ) (hx : σ v = some x) (he : s.o.err = none) (h' : NInv E s' σ')
    {a : Arg} {p : Nat} (hrun : Runs (insertValue E.toElemOps v i a) s p s') (he1 : s'.o.err = none) :
    ∃ x', σ' v = some x' ∧ x'.els.length = x.els.length + 1 ∧
      x'.cap = (if x.els.length = x.cap then Vec.growTo x.cap (x.cap + 1) else x.cap) := by
  have hk := h.outer.st.ok _ _ hx
  have hobj := (h.outer.st.obj _ _ hx).2
  obtain ⟨⟨j, rfl⟩, -⟩ := h.outer.st.obj _ _ hx
  have fin : ∀ o1 : Obj, s'.o.heap (.stk j) = some (.obj o1) → ∃ x', σ' (.stk j) = some x' ∧ x'.els.length = o1.fin ∧ x'.cap = o1.cap := by
    intro o1 h1
    obtain ⟨x', hx'⟩ := (VC.alive_iff h'.outer).1 ⟨j, rfl, by rw [h1]; simp⟩
    have h9 := (h'.outer.st.obj _ _ hx').2
    rw [h1] at h9
    simp only [Vec.Vec.obj, Option.some.injEq, VCell.obj.injEq] at h9
    exact ⟨x', hx', by rw [h9], by rw [h9]⟩
  by_cases hfull : x.els.length = x.cap
  · obtain ⟨s1, k1, -, k2, k3⟩ := runs_insert_full he hobj hfull hrun
    rcases k3 with ⟨k3, rfl, -⟩ | ⟨o', k3, k4, k5, k6, k7, -, k8⟩
    · exact (k3 he1).elim
    rcases k2 with ⟨k2, -⟩ | ⟨-, y, -, k9, -⟩
    · exact (k2 k3).elim
    rw [k4] at k9
    simp only [Option.some.injEq, VCell.obj.injEq] at k9
    rcases k8.obj with ⟨k8, -⟩ | ⟨-, k8⟩
    · exact (k8 he1).elim
    obtain ⟨x', m1, m2, m3⟩ := fin _ k8
    refine ⟨x', m1, ?_, ?_⟩
    · rw [m2, k9]
    · rw [m3, k9, if_pos hfull]
      have h4 : Vec.wrap (x.cap + 1) = x.cap + 1 := Nat.mod_eq_of_lt (by have := hk.fits.le; omega)
      show growTo x.cap (wrap (x.cap + 1)) = _
      rw [growTo_eq hk.fits, h4]
  · obtain ⟨k1, -, k2⟩ := runs_insert_room he hobj (by have := hk.len; show x.els.length < x.cap; omega) hrun
    rcases k2.obj with ⟨k2, -⟩ | ⟨-, k2⟩
    · exact (k2 he1).elim
    obtain ⟨x', m1, m2, m3⟩ := fin _ k2
    exact ⟨x', m1, m2, by rw [m3, if_neg hfull]⟩

/-- The loop of the insertion of a range. -/
theorem range_count (hf : Counts E.toElemOps f) {c0 d : Nat} (cs : List CArg) : ∀ {s : NS S} {i k q : Nat} {as : List Arg} {σ : Vec.Sg Ptr}
    {x : Vec.Vec Ptr}, Reach E s → s.o.err = none → RangeValid E s v i cs → Runs (evalArgs cs) s as s → NInv E s σ → σ v = some x →
    x.els.length - i = d → VC.Grown c0 x.els.length x.cap k q → Runs (insertRangeLoop E.toElemOps v i as) s () s' →
    ∃ z cap k' q', z ≤ x.els.length + cs.length ∧ VC.Grown c0 z cap k' q' ∧ s'.o.nAlloc + k ≤ s.o.nAlloc + k' ∧
      f s'.i + q ≤ f s.i + cs.length * (d + 1) + q' := by
  induction cs with
  | nil =>
    intro s i k q as σ x hr he hv ha h hx hd hg hrun
    cases ha
    cases hrun
    exact ⟨_, _, k, q, Nat.le_refl _, hg, Nat.le_refl _, by omega⟩
  | cons c cs ih =>
    intro s i k q as σ x hr he hv ha h hx hd hg hrun
    obtain ⟨a, s0, h1, h2⟩ := runs_bind_iff.1 ha
    obtain rfl := of_evalArg h1
    obtain ⟨as, s0, h3, h4⟩ := runs_bind_iff.1 h2
    have : s0 = s := by cases h4; rfl
    subst this
    cases h4
    obtain ⟨p, s1, g1, g2⟩ := runs_bind_iff.1 hrun
    obtain ⟨_, s2, g3, g4⟩ := runs_bind_iff.1 g2
    obtain ⟨rfl, rfl⟩ := of_failed g3
    have hk := h.outer.st.ok _ _ hx
    have hobj := (h.outer.st.obj _ _ hx).2
    have m1 : f s2.i ≤ f s0.i + (x.els.length - i) + 1 + (if x.els.length = x.cap then x.els.length else 0) := makes_insertValue hf he hobj g1
    have m2 : s2.o.nAlloc = s0.o.nAlloc + if x.els.length = x.cap then 1 else 0 := by
      have := (fair_insert he hobj hk.len g1).allocs
      dsimp only at this
      rw [this]
      by_cases hc : x.els.length = x.cap
      · simp [hc]
      · simp [hc]
    have hmul : (c :: cs).length * (d + 1) = cs.length * (d + 1) + (d + 1) := by rw [List.length_cons, Nat.succ_mul]
    have hstep : ∃ k1 q1, VC.Grown c0 (x.els.length + 1) (if x.els.length = x.cap then Vec.growTo x.cap (x.cap + 1) else x.cap) k1 q1 ∧
        s2.o.nAlloc + k = s0.o.nAlloc + k1 ∧ f s2.i + q ≤ f s0.i + (d + 1) + q1 := by
      by_cases hc : x.els.length = x.cap
      · rw [if_pos hc] at m1 m2 ⊢
        refine ⟨k + 1, q + x.cap, ?_, by omega, by omega⟩
        rw [hc] at hg ⊢
        exact hg.grow
      · rw [if_neg hc] at m1 m2 ⊢
        exact ⟨k, q, hg.push, by omega, by omega⟩
    obtain ⟨k1, q1, n1, n2, n3⟩ := hstep
    by_cases he1 : s2.o.err = none
    · rw [he1] at g4
      have hins : Runs (insExec E.toElemOps v i (.copy c)) (ready s0) (.pos p) s2 := by
        rw [ready_of he]
        exact runs_bind_iff.2 ⟨a, s0, h1, runs_bind_iff.2 ⟨p, s2, g1, rfl⟩⟩
      obtain ⟨j1, j2, j3⟩ := range_step hr he hv h3 hins he1
      obtain ⟨σ1, j4⟩ := j1.inv
      obtain ⟨x1, j5, j6, j7⟩ := insert_step h hx he j4 g1 he1
      have hi : i ≤ x.els.length := by
        obtain ⟨qs, l1, l2⟩ := hv.pos
        obtain rfl := (h.objs hx).1 l1; exact l2
      rw [← j6, ← j7] at n1
      obtain ⟨z, cap, k', q', o1, o2, o3, o4⟩ := ih j1 he1 j2 j3 j4 j5 (by omega) n1 g4
      exact ⟨z, cap, k', q', by rw [List.length_cons]; omega, o2, by omega, by omega⟩
    · rw [if_pos (Option.isSome_iff_ne_none.2 he1)] at g4
      cases g4
      exact ⟨_, _, k1, q1, by rw [List.length_cons]; omega, n1, by omega, by omega⟩

/-- C132: inserting a range of `n` objects in front of the element `i` of a vector of `m` objects constructs at most
`n (m - i + 1) + 3 (m + n)` elements and makes at most `2 log2 (m + n + 1)` requests for memory, whether it succeeds or fails. -/
theorem vectorOf_range_cost (hr : Reach E s) (hv : RangeValid E s v i cs) (hrun : Runs (rangeExec E.toElemOps v i cs) (ready s) r s')
    (ho : Objs s v qs) (hf : Counts E.toElemOps f) :
    f s'.i ≤ f s.i + cs.length * (qs.length - i + 1) + 3 * (qs.length + cs.length) ∧
      s'.o.nAlloc ≤ s.o.nAlloc + 2 * Nat.log2 (qs.length + cs.length + 1) := by
  obtain ⟨σ, h⟩ := hr.inv
  obtain ⟨x, hx⟩ := (VC.alive_iff h.outer).1 hv.alive
  obtain rfl := (h.objs hx).1 ho
  have hr' := hr.ready hv.alive
  have hv' := hv.ready hr
  obtain ⟨as, h1⟩ := evalArgs_runs (cs := cs) fun c hc => evalArg_runs hr' (hv'.args c hc).1
  obtain ⟨as', s1, h2, h3⟩ := runs_bind_iff.1 hrun
  obtain ⟨rfl, rfl⟩ := Runs.det h2 h1
  have h3 := of_unit h3
  unfold insertRange at h3
  obtain ⟨o, s2, h4, h5⟩ := runs_bind_iff.1 h3
  obtain ⟨rfl, rfl⟩ := of_rdObj h4 (h.ready.outer.st.obj _ _ hx).2
  obtain ⟨_, s3, h6, h7⟩ := runs_bind_iff.1 h5
  obtain ⟨-, rfl⟩ := of_assert h6
  obtain ⟨z, cap, k, q, g1, g2, g3, g4⟩ := range_count hf cs hr' rfl hv' h1 h.ready hx rfl
    (c0 := x.cap) (k := 0) (q := 0) ⟨Nat.zero_le _, Nat.zero_le _, by simp, .inl rfl⟩ h7
  have g3 : s'.o.nAlloc + 0 ≤ s.o.nAlloc + k := g3
  have g4 : f s'.i + 0 ≤ f s.i + cs.length * (x.els.length - i + 1) + q := g4
  constructor
  · have := g2.size; omega
  · have h8 : k ≤ 2 * Nat.log2 (x.els.length + cs.length + 1) := by
      refine VC.log_bound ?_
      rcases g2.last with h9 | ⟨_, h9⟩
      · exact .inl h9
      · exact .inr (Nat.le_trans (Nat.mul_le_mul_left _ (by omega)) (Nat.le_trans h9 (Nat.mul_le_mul_left _ (by omega))))
    omega

end

open Demo in
/-- Three boxes are inserted behind the first of three elements; the vector is full before. -/
example : Reach Elem.box f6 ∧ RangeValid Elem.box f6 Demo.v 1 [.elem Demo.u 1, .obj (.stk 0), .elem Demo.u 0] ∧
    Runs (rangeExec boxOps Demo.v 1 [.elem Demo.u 1, .obj (.stk 0), .elem Demo.u 0]) (ready f6) .unit f7 ∧
    Objs f6 Demo.v [.stk 3, .stk 8, .stk 7] ∧ Counts boxOps Boxes.next ∧ f7.i.next = f6.i.next + 12 ∧ f7.o.nAlloc = f6.o.nAlloc + 1 :=
  ⟨rf6, vf6, runf6, of6, counts_box, by decide +kernel, by decide +kernel⟩

end Nestl.VO
