import Verif.VectorOf.Insert
set_option autoImplicit false
/-
Lemmas for the theorems about vectors of objects: the invariant holds in all reachable states.
-/
namespace Nestl.VO
open Nestl.Vec (W Sg ElemSize)
variable {S A X : Type} [ElemSize Ptr] {E : Elem S A X} {s s' : NS S} {σ : Sg Ptr} {c : Call} {c' : VC.Call A} {r : VC.Res}

omit [ElemSize Ptr] in
theorem alloc_inj {V : Type} {w : W V} {v : Ptr} {a b : Nat} (h1 : VC.HasAlloc w v a) (h2 : VC.HasAlloc w v b) : a = b :=
  (Runs.det h1 h2).1

theorem NInv.shows (h : NInv E s σ) {B : VC.AState A} : Shows E s B ↔ B = seqs E s.i σ := by
  have hval : ∀ v x, σ v = some x → ∀ L : List A, Values E s v L ↔ L = x.els.filterMap (E.val s.i) := by
    intro v x hx L
    have hm := map_live fun q hq => h.live _ _ _ hx hq
    constructor
    · rintro ⟨qs, h1, h2⟩
      obtain rfl := (VC.contents_iff h.outer hx).1 h1
      rw [← hm] at h2
      exact ((List.map_inj_right fun _ _ e => Option.some.inj e).1 h2).symm
    · rintro rfl
      exact ⟨_, (VC.contents_iff h.outer hx).2 rfl, hm.symm⟩
  constructor
  · rintro ⟨h1, h2⟩
    funext v
    cases hx : σ v with
    | none =>
      have : B v = none := by
        apply Classical.byContradiction; intro hn
        obtain ⟨x, hx'⟩ := (VC.alive_iff h.outer).1 ((h1 v).2 hn)
        rw [hx] at hx'; cases hx'
      rw [this]
      simp [seqs, VC.abs, VO.lift, hx]
    | some x =>
      obtain ⟨⟨al, L⟩, hB⟩ := Option.ne_none_iff_exists'.1 ((h1 v).1 ((VC.alive_iff h.outer).2 ⟨x, hx⟩))
      obtain ⟨h3, h4⟩ := h2 v al L hB
      rw [hB, (hval v x hx L).1 h4, (VC.hasAlloc_iff h.outer hx).1 h3]
      simp [seqs, VC.abs, VO.lift, hx]
  · rintro rfl
    constructor
    · intro v
      rw [VC.alive_iff h.outer]
      cases hx : σ v <;> simp [seqs, VC.abs, VO.lift, hx]
    · intro v al L hv
      cases hx : σ v with
      | none => simp [seqs, VC.abs, VO.lift, hx] at hv
      | some x =>
        simp only [seqs, VC.abs, VO.lift, hx, Option.map_some, Option.some.injEq, Prod.mk.injEq] at hv
        obtain ⟨rfl, rfl⟩ := hv
        exact ⟨(VC.hasAlloc_iff h.outer hx).2 rfl, (hval v x hx _).2 rfl⟩

theorem NInv.ready (h : NInv E s σ) : NInv E (ready s) σ := ⟨h.outer.ready, h.inv, h.live, h.uniq⟩

/-- Meanings only depend on the objects that are passed. -/
theorem Call.Means.congr {blank : A} {f g : Ptr → Option A} (hfg : ∀ q, c.uses q → g q = f q) (h : c.Means blank f c') :
    c.Means blank g c' := by
  have ha : ∀ {a : CArg} {b : VC.CArg A}, (∀ q, a.uses q → g q = f q) → a.Means blank f b → a.Means blank g b := by
    intro a b hfg hab
    cases a <;> cases b <;> first | exact hab | skip
    rename_i t x
    exact (hfg t rfl).trans hab
  cases c with
  | pushBack v a => obtain ⟨b, hb, rfl⟩ := h; exact ⟨b, ha hfg hb, rfl⟩
  | resize v n a => obtain ⟨b, hb, rfl⟩ := h; exact ⟨b, ha hfg hb, rfl⟩
  | assignN v n a => obtain ⟨b, hb, rfl⟩ := h; exact ⟨b, ha hfg hb, rfl⟩
  | pushMove v t => obtain ⟨x, hx, rfl⟩ := h; exact ⟨x, (hfg t rfl).trans hx, rfl⟩
  | assignObjs v ts =>
    obtain ⟨xs, hx, rfl⟩ := h
    exact ⟨xs, (List.map_congr_left fun q hq => hfg q hq).trans hx, rfl⟩
  | _ => exact h

/-- Every call has a meaning. -/
theorem Call.Means.exists {blank : A} {f : Ptr → Option A} (h : ∀ q, c.uses q → f q ≠ none) : ∃ c', c.Means blank f c' := by
  have ha : ∀ a : CArg, (∀ q, a.uses q → f q ≠ none) → ∃ b, a.Means blank f b := by
    intro a h
    cases a with
    | obj t => obtain ⟨x, hx⟩ := Option.ne_none_iff_exists'.1 (h t rfl); exact ⟨.val x, hx⟩
    | elem v i => exact ⟨.elem v i, rfl, rfl⟩
    | fresh => exact ⟨.val blank, rfl⟩
  cases c with
  | pushBack v a => obtain ⟨b, hb⟩ := ha a h; exact ⟨_, b, hb, rfl⟩
  | resize v n a => obtain ⟨b, hb⟩ := ha a h; exact ⟨_, b, hb, rfl⟩
  | assignN v n a => obtain ⟨b, hb⟩ := ha a h; exact ⟨_, b, hb, rfl⟩
  | pushMove v t => obtain ⟨x, hx⟩ := Option.ne_none_iff_exists'.1 (h t rfl); exact ⟨_, x, hx, rfl⟩
  | assignObjs v ts => exact ⟨_, ts.filterMap f, (map_live h).symm, rfl⟩
  | create a => exact ⟨_, rfl⟩
  | clear v => exact ⟨_, rfl⟩
  | reserve v n => exact ⟨_, rfl⟩
  | shrink v => exact ⟨_, rfl⟩
  | assignSub v t i n => exact ⟨_, rfl⟩
  | copy d v => exact ⟨_, rfl⟩
  | move v => exact ⟨_, rfl⟩
  | moveAssign v t => exact ⟨_, rfl⟩
  | swap v t => exact ⟨_, rfl⟩
  | destroy v => exact ⟨_, rfl⟩

theorem NInv.out (h : NInv E s σ) {q : Ptr} (hq : ¬ IsElem s q) : (outside E s).1 q = E.val s.i q := by
  unfold outside
  simp only
  rw [if_neg (fun hn => hq (h.isElem.2 hn))]

theorem NInv.out_elem (h : NInv E s σ) {q : Ptr} (hq : IsElem s q) : (outside E s).1 q = none := by
  unfold outside
  simp only
  rw [if_pos (h.isElem.1 hq)]

/-- The effect of a valid call in a reachable state. -/
theorem NInv.call (h : NInv E s σ) (hv : Valid E s c) (hm : c.Means E.blank (E.val s.i) c') :
    ∃ r s' σ', Runs (exec E.toElemOps c) (VO.ready s) r s' ∧ NInv E s' σ' ∧ Effect E (outside E s) c s' ∧
      VC.Spec (seqs E s.i σ) c' r s'.o.err.isSome (seqs E s'.i σ') := by
  have hva : VC.Valid (VO.ready s).o c.addr := VC.valid_ready h.outer hv.1
  have hm2 : c.Means E.blank (outside E (VO.ready s)).1 c' := hm.congr fun q hq => h.out (hv.2 q hq).2
  exact h.ready.step rfl hva hm2

/-- Every insertion has a meaning. -/
theorem Ins.Means.exists {blank : A} {f : Ptr → Option A} {x : Ins} (h : ∀ q, x.uses q → f q ≠ none) : ∃ b, x.Means blank f b := by
  obtain ⟨c', b, h1, -⟩ := Call.Means.exists (c := .pushBack .null x.arg) (blank := blank) (f := f) fun q hq => h q (by
    cases x <;> exact hq)
  exact ⟨b, h1⟩

/-- The effect of a valid insertion in a reachable state. -/
theorem NInv.insertion (h : NInv E s σ) {v : Ptr} {i : Nat} {x : Ins} {b : VC.CArg A} (hv : InsValid E s v i x)
    (hm : x.Means E.blank (E.val s.i) b) :
    ∃ r s' y, Runs (insExec E.toElemOps v i x) (VO.ready s) r s' ∧ InsEffect E (outside E s) x s' ∧ σ v = some y ∧
      ((i = y.els.length ∨ s'.o.err = none) → ∃ σ', NInv E s' σ' ∧
        VC.Spec (seqs E s.i σ) (.insert v i b) r s'.o.err.isSome (seqs E s'.i σ')) ∧
      ∀ q, q ≠ v → q ≠ y.start → s.o.heap q ≠ none →
        (s'.o.heap q).map (absCell (E.val s'.i)) = (s.o.heap q).map (absCell (E.val s.i)) := by
  obtain ⟨y, hy⟩ := (VC.alive_iff h.outer).1 hv.alive
  obtain ⟨qs, h1, h2⟩ := hv.pos
  obtain rfl := (VC.contents_iff h.outer hy).1 h1
  have hva : VC.Valid (VO.ready s).o (Call.pushBack v x.arg).addr :=
    VC.valid_ready h.outer ⟨hv.alive, hv.arg, hv.apart.imp id (·.1)⟩
  have hm2 : x.Means E.blank (outside E (VO.ready s)).1 b := by
    have h3 : (Call.pushBack v x.arg).Means E.blank (outside E (VO.ready s)).1 (.pushBack v b) :=
      Call.Means.congr (fun q hq => h.out (hv.uses q (by cases x <;> exact hq)).2) ⟨b, hm, rfl⟩
    obtain ⟨b', h4, h5⟩ := h3
    cases h5
    exact h4
  obtain ⟨r, s', k1, k2, k3, k4⟩ := h.ready.insert rfl hy h2 hva.2.1
    (hv.apart.imp id fun ⟨h3, h4⟩ => ⟨by
      obtain ⟨L, c, a1, a2, a3⟩ := h3
      exact (VC.spare_iff h.ready.outer hy).2 ((VC.spare_iff h.outer hy).1 ⟨L, c, a1, a2, a3⟩), h4⟩) hm2
  exact ⟨r, s', y, k1, k2, hy, k3, k4⟩

theorem Reach.inv (hr : Reach E s) : ∃ σ, NInv E s σ := by
  induction hr with
  | start hi =>
    refine ⟨fun _ => none, ⟨⟨⟨?_, ?_, ?_, ?_⟩, fun _ _ => rfl⟩, hi, ?_, ?_⟩⟩
    · intro s v h; cases h
    · intro s v h; cases h
    · intro s t v u h; cases h
    · intro p h; exact (h rfl).elim
    · intro s v q h; cases h
    · intro t v j t' v' j' q h; cases h
  | call _ hv hrun ih =>
    obtain ⟨σ, h⟩ := ih
    obtain ⟨c', hm⟩ := Call.Means.exists (blank := E.blank) fun q hq => (hv.2 q hq).1
    obtain ⟨r, s', σ', h1, h2, -⟩ := h.call hv hm
    obtain ⟨-, rfl⟩ := Runs.det hrun h1
    exact ⟨σ', h2⟩
  | insert _ hv hrun hc ih =>
    obtain ⟨σ, h⟩ := ih
    obtain ⟨b, hm⟩ := Ins.Means.exists (blank := E.blank) fun q hq => (hv.uses q hq).1
    obtain ⟨r, s', y, h1, -, h2, h3, -⟩ := h.insertion hv hm
    obtain ⟨-, rfl⟩ := Runs.det hrun h1
    obtain ⟨σ', h4, -⟩ := h3 (by
      rcases hc with hc | ⟨qs, hc, rfl⟩
      · exact .inr hc
      · exact .inl (congrArg List.length ((VC.contents_iff h.outer h2).1 hc)))
    exact ⟨σ', h4⟩
  | client _ hi hl ih =>
    obtain ⟨σ, h⟩ := ih
    exact ⟨σ, h.outer, hi, fun t v q h1 h2 => hl q (h.isElem.2 (h.owned.2 ⟨t, v, h1, h2⟩)), h.uniq⟩

end Nestl.VO
