import Verif.VectorOf.Inv
set_option autoImplicit false
/-
The effect of calls on vectors of objects.
-/
namespace Nestl.VO
open Nestl.Vec (W VCell Obj Blk Sg St rdObj slotsOf ElemSize)
open Classical
variable {S A X α : Type} [ElemSize Ptr] {E : Elem S A X} {s : NS S} {σ : Sg Ptr} {u : (Ptr → Option A) × X}
  {P : NS S → Prop} {Q : α → NS S → Prop}

omit [ElemSize Ptr] in
theorem sim_arg {a : CArg} {b : VC.CArg A} (h : a.Means E.blank u.1 b) {m : Arg → M (NS S) α} {n : Vec.Arg A → M (W A) α}
    (hmn : ∀ x y, ArgRel E u x y → Sim E P (m x) (n y) Q) : Sim E P (evalArg a >>= m) (VC.evalArg b >>= n) Q := by
  cases a with
  | obj t =>
    cases b with
    | val x => exact hmn (.obj t) (.lit x) h
    | elem _ _ => exact h.elim
  | fresh =>
    cases b with
    | val x => exact hmn .none (.lit x) h
    | elem _ _ => exact h.elim
  | elem v i =>
    cases b with
    | val _ => exact h.elim
    | elem v' i' =>
      obtain ⟨rfl, rfl⟩ := h
      simp only [evalArg, VC.evalArg, bind_assoc, pure_bind]
      exact Sim.bind (sim_rdObj _) fun o => Sim.bind (Sim.assert _) fun _ => hmn _ _ ⟨rfl, rfl⟩

omit [ElemSize Ptr] in
theorem args_rel {f : Ptr → Option A} (hf : f = u.1) : ∀ {ts : List Ptr} {xs : List A}, ts.map f = xs.map some →
    ArgsRel E u (ts.map .obj) (xs.map .lit) := by
  subst hf
  intro ts
  induction ts with
  | nil =>
    intro xs h
    cases xs with
    | nil => exact .nil
    | cons _ _ => cases h
  | cons t ts ih =>
    intro xs h
    cases xs with
    | nil => cases h
    | cons x xs =>
      simp only [List.map_cons, List.cons.injEq] at h
      exact .cons h.1 (ih h.2)

/-- What a call does outside of the vectors. -/
def Effect (E : Elem S A X) (u : (Ptr → Option A) × X) : Call → NS S → Prop
  | .pushMove _ t => Gone E u t
  | _ => Keep E u

theorem stk_of_alive {o : W Ptr} {v : Ptr} (h : VC.Alive o v) : ∃ k, v = .stk k := by
  obtain ⟨k, rfl, -⟩ := h; exact ⟨k, rfl⟩

theorem sim_exec {o : W Ptr} {c : Call} {c' : VC.Call A} (hv : VC.Valid o c.addr) (hm : c.Means E.blank u.1 c') :
    Sim E (Good E u) (exec E.toElemOps c) (@VC.exec A (valueSize A) c') fun _ => Effect E u c := by
  have hK : ∀ {β : Type} {m : M (NS S) β} {n : M (W A) β}, Sim E (Keep E u) m n (fun _ => Keep E u) →
      Sim E (Good E u) m n fun _ => Keep E u := fun h => h.weaken (fun _ h => h.1) fun _ _ h => h
  have hd : ∀ {β γ : Type} {m : M (NS S) β} {n : M (W A) β} (r : γ) {Q : NS S → Prop}, Sim E (Good E u) m n (fun _ => Q) →
      Sim E (Good E u) (m >>= fun _ => pure r) (n >>= fun _ => pure r) fun _ => Q :=
    fun r _ h => Sim.bind h fun _ => Sim.pure _ fun _ h => h
  cases c with
  | create a =>
    obtain rfl := hm
    exact Sim.bind (hK ((sim_newVec Keep.stable a).weaken (fun _ h => h) fun _ _ h => h.1)) fun _ => Sim.pure _ fun _ h => h
  | pushBack v a =>
    obtain ⟨b, hb, rfl⟩ := hm
    obtain ⟨k, rfl⟩ := stk_of_alive hv.1
    exact sim_arg hb fun x y hxy => hd _ (sim_pushBack k hxy)
  | pushMove v t =>
    obtain ⟨x, hx, rfl⟩ := hm
    obtain ⟨k, rfl⟩ := stk_of_alive hv.1
    exact hd _ (sim_pushBack_move k hx)
  | clear v =>
    obtain rfl := hm
    obtain ⟨k, rfl⟩ := stk_of_alive hv
    exact hd _ (hK (sim_clear Keep.stable k))
  | reserve v n =>
    obtain rfl := hm
    obtain ⟨k, rfl⟩ := stk_of_alive hv.1
    exact hd _ (hK (sim_reserve k n))
  | shrink v =>
    obtain rfl := hm
    obtain ⟨k, rfl⟩ := stk_of_alive hv
    exact hd _ (hK (sim_shrinkToFit k))
  | resize v n a =>
    obtain ⟨b, hb, rfl⟩ := hm
    obtain ⟨k, rfl⟩ := stk_of_alive hv.1
    exact sim_arg hb fun x y hxy => hd _ (hK (sim_resize k n hxy))
  | assignN v n a =>
    obtain ⟨b, hb, rfl⟩ := hm
    obtain ⟨k, rfl⟩ := stk_of_alive hv.1
    exact sim_arg hb fun x y hxy => hd _ (hK (sim_assignN k n hxy))
  | assignObjs v ts =>
    obtain ⟨xs, hx, rfl⟩ := hm
    obtain ⟨k, rfl⟩ := stk_of_alive hv.1
    exact hd _ (hK (sim_assignRandom k (args_rel rfl hx)))
  | assignSub v t i n =>
    obtain rfl := hm
    obtain ⟨k, rfl⟩ := stk_of_alive hv.1
    simp only [exec, VC.exec, Vec.begin_, onO_bind, onO_pure, bind_assoc, pure_bind]
    exact Sim.bind (sim_rdObj _) fun o => hd _ (hK (sim_assignRandom k (ArgsRel.refs _ _ _)))
  | copy d v =>
    obtain rfl := hm
    obtain ⟨k, rfl⟩ := stk_of_alive hv.1
    obtain ⟨l, rfl⟩ := stk_of_alive hv.2
    exact hd _ (hK (sim_copyNothrow k l))
  | move v =>
    obtain rfl := hm
    obtain ⟨k, rfl⟩ := stk_of_alive hv
    exact Sim.bind (hK ((sim_moveCtor Keep.stable k).weaken (fun _ h => h) fun _ _ h => h.1)) fun _ => Sim.pure _ fun _ h => h
  | moveAssign v t =>
    obtain rfl := hm
    obtain ⟨k, rfl⟩ := stk_of_alive hv.1
    obtain ⟨l, rfl⟩ := stk_of_alive hv.2.1
    exact hd _ (hK (sim_moveAssign Keep.stable k l))
  | swap v t =>
    obtain rfl := hm
    obtain ⟨k, rfl⟩ := stk_of_alive hv.1
    obtain ⟨l, rfl⟩ := stk_of_alive hv.2
    exact hd _ (hK (sim_swap Keep.stable k l))
  | destroy v =>
    obtain rfl := hm
    obtain ⟨k, rfl⟩ := stk_of_alive hv
    exact hd _ (hK (sim_destroyVec Keep.stable k))

/-! ### Preconditions -/

/-- The preconditions in terms of the sizes of the vectors. -/
theorem valid_lift (h : NInv E s σ) {c : Call} {c' : VC.Call A} (hv : VC.Valid s.o c.addr)
    {f : Ptr → Option A} (hm : c.Means E.blank f c') {w : W A} (hi : @VC.Inv A (valueSize A) w (lift (E.val s.i) σ)) :
    @VC.Valid A (valueSize A) w c' := by
  letI := valueSize A
  have hl : ∀ {v : Ptr} {x : Vec.Vec Ptr}, σ v = some x → lift (E.val s.i) σ v = some ⟨x.alloc, x.start, x.els.filterMap (E.val s.i), x.cap⟩ := by
    intro v x hx; simp [lift, hx]
  have hn : ∀ {v : Ptr} {x : Vec.Vec Ptr}, σ v = some x → (x.els.filterMap (E.val s.i)).length = x.els.length :=
    fun hx => length_live fun q hq => h.live _ _ _ hx hq
  have ha : ∀ {v : Ptr}, VC.Alive s.o v → VC.Alive w v := by
    intro v hv
    obtain ⟨x, hx⟩ := (VC.alive_iff h.outer).1 hv
    exact (VC.alive_iff hi).2 ⟨_, hl hx⟩
  have hc : ∀ {v : Ptr} {L : List Ptr}, VC.Alive s.o v → VC.Contents s.o v L → ∃ L' : List A, VC.Contents w v L' ∧ L'.length = L.length := by
    intro v L hv hL
    obtain ⟨x, hx⟩ := (VC.alive_iff h.outer).1 hv
    obtain rfl := (VC.contents_iff h.outer hx).1 hL
    exact ⟨_, (VC.contents_iff hi (hl hx)).2 rfl, hn hx⟩
  have hspare : ∀ {v : Ptr}, VC.Alive s.o v → VC.Spare s.o v → VC.Spare w v := by
    intro v hv hs
    obtain ⟨x, hx⟩ := (VC.alive_iff h.outer).1 hv
    refine (VC.spare_iff hi (hl hx)).2 ?_
    simp only [hn hx]
    exact (VC.spare_iff h.outer hx).1 hs
  have harg : ∀ {a : CArg} {b : VC.CArg A}, a.Means E.blank f b → VC.ArgOk s.o a.addr → VC.ArgOk w b := by
    intro a b hab hok
    cases a <;> cases b <;> first | exact hab.elim | trivial | skip
    obtain ⟨rfl, rfl⟩ := hab
    obtain ⟨h1, L, h2, h3⟩ := hok
    obtain ⟨L', h4, h5⟩ := hc h1 h2
    exact ⟨ha h1, L', h4, by omega⟩
  have hfor : ∀ {v : Ptr} {a : CArg} {b : VC.CArg A}, a.Means E.blank f b → VC.Foreign v a.addr → VC.Foreign v b := by
    intro v a b hab hok
    cases a <;> cases b <;> first | exact hab.elim | trivial | skip
    obtain ⟨rfl, rfl⟩ := hab
    exact hok
  cases c with
  | create a => obtain rfl := hm; trivial
  | pushBack v a =>
    obtain ⟨b, hb, rfl⟩ := hm
    exact ⟨ha hv.1, harg hb hv.2.1, hv.2.2.imp (hfor hb) (hspare hv.1)⟩
  | pushMove v t =>
    obtain ⟨x, hx, rfl⟩ := hm
    exact ⟨ha hv.1, trivial, .inl trivial⟩
  | clear v => obtain rfl := hm; exact ha hv
  | reserve v n => obtain rfl := hm; exact ⟨ha hv.1, hv.2⟩
  | shrink v => obtain rfl := hm; exact ha hv
  | resize v n a =>
    obtain ⟨b, hb, rfl⟩ := hm
    obtain ⟨h1, h2, h3, h4⟩ := hv
    refine ⟨ha h1, harg hb h2, h3, h4.imp (hfor hb) ?_⟩
    rintro ⟨L, h5, h6⟩
    obtain ⟨L', h7, h8⟩ := hc h1 h5
    exact ⟨L', h7, by omega⟩
  | assignN v n a =>
    obtain ⟨b, hb, rfl⟩ := hm
    exact ⟨ha hv.1, harg hb hv.2.1, hv.2.2⟩
  | assignObjs v ts =>
    obtain ⟨xs, hx, rfl⟩ := hm
    refine ⟨ha hv.1, ?_⟩
    have := congrArg List.length hx
    simp only [List.length_map] at this
    have h2 : VC.Countable Ptr ts.length := hv.2
    rw [this] at h2
    exact h2
  | assignSub v t i n =>
    obtain rfl := hm
    obtain ⟨h1, h2, L, h3, h4⟩ := hv
    obtain ⟨L', h5, h6⟩ := hc h2 h3
    exact ⟨ha h1, ha h2, L', h5, by omega⟩
  | copy d v => obtain rfl := hm; exact ⟨ha hv.1, ha hv.2⟩
  | move v => obtain rfl := hm; exact ha hv
  | moveAssign v t =>
    obtain rfl := hm
    obtain ⟨h1, h2, h3⟩ := hv
    obtain ⟨x, hx⟩ := (VC.alive_iff h.outer).1 h1
    obtain ⟨y, hy⟩ := (VC.alive_iff h.outer).1 h2
    refine ⟨ha h1, ha h2, h3.imp id (Or.imp ?_ ?_)⟩
    · intro h4
      exact (VC.hasData_iff hi (hl hy)).2 ((VC.hasData_iff h.outer hy).1 h4)
    · intro h4
      exact (VC.sameAlloc_iff hi (hl hx) (hl hy)).2 ((VC.sameAlloc_iff h.outer hx hy).1 h4)
  | swap v t => obtain rfl := hm; exact ⟨ha hv.1, ha hv.2⟩
  | destroy v => obtain rfl := hm; exact ha hv

/-- The sequences of values. -/
def seqs (E : Elem S A X) (i : S) (σ : Sg Ptr) : VC.AState A := VC.abs (lift (E.val i) σ)

/-- The effect of a call. -/
theorem NInv.step (h : NInv E s σ) (he : s.o.err = none) {c : Call} {c' : VC.Call A} (hv : VC.Valid s.o c.addr)
    (hm : c.Means E.blank (outside E s).1 c') :
    ∃ r s' σ', Runs (exec E.toElemOps c) s r s' ∧ NInv E s' σ' ∧ Effect E (outside E s) c s' ∧
      VC.Spec (seqs E s.i σ) c' r s'.o.err.isSome (seqs E s'.i σ') := by
  letI := valueSize A
  have hall : ∀ cc, wp (VC.exec c') (oracle (absW E s) cc) (VC.FPost (oracle (absW E s) cc) (VO.lift (E.val s.i) σ) c') := by
    intro cc
    have hi : VC.Inv (oracle (absW E s) cc) (VO.lift (E.val s.i) σ) := ⟨h.lift.st, h.lift.top⟩
    exact VC.exec_fsim hi he (valid_lift h hv hm hi)
  obtain ⟨r, s', w', h1, h2, h3, h4, h5, h6⟩ := sim_exec hv hm s (absW E s) h.rel ⟨rfl, he⟩ (fun cc _ => by
    obtain ⟨r, w', h1, -⟩ := (hall cc).runs
    exact ⟨r, w', h1⟩)
  have h7 := h6 w'.env.ctor fun _ _ => rfl
  obtain ⟨τ, h8, h9, -, -⟩ := h7.wp (hall _)
  obtain ⟨σ', h10, rfl⟩ := NInv.of_rel h2 h8
  refine ⟨r, s', σ', h1, h10, h3, ?_⟩
  have h11 : w'.err.isSome = s'.o.err.isSome := h2.err
  rw [← h11]
  exact h9

end Nestl.VO
