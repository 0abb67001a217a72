import Verif.SharedPtr.Props2
import Verif.StaleError
set_option autoImplicit false
/-
C55 (objects with weak pointers to themselves), C56 (advancing along a chain), C57 (make_shared), C58
(self-assignment), C64 (allocator of make_shared) and C45 for make_shared.
-/
namespace Nestl.SP

variable {V : Type} {w : W V} {l m : Loc} {b : Ptr}

/-! ### C55 -/

/-- Destruction of the members of a block that is gone, or of its object, cannot succeed. -/
theorem destroyValue_tail_faults {b : Ptr} (hbn : b ≠ .null) (i : Nat) {w : W V} (hb : w.heap b = none) :
    Faults (do destroyMembers b i; endObj b) w .wild := by
  cases i with
  | zero =>
    rw [destroyMembers.eq_def]
    refine wp.faults_bind ?_
    show wp (pure ()) w _
    rw [wp_pure]
    unfold endObj rdBlk
    refine Faults.bind (Faults.bind ?_)
    unfold Faults rd
    rw [if_neg hbn, hb]
  | succ i =>
    rw [destroyMembers.eq_def]
    refine Faults.bind (Faults.bind ?_)
    unfold takeMem rdBlk
    refine Faults.bind (Faults.bind ?_)
    unfold Faults rd
    rw [if_neg hbn, hb]

theorem Faults.bind_of_bind {σ α β γ : Type} {m : M σ α} {f : α → M σ β} {g : β → M σ γ} {s : σ} {e : Fault}
    (h : Faults (m >>= f) s e) : Faults (m >>= fun a => f a >>= g) s e := by
  have := Faults.bind (k := g) h
  rwa [bind_assoc] at this

/-- The destructor of an object whose only weak reference is a member of the object itself. -/
theorem destroyMembers_self_faults {b : Ptr} {a : Nat} (hba : b = .dyn a) (i : Nat) :
    ∀ (n : Nat) (w : W V) (c : Blk V) (o : Obj V), w.heap b = some (.blk c) → c.obj = some o → c.use = 0 → c.weak = 1 →
      c.owner = defaultAlloc → o.mem[i]? = some (.wk, ⟨b, b⟩) → (∀ j k z, o.mem[j]? = some (k, z) → j ≠ i → z.ref = .null) →
      o.mem.length = n → Faults (do destroyMembers b n; endObj b) w .wild := by
  have hbn : b ≠ .null := by rw [hba]; intro h; cases h
  intro n
  induction n with
  | zero =>
    intro w c o _ _ _ _ _ h2 _ h4
    rw [List.getElem?_eq_none (by omega)] at h2; cases h2
  | succ n ih =>
    intro w c o hb ho hu hw how hi hother hlen
    obtain ⟨m, hm⟩ : ∃ m, o.mem[n]? = some m := ⟨_, List.getElem?_eq_getElem (by omega)⟩
    rw [destroyMembers.eq_def]
    simp only [bind_assoc]
    refine wp.faults_bind ?_
    rw [wp_takeMem hb ho hbn hm]
    by_cases hni : n = i
    · subst hni
      rw [hm] at hi; cases hi
      simp only [if_neg hbn]
      rw [bind_assoc]
      refine wp.faults_bind ?_
      rw [wp_weakRelease_exact (c := ⟨c.use, c.weak, some ⟨o.val, o.mem.take n⟩, c.owner⟩) (upd_same ..) hba how (by simp [hw])]
      refine destroyValue_tail_faults hbn n ?_
      show upd _ _ _ _ = _
      rw [upd_same]
      unfold wrel
      rw [if_pos (by simp [hw, hu])]
    · have hnull : m.2.ref = .null := hother n m.1 m.2 hm hni
      simp only [if_pos hnull]
      show Faults (do destroyMembers b n; endObj b) _ _
      have hin : i < n := by
        have : i < o.mem.length := by
          apply Classical.byContradiction; intro h
          rw [List.getElem?_eq_none (by omega)] at hi; cases hi
        omega
      refine ih _ _ { o with mem := o.mem.take n } (upd_same ..) rfl hu hw how ?_ ?_ (by simp; omega)
      · show (o.mem.take n)[i]? = _
        rw [List.getElem?_take_of_lt hin]; exact hi
      · intro j k z hj hji
        by_cases hjn : j < n
        · exact hother j k z (by rwa [show ({ o with mem := o.mem.take n } : Obj V).mem[j]? = _ from List.getElem?_take_of_lt hjn] at hj) hji
        · rw [List.getElem?_eq_none (by simp; omega)] at hj; cases hj

/-- C55 is violated: destroying the last owner of an object with a `weak_ptr` member that is the only `weak_ptr` to the
object itself (its other members being empty) uses the control block after freeing it. -/
theorem self_weak_violated {p : Ptr} {i : Nat} (hr : Reach w) (h : Refers w .sh (.var p) b)
    (hsole : ∀ m, Refers w .sh m b → m = .var p) (hself : Refers w .wk (.mem b i) b)
    (hsolew : ∀ m, Refers w .wk m b → m = .mem b i) (hother : ∀ k j, Has (At w.heap) k (.mem b j) → j ≠ i → Empty w k (.mem b j)) :
    Faults (exec (.dropShared p)) (ready w) .wild := by
  have ho := hr.ok
  have hx := ho.refers h
  have hn0 : w.heap .null = none := ho.g.null
  have hs := ho.refers hself
  obtain ⟨c, o, hc, hobj, hmi⟩ := hs
  obtain ⟨hu, hw, -, -⟩ := ho.counts hc
  have huse : c.use = 1 := by
    refine hu.unique ⟨[.var p], by simp, ?_, rfl⟩
    intro m
    constructor
    · intro hm; simp at hm; subst hm; exact h
    · intro hm; simp; exact hsole _ hm
  have hweak : c.weak = 1 := by
    refine hw.unique ⟨[.mem b i], by simp, ?_, rfl⟩
    intro m
    constructor
    · intro hm; simp at hm; subst hm; exact hself
    · intro hm; simp; exact hsolew _ hm
  obtain ⟨dom, hi⟩ := ho.g.inv
  obtain ⟨a, ha⟩ := hi.shBlk _ _ hc
  have how := hi.owner _ _ hc
  obtain ⟨hbn, -⟩ := h
  have hpb : b ≠ p := by rintro rfl; rw [show w.heap b = _ from hx] at hc; cases hc
  refine Faults.bind (m := dropShared p) ?_
  unfold dropShared
  refine wp.faults_bind ?_
  rw [wp_getH (w := ready w) hx hn0]
  refine wp.faults_bind ?_
  rw [wp_dropObj (w := ready w) hx]
  refine Faults.if_neg hbn ?_
  have hb2 : upd w.heap p none b = some (.blk c) := by rw [upd_other _ _ hpb]; exact hc
  rw [release.eq_def]
  refine wp.faults_bind ?_
  rw [wp_rdBlk (c := c) hb2 hbn]
  refine wp.faults_bind ?_
  rw [wp_assertM]
  refine ⟨by simp [huse], ?_⟩
  refine wp.faults_bind ?_
  rw [wp_setBlk (c := c) hb2 hbn]
  refine Faults.if_pos (by omega) ?_
  refine Faults.bind ?_
  rw [destroyValue.eq_def]
  refine wp.faults_bind ?_
  rw [wp_rdObj (c := { c with use := c.use - 1 }) (o := o) (upd_same ..) hobj hbn]
  refine destroyMembers_self_faults ha i _ _ { c with use := c.use - 1 } o (upd_same ..) hobj (by simp [huse]) hweak how hmi ?_ rfl
  intro j k z hj hji
  have := hother k j ⟨z, c, o, hc, hobj, hj⟩ hji
  obtain ⟨c', o', f1, f2, f3⟩ := this
  rw [hc] at f1; cases f1; rw [hobj] at f2; cases f2; rw [hj] at f3; cases f3; rfl

namespace Demo

/-- An object with a `weak_ptr` to itself. -/
def e1 : W Nat := go (.makeShared 0 10 [.sh, .wk]) (start env)
def e2 : W Nat := go (.assignWeak .sh (.mem a 1) (.var sa)) e1

theorem re2 : Reach e2 :=
  .step (c := .assignWeak .sh (.mem a 1) (.var sa)) (r := none)
    (.step (c := .makeShared 0 10 [.sh, .wk]) (r := some sa) (.start env) trivial rfl)
    ⟨⟨.nil, _, _, rfl, rfl, rfl⟩, ⟨⟨a, a⟩, (by rfl)⟩, fun h => nomatch h⟩ rfl

theorem e2_all {k : Kind} {m : Loc} {z : Hnd} (h : At e2.heap k m z) :
    (k = .sh ∧ m = .var sa ∧ z = ⟨a, a⟩) ∨ (k = .wk ∧ m = .mem a 1 ∧ z = ⟨a, a⟩) ∨ (k = .sh ∧ m = .mem a 0 ∧ z = .nil) := by
  cases m with
  | var p =>
    have h : e2.heap p = some (.var k z) := h
    rcases p with _ | i | i
    · cases h
    · rcases i with _ | i
      · cases h; exact .inl ⟨rfl, rfl, rfl⟩
      · cases h
    · rcases i with _ | i <;> cases h
  | mem x i =>
    obtain ⟨c, o, h1, h2, h3⟩ := h
    rcases x with _ | j | j
    · cases h1
    · rcases j with _ | j <;> cases h1
    · rcases j with _ | j
      · cases h1; cases h2
        rcases i with _ | _ | i <;> cases h3
        · exact .inr (.inr ⟨rfl, rfl, rfl⟩)
        · exact .inr (.inl ⟨rfl, rfl, rfl⟩)
      · cases h1

end Demo

example : ∃ (w : W Nat) (p b : Ptr) (i : Nat), Reach w ∧ Refers w .sh (.var p) b ∧ (∀ m, Refers w .sh m b → m = .var p) ∧
    Refers w .wk (.mem b i) b ∧ (∀ m, Refers w .wk m b → m = .mem b i) ∧
    (∀ k j, Has (At w.heap) k (.mem b j) → j ≠ i → Empty w k (.mem b j)) := by
  refine ⟨Demo.e2, Demo.sa, Demo.a, 1, Demo.re2, ⟨by simp, _, rfl, rfl⟩, ?_, ⟨by simp, _, ⟨_, _, rfl, rfl, rfl⟩, rfl⟩, ?_, ?_⟩
  · rintro m ⟨-, z, hz, e⟩
    rcases Demo.e2_all hz with ⟨-, rfl, -⟩ | ⟨h, -⟩ | ⟨-, -, rfl⟩
    · rfl
    · cases h
    · cases e
  · rintro m ⟨-, z, hz, e⟩
    rcases Demo.e2_all hz with ⟨h, -⟩ | ⟨-, rfl, -⟩ | ⟨h, -⟩
    · cases h
    · rfl
    · cases h
  · rintro k j ⟨z, hz⟩ hj
    rcases Demo.e2_all hz with ⟨-, h, -⟩ | ⟨-, h, -⟩ | ⟨rfl, h, rfl⟩
    · cases h
    · cases h; exact (hj rfl).elim
    · exact hz

/-- C55, missing: graphs that are not `Calm` (see the violations).  If every object that owns, directly or through other
objects, a `weak_ptr` to itself is also referred to by a `weak_ptr` variable, dropping a variable is safe: the call
returns, and afterwards objects and control blocks exist exactly as far as handles refer to them. -/
theorem self_weak_partial {p : Ptr} (hr : Reach w) (h : Has (At w.heap) .sh (.var p)) (hc : Calm (Hs.del (At w.heap) (.var p))) :
    ∃ w', Runs (exec (.dropShared p)) (ready w) none w' ∧ Reach w' ∧
      (∀ b, Alive w' b ↔ ∃ l, Refers w' .sh l b) ∧ (∀ b, Block w' b ↔ ∃ k l, Refers w' k l b) := by
  have hval : Valid w (.dropShared p) := ⟨h, hc⟩
  obtain ⟨r, w', h1, h2, h3⟩ := call_effect hr hval
  obtain ⟨-, -, A1, hm, -⟩ := h3
  cases r with
  | some q => exact hm.elim
  | none => exact ⟨w', h1, h2, h2.ok.alive_iff, h2.ok.block_iff⟩

example : Reach Demo.d5 ∧ Has (At Demo.d5.heap) .sh (.var Demo.sa) ∧ Calm (Hs.del (At Demo.d5.heap) (.var Demo.sa)) ∧
    Refers Demo.d5 .wk (.mem Demo.b 1) Demo.a ∧ Refers Demo.d5 .sh (.mem Demo.a 0) Demo.b :=
  ⟨Demo.r5, ⟨_, rfl⟩, Demo.calm_del _ (by simp), Demo.facts.2.2.2.1, Demo.facts.2.2.1⟩

/-- Without non-empty `weak_ptr` members, every drop, reset and assignment of `shared_ptr`s is valid: no destruction of
any ownership graph, cyclic or not, can go wrong. -/
theorem no_weak_members_safe (hw : ∀ x i, ∀ z, At w.heap .wk (.mem x i) z → z.ref = .null) :
    (∀ p, Has (At w.heap) .sh (.var p) → Valid w (.dropShared p)) ∧ (∀ l, Has (At w.heap) .sh l → Valid w (.resetShared l)) ∧
    (∀ l m, Has (At w.heap) .sh l → Has (At w.heap) .sh m → Valid w (.assignShared l m)) := by
  have calm : ∀ A : Hs, (∀ x i z, A .wk (.mem x i) z → At w.heap .wk (.mem x i) z) → Calm A := by
    intro A hA b x i z hb _ hz e
    rw [hw x i z (hA _ _ _ hz)] at e; exact (hb e.symm).elim
  have put : ∀ l y, ∀ x i z, Hs.put (At w.heap) .sh l y .wk (.mem x i) z → At w.heap .wk (.mem x i) z := by
    intro l y x i z hz
    unfold Hs.put at hz
    split at hz
    · cases hz.1
    · exact hz
  exact ⟨fun p h => ⟨h, calm _ fun _ _ _ h => h.2⟩, fun l h => ⟨h, calm _ (put _ _)⟩,
    fun l m h h' => ⟨h, h', fun y _ _ => calm _ (put _ _)⟩⟩

example : Reach Demo.d2 ∧ (∀ x i, ∀ z, At Demo.d2.heap .wk (.mem x i) z → z.ref = .null) ∧ Has (At Demo.d2.heap) .sh (.var Demo.sa) :=
  ⟨Demo.r2, Demo.wk2, ⟨_, rfl⟩⟩

/-! ### C56 -/

/-- C56, copy form (missing: move form, see below, and graphs excluded by `Calm`): assigning to a variable from a member
of the object it owns makes it own what the member owned; everything still owned stays alive. -/
theorem advance_copy_partial {p : Ptr} {i : Nat} {y : Hnd} (hr : Reach w) (h : Refers w .sh (.var p) b)
    (hy : At w.heap .sh (.mem b i) y) (hc : Calm (Hs.put (At w.heap) .sh (.var p) y)) :
    ∃ w', Runs (exec (.assignShared (.var p) (.mem b i))) (ready w) none w' ∧ Reach w' ∧ At w'.heap .sh (.var p) y ∧
      (y.ref ≠ .null → ∀ v, Val w.heap y.ref v → Val w'.heap y.ref v) ∧
      ((∀ m, Refers w .sh m b → m = .var p) → y.ref ≠ b → ¬ Alive w' b) := by
  have hval : Valid w (.assignShared (.var p) (.mem b i)) := by
    refine ⟨⟨_, hr.ok.refers h⟩, ⟨y, hy⟩, ?_⟩
    intro y' hy' _
    rw [← (hy.det hy').2]; exact hc
  obtain ⟨r, w', A1, h1, h2, h3, h4⟩ := destroys_exactly_doomed_partial hr hval (by intros; simp)
  cases r with
  | some q => exact h2.elim
  | none =>
    obtain ⟨y', hy', rfl⟩ := h2
    obtain ⟨-, rfl⟩ := hy.det hy'
    refine ⟨w', h1, .step hr hval h1, ?_, ?_, ?_⟩
    · exact (h4 _ _ _).2 ⟨Hs.put_self _ _ _ _, by intro _ _ e; cases e⟩
    · intro hn v hv
      refine (h3 _ _).2 ⟨hv, ?_⟩
      rintro ⟨f1, -⟩
      exact f1 p y (Hs.put_self _ _ _ _) rfl
    · rintro hs hyb ⟨v, hv⟩
      refine ((h3 _ _).1 hv).2 (.intro ?_ ?_)
      · intro q z hz e
        unfold Hs.put at hz
        split at hz
        · rw [hz.2] at e; exact hyb e
        · rename_i hq
          exact hq (hs _ ⟨h.1, z, hz, e⟩)
      · intro x j z hz e
        rw [Hs.put, if_neg (by intro h; cases h)] at hz
        cases hs _ ⟨h.1, z, hz, e⟩

example : Reach Demo.d5 ∧ Refers Demo.d5 .sh (.var Demo.sa) Demo.a ∧ At Demo.d5.heap .sh (.mem Demo.a 0) ⟨Demo.b, Demo.b⟩ ∧
    Calm (Hs.put (At Demo.d5.heap) .sh (.var Demo.sa) ⟨Demo.b, Demo.b⟩) :=
  ⟨Demo.r5, Demo.facts.1, ⟨_, _, rfl, rfl, rfl⟩, Demo.calm_put _ _ (by simp)⟩

/-- Reading a member of an object that is not alive is undefined. -/
theorem getH_dead {k : Kind} {i : Nat} (hb : b ≠ .null) (hd : ∀ v, ¬ Val w.heap b v) :
    ∃ f, Faults (getH k (.mem b i)) w f ∧ (f = .wild ∨ f = .rawRead) := by
  cases hh : w.heap b with
  | none =>
    refine ⟨.wild, ?_, .inl rfl⟩
    unfold getH rdObj rdBlk
    refine Faults.bind (Faults.bind (Faults.bind ?_))
    unfold Faults rd
    rw [if_neg hb, hh]
  | some c =>
    cases c with
    | blk c =>
      cases ho : c.obj with
      | some o => exact (hd o.val ⟨c, o, hh, ho, rfl⟩).elim
      | none =>
        refine ⟨.rawRead, ?_, .inr rfl⟩
        unfold getH rdObj
        refine Faults.bind (wp.faults_bind ?_)
        rw [wp_rdBlk hh hb]
        simp only [ho]; rfl
    | var k' x =>
      refine ⟨.wild, ?_, .inl rfl⟩
      unfold getH rdObj rdBlk
      refine Faults.bind (Faults.bind (wp.faults_bind ?_))
      rw [wp_rd hh hb]; rfl
    | raw x =>
      refine ⟨.wild, ?_, .inl rfl⟩
      unfold getH rdObj rdBlk
      refine Faults.bind (Faults.bind (wp.faults_bind ?_))
      rw [wp_rd hh hb]; rfl
    | lost =>
      refine ⟨.wild, ?_, .inl rfl⟩
      unfold getH rdObj rdBlk
      refine Faults.bind (Faults.bind (wp.faults_bind ?_))
      rw [wp_rd hh hb]; rfl

/-- C56 is violated for the move form: if `p` is the only owner of the object, `p = std::move(p->next)` destroys the
object first and then reads its member. -/
theorem advance_move_violated {p : Ptr} {i : Nat} (hr : Reach w) (h : Refers w .sh (.var p) b)
    (hsole : ∀ m, Refers w .sh m b → m = .var p) (hc : Calm (Hs.put (At w.heap) .sh (.var p) .nil)) :
    ∃ f, Faults (exec (.moveAssignShared (.var p) (.mem b i))) (ready w) f ∧ (f = .wild ∨ f = .rawRead) := by
  have ho := hr.ok
  have s : G (At w.heap) (Val w.heap) (ready w) := ho.ready.g
  have hx := ho.refers h
  have hbn := h.1
  have hdoom : Doomed (Hs.put (At w.heap) .sh (.var p) .nil) b := by
    refine .intro ?_ ?_
    · intro q z hz e
      unfold Hs.put at hz
      split at hz
      · rw [hz.2] at e; exact hbn e.symm
      · rename_i hq
        exact hq (hsole _ ⟨hbn, z, hz, e⟩)
    · intro x j z hz e
      rw [Hs.put, if_neg (by intro h; cases h)] at hz
      cases hsole _ ⟨hbn, z, hz, e⟩
  have key : wp (do
      let tmp ← moveShared (V := V) (.var p)
      dropShared tmp) (ready w) fun _ w' => ∀ v, ¬ Val w'.heap b v := by
    rw [wp_bind]
    refine St.wp_moveShared s hx ?_
    intro w1 f1 k1 hn hne s1
    have e : ((Hs.put (At w.heap) .sh (.var p) .nil).put .sh (.var (.stk (ready w).sp)) ⟨b, b⟩).del (.var (.stk (ready w).sp)) =
        Hs.put (At w.heap) .sh (.var p) .nil := by
      rw [Hs.put_del]
      intro k z hz
      rw [Hs.put, if_neg hne] at hz; exact hn _ _ hz
    refine wp_mono (St.wp_dropShared s1 (Hs.put_self _ _ _ _) (fun h => ⟨h, .var p, ⟨b, b⟩, hx, rfl⟩) (by rw [e]; exact hc)) ?_
    rintro _ w2 ⟨f2, A', B', he, s2⟩ v hv
    rw [e] at he
    rw [s2.val] at hv
    exact he.not_doomed s2 hv hdoom
  obtain ⟨u, w2, h1, h2⟩ := key.runs
  obtain ⟨f, h3, h4⟩ := getH_dead (w := w2) (k := .sh) (i := i) hbn h2
  refine ⟨f, ?_, h4⟩
  refine Faults.bind (m := moveAssignShared (.var p) (.mem b i)) ?_
  have : moveAssignShared (V := V) (.var p) (.mem b i) = (do
      let _ ← (do
        let tmp ← moveShared (V := V) (.var p)
        dropShared tmp)
      let o ← getH .sh (.mem b i)
      let h ← getH .sh (.var p)
      setH .sh (.var p) { h with ptr := o.ptr }
      let o ← getH .sh (.mem b i)
      setH .sh (.mem b i) { o with ptr := .null }
      let o ← getH .sh (.mem b i)
      let h ← getH .sh (.var p)
      setH .sh (.var p) { h with ref := o.ref }
      let o ← getH .sh (.mem b i)
      setH .sh (.mem b i) { o with ref := .null }) := by
    unfold moveAssignShared
    simp only [bind_assoc]
  rw [this]
  exact wp.faults_bind (wp_iff_runs.2 ⟨u, w2, h1, Faults.bind h3⟩)

example : Reach Demo.d5 ∧ Refers Demo.d5 .sh (.var Demo.sa) Demo.a ∧ (∀ m, Refers Demo.d5 .sh m Demo.a → m = .var Demo.sa) ∧
    Calm (Hs.put (At Demo.d5.heap) .sh (.var Demo.sa) .nil) := by
  refine ⟨Demo.r5, Demo.facts.1, ?_, Demo.calm_put _ _ (by simp)⟩
  rintro m ⟨-, z, hz, e⟩
  cases m with
  | mem x i =>
    obtain ⟨c, o, h1, h2, h3⟩ := hz
    rcases Demo.blk5 h1 with rfl | rfl
    all_goals
      cases h1; cases h2
      rcases i with _ | _ | i <;> cases h3
      cases e
  | var p =>
    have hz : Demo.d5.heap p = some (.var .sh z) := hz
    rcases p with _ | i | i
    · cases hz
    · rcases i with _ | _ | _ | _ | i
      · rfl
      · cases hz; cases e
      · cases hz
      · cases hz
      · cases hz
    · rcases i with _ | _ | i <;> cases hz

/-! ### C57 -/

/-- C57, missing: after a failed construction the destructor of the control block is not run, see
`make_shared_ctor_failure_violated`.  If `make_shared` reports an error - precisely when memory is refused or the
construction of the object fails - the result is empty, all memory from the allocator is as before, and the only cells
that are new are the result and perhaps the mark of the control block that was not destroyed.  Otherwise the result is
the only owner of a new object with the given value in a new control block. -/
theorem make_shared_partial (hr : Reach w) (al : Nat) (v : V) (ks : List Kind) :
    ∃ p w', Runs (exec (.makeShared al v ks)) (ready w) (some p) w' ∧ Reach w' ∧ w.heap p = none ∧
      (w'.err ≠ none ↔ Refused w) ∧
      (w'.err ≠ none → Empty w' .sh (.var p) ∧ (∀ d, w'.heap (.dyn d) = w.heap (.dyn d)) ∧
        (∀ q c, w.heap q = some c → w'.heap q = some c) ∧
        (∀ q, w'.heap q ≠ none → w.heap q ≠ none ∨ q = p ∨ w'.heap q = some .lost)) ∧
      (w'.err = none → ∃ b, w.heap b = none ∧ Refers w' .sh (.var p) b ∧ Val w'.heap b v ∧ Runs (useCount (.var p)) w' 1 w') := by
  have s : G (At w.heap) (Val w.heap) (ready w) := hr.ok.ready.g
  obtain ⟨p, w', h1, h2⟩ := (wp_makeShared s rfl al v ks).runs
  have hrun : Runs (exec (.makeShared al v ks)) (ready w) (some p) w' := by
    apply runs_of_wp
    refine wp_some ?_
    exact wp_iff_runs.2 ⟨p, w', h1, rfl, rfl⟩
  have hreach : Reach w' := .step (c := .makeShared al v ks) hr trivial hrun
  refine ⟨p, w', hrun, hreach, ?_, ?_, ?_, ?_⟩
  · rcases h2 with ⟨a, h2⟩ | h2
    · rw [h2.var]; exact s.fresh _ (Nat.le_refl _)
    · obtain ⟨i, rfl, hi⟩ := h2.var; exact s.fresh _ hi
  · rcases h2 with ⟨a, h2⟩ | h2
    · refine ⟨fun h => (h h2.err).elim, ?_⟩
      rintro (h | h)
      · exact (h a h2.addr h2.free).elim
      · rw [show w.env.ctor w.nCtor = true from h2.ctor] at h; cases h
    · exact ⟨fun _ => h2.refused, fun _ => h2.err⟩
  · intro he
    rcases h2 with ⟨a, h2⟩ | h2
    · exact (he h2.err).elim
    · refine ⟨?_, h2.dyn, h2.keep, h2.new⟩
      show At w'.heap .sh (.var p) .nil
      rw [h2.g.at_]; exact Hs.put_self _ _ _ _
  · intro he
    rcases h2 with ⟨a, h2⟩ | h2
    · have hat : At w'.heap .sh (.var p) ⟨.dyn a, .dyn a⟩ := by rw [h2.g.at_]; exact Hs.put_self _ _ _ _
      have href : Refers w' .sh (.var p) (.dyn a) := .of_at (by simp) hat
      refine ⟨.dyn a, h2.free, href, by rw [h2.g.val]; exact .inr ⟨rfl, rfl⟩, ?_⟩
      have ho := hreach.ok
      obtain ⟨c, hc⟩ := ho.block href
      obtain ⟨hu, -⟩ := ho.counts hc
      have hone : c.use = 1 := by
        refine hu.unique ⟨[.var p], by simp, ?_, rfl⟩
        intro m
        constructor
        · intro hm; simp at hm; subst hm; exact href
        · rintro ⟨-, z, hz, e⟩
          rw [h2.g.at_] at hz
          unfold Hs.put at hz
          split at hz
          · rename_i hm; simp [hm]
          · rcases hz with hz | ⟨i, -, -, rfl⟩
            · obtain ⟨c, hc⟩ := s.target hz (by rw [e]; simp)
              rw [e, h2.free] at hc; cases hc
            · cases e
      apply runs_of_wp
      unfold useCount blkUseCount
      rw [wp_bind, wp_getH hat ho.g.null, if_neg (by simp), wp_bind, wp_rdBlk hc (by simp)]
      exact ⟨hone, rfl⟩
    · exact (h2.err he).elim

example : Reach Demo.d5 ∧ ¬ Refused Demo.d5 ∧ Reach (start (V := Nat) { Demo.env with addr := fun _ => none }) ∧
    Refused (start (V := Nat) { Demo.env with addr := fun _ => none }) := by
  refine ⟨Demo.r5, ?_, .start _, .inl (fun a h => nomatch h)⟩
  rintro (h | h)
  · exact h 2 rfl rfl
  · cases h

/-- C57 is violated: if memory is available but the construction of the object fails, a control block that has been
constructed disappears without its destructor having been called. -/
theorem make_shared_ctor_failure_violated (hr : Reach w) (al : Nat) (v : V) (ks : List Kind) {a : Nat}
    (ha : w.env.addr w.nAlloc = some a) (hfree : w.heap (.dyn a) = none) (hctor : w.env.ctor w.nCtor = false) :
    ∃ p w', Runs (exec (.makeShared al v ks)) (ready w) (some p) w' ∧ ∃ q, w'.heap q = some .lost ∧ w.heap q ≠ some .lost := by
  have s : G (At w.heap) (Val w.heap) (ready w) := hr.ok.ready.g
  obtain ⟨p, w', h1, h2⟩ := (wp_makeShared s rfl al v ks).runs
  refine ⟨p, w', ?_, ?_⟩
  · apply runs_of_wp
    refine wp_some ?_
    exact wp_iff_runs.2 ⟨p, w', h1, rfl, rfl⟩
  · rcases h2 with ⟨a', h2⟩ | h2
    · rw [show w.env.ctor w.nCtor = true from h2.ctor] at hctor; cases hctor
    · exact h2.lost.2 (fun h => h a ha hfree)

/-- Memory is available, the second construction fails. -/
def Demo.env2 : Env (Cell Nat) := { Demo.env with ctor := fun n => n != 1 }

example : ∃ w : W Nat, Reach w ∧ w.env.addr w.nAlloc = some 1 ∧ w.heap (.dyn 1) = none ∧ w.env.ctor w.nCtor = false ∧ Alive w (.dyn 0) :=
  ⟨Demo.go (.makeShared 5 10 [.sh, .wk]) (start Demo.env2),
    .step (c := .makeShared 5 10 [.sh, .wk]) (r := some Demo.sa) (.start Demo.env2) trivial rfl, rfl, rfl, rfl, ⟨10, _, _, rfl, rfl, rfl⟩⟩

/-! ### C58 -/

/-- C58: self-assignment of a `shared_ptr` does nothing at all. -/
theorem self_assign_noop (w : W V) (l : Loc) : Runs (exec (.assignShared l l)) (ready w) none (ready w) := by
  show (do assignShared l l; pure none : M (W V) (Option Ptr)) (ready w) = _
  unfold assignShared
  rw [if_neg (by simp)]
  rfl

example : Reach Demo.d5 ∧ Refers Demo.d5 .sh (.var Demo.sa) Demo.a := ⟨Demo.r5, Demo.facts.1⟩

/-- C58, missing: objects excluded by `Calm` (C55).  Self-move of a `shared_ptr` returns and leaves it empty; the other
handles and the other owned objects are untouched. -/
theorem self_move_partial (hr : Reach w) (h : Has (At w.heap) .sh l) (hroot : LocRooted (At w.heap) l)
    (hc : Calm (Hs.put (At w.heap) .sh l .nil)) :
    ∃ w', Runs (exec (.moveAssignShared l l)) (ready w) none w' ∧ Reach w' ∧ Empty w' .sh l ∧
      (∀ b v, Val w'.heap b v ↔ Val w.heap b v ∧ ¬ Doomed (Hs.put (At w.heap) .sh l .nil) b) := by
  have hval : Valid w (.moveAssignShared l l) := ⟨h, h, hroot, hroot.put, hc⟩
  obtain ⟨r, w', A1, h1, h2, h3, h4⟩ := destroys_exactly_doomed_partial hr hval (by intros; simp)
  cases r with
  | some q => exact h2.elim
  | none =>
    obtain ⟨y, hy, rfl⟩ := h2
    rw [Hs.put_put] at h3 h4
    refine ⟨w', h1, .step hr hval h1, (h4 _ _ _).2 ⟨Hs.put_self _ _ _ _, ?_⟩, h3⟩
    rintro b i rfl
    exact LocRooted.not_doomed (i := i) hroot.put

example : Reach Demo.d5 ∧ Has (At Demo.d5.heap) .sh (.mem Demo.a 0) ∧ LocRooted (At Demo.d5.heap) (.mem Demo.a 0) ∧
    Calm (Hs.put (At Demo.d5.heap) .sh (.mem Demo.a 0) .nil) :=
  ⟨Demo.r5, ⟨_, _, _, rfl, rfl, rfl⟩, Rooted.var (A := At Demo.d5.heap) (p := Demo.sa) (z := ⟨Demo.a, Demo.a⟩) rfl (by simp),
    Demo.calm_put _ _ (by simp)⟩

/-! ### C64 -/

/-- C64 is violated: the allocator passed to `make_shared` is not used; the control block comes from a default
constructed allocator. -/
theorem make_shared_allocator_violated (hr : Reach w) (al : Nat) (v : V) (ks : List Kind) (hal : al ≠ defaultAlloc)
    (hok : ¬ Refused w) :
    ∃ p b c w', Runs (exec (.makeShared al v ks)) (ready w) (some p) w' ∧ Refers w' .sh (.var p) b ∧
      w'.heap b = some (.blk c) ∧ c.owner = defaultAlloc ∧ c.owner ≠ al := by
  obtain ⟨p, w', h1, h2, -, h3, -, h4⟩ := make_shared_partial hr al v ks
  have he : w'.err = none := by
    cases hh : w'.err with
    | none => rfl
    | some e => exact (hok (h3.1 (by rw [hh]; simp))).elim
  obtain ⟨b, -, hb, -⟩ := h4 he
  obtain ⟨c, hc⟩ := h2.ok.block hb
  obtain ⟨dom, hi⟩ := h2.ok.g.inv
  exact ⟨p, b, c, w', h1, hb, hc, hi.owner _ _ hc, by rw [hi.owner _ _ hc]; exact Ne.symm hal⟩

example : Reach Demo.d5 ∧ 5 ≠ defaultAlloc ∧ ¬ Refused Demo.d5 := by
  refine ⟨Demo.r5, by simp [defaultAlloc], ?_⟩
  rintro (h | h)
  · exact h 2 rfl rfl
  · cases h

/-- C64, missing: allocators other than (equal to) a default constructed one (false for them, see above). -/
theorem make_shared_allocator_partial (hr : Reach w) (al : Nat) (v : V) (ks : List Kind) (hal : al = defaultAlloc)
    (hok : ¬ Refused w) :
    ∃ p b c w', Runs (exec (.makeShared al v ks)) (ready w) (some p) w' ∧ Refers w' .sh (.var p) b ∧
      w'.heap b = some (.blk c) ∧ c.owner = al := by
  obtain ⟨p, w', h1, h2, -, h3, -, h4⟩ := make_shared_partial hr al v ks
  have he : w'.err = none := by
    cases hh : w'.err with
    | none => rfl
    | some e => exact (hok (h3.1 (by rw [hh]; simp))).elim
  obtain ⟨b, -, hb, -⟩ := h4 he
  obtain ⟨c, hc⟩ := h2.ok.block hb
  obtain ⟨dom, hi⟩ := h2.ok.g.inv
  exact ⟨p, b, c, w', h1, hb, hc, by rw [hi.owner _ _ hc, hal]⟩

example : Reach Demo.d5 ∧ ¬ Refused Demo.d5 := by
  refine ⟨Demo.r5, ?_⟩
  rintro (h | h)
  · exact h 2 rfl rfl
  · cases h

/-! ### C45 for make_shared -/

/-- C45 is violated for `make_shared`: called with an error object that already holds an error, when memory is available,
it allocates memory, returns an empty pointer and forgets the memory. -/
theorem make_shared_stale_error_violated (hr : Reach w) (al : Nat) (v : V) (ks : List Kind) {a : Nat}
    (ha : w.env.addr w.nAlloc = some a) (hfree : w.heap (.dyn a) = none) :
    ∃ p w', Runs (exec (.makeShared al v ks)) w.stale (some p) w' ∧ Empty w' .sh (.var p) ∧
      w'.heap (.dyn a) = some (.raw defaultAlloc) := by
  have : wp (exec (.makeShared al v ks)) w.stale fun r w' => ∃ p, r = some p ∧ Empty w' .sh (.var p) ∧
      w'.heap (.dyn a) = some (.raw defaultAlloc) := by
    refine wp_some ?_
    unfold makeShared
    simp only [wp_bind]
    refine wp_allocCell ?_ ?_
    · intro h; exact (h a ha hfree).elim
    · intro a' h1 h2
      have : a' = a := by
        have h2 : w.env.addr w.nAlloc = some a' := h2
        rw [ha] at h2; cases h2; rfl
      subst this
      simp only [World.stale, wp_hasErr, Option.isSome_some, if_true]
      unfold newShared
      rw [wp_newObj]
      refine ⟨_, rfl, ?_, ?_⟩
      · show upd _ _ _ _ = _
        rw [upd_same]
      · have h : ∀ (h : Heap V) (i : Nat) (x y : Option (Cell V)), upd (upd h (.dyn a') x) (.stk i) y (.dyn a') = x := by
          intro h i x y
          have hne : Ptr.dyn a' ≠ Ptr.stk i := fun e => nomatch e
          rw [upd_other _ _ hne, upd_same]
        exact h w.heap w.sp (some (.raw defaultAlloc)) (some (.var .sh .nil))
  obtain ⟨r, w', h1, p, rfl, h2, h3⟩ := this.runs
  exact ⟨p, w', h1, h2, h3⟩

example : Reach Demo.d5 ∧ Demo.d5.env.addr Demo.d5.nAlloc = some 2 ∧ Demo.d5.heap (.dyn 2) = none := ⟨Demo.r5, rfl, rfl⟩

end Nestl.SP
