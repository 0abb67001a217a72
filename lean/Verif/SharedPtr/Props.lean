import Verif.SharedPtr.Demo
set_option autoImplicit false
/-
Properties C50, C51, C52 (expired, lock of a live object), C56-C58 of `shared_ptr` and `weak_ptr`, for all
programs made of valid calls.  Vocabulary:

* `Reach w`        - some program of valid calls leads to the state `w`
* `Refers w k l b` - the handle of kind `k` at `l` (a variable or a data member of a managed object) refers to `b`
* `Empty w k l`    - the handle at `l` is empty
* `Alive w b`      - the managed object in the control block `b` is alive
* `Block w b`      - the control block `b` is allocated
* `Card P n`       - exactly `n` things satisfy `P`
-/
namespace Nestl.SP

variable {V : Type} {w : W V} {l m : Loc} {b : Ptr}

theorem runs_of_wp {σ α : Type} {c : M σ α} {s s' : σ} {x : α} (h : wp c s fun r t => r = x ∧ t = s') : Runs c s x s' := by
  obtain ⟨r, t, h1, rfl, rfl⟩ := h.runs
  exact h1

/-- Every handle is empty or refers to something. -/
theorem handle_cases (hr : Reach w) {k : Kind} (h : Has (At w.heap) k l) : Empty w k l ∨ ∃ b, Refers w k l b := by
  obtain ⟨z, hz⟩ := h
  exact (hr.ok.empty_or hz).imp id fun h => ⟨_, h⟩

example : Has (At Demo.d5.heap) .sh (.mem Demo.a 0) ∧ Has (At Demo.d5.heap) .wk (.mem Demo.a 1) :=
  ⟨⟨_, _, _, rfl, rfl, rfl⟩, ⟨_, _, _, rfl, rfl, rfl⟩⟩

/-! ### C50 -/

/-- C50: at every moment between calls, an object is alive iff a `shared_ptr` owns it. -/
theorem alive_iff_owned_partial (hr : Reach w) (b : Ptr) : Alive w b ↔ ∃ l, Refers w .sh l b := hr.ok.alive_iff b

example : Reach Demo.d5 ∧ Alive Demo.d5 Demo.a ∧ Alive Demo.d5 Demo.b ∧ ∃ l, Refers Demo.d5 .sh l Demo.b :=
  ⟨Demo.r5, ⟨_, Demo.facts.2.2.2.2.2.2.2.1⟩, ⟨_, Demo.facts.2.2.2.2.2.2.2.2⟩, _, Demo.facts.2.1⟩

/-- Every valid call returns (in particular it never destroys an object or frees a block twice, and never touches a dead
one) and has its specified effect. -/
theorem call_effect (hr : Reach w) {c : Call V} (hv : Valid w c) :
    ∃ r w', Runs (exec c) (ready w) r w' ∧ Reach w' ∧
      Spec (At w.heap) (Val w.heap) c r w'.err.isSome (At w'.heap) (Val w'.heap) := by
  obtain ⟨r, w', h1, h2, h3⟩ := (exec_ok hr.ok hv).runs
  exact ⟨r, w', h1, .step hr hv h1, h3⟩

theorem Spec.val_old {A A' : Hs} {B B' : Ptr → V → Prop} {c : Call V} {r : Option Ptr} {f : Bool} (hs : Spec A B c r f A' B')
    {b : Ptr} {u : V} (h : B' b u) (hb : (∃ k l z, A k l z ∧ z.ref = b) ∨ ∃ v, B b v) : B b u := by
  cases c
  case makeShared al v ks =>
    obtain ⟨-, p, -, ⟨-, -, e⟩ | ⟨-, d, -, h1, h2, -, e⟩⟩ := hs
    · rw [e] at h; exact h
    · rw [e] at h
      rcases h with h | ⟨rfl, rfl⟩
      · exact h
      · rcases hb with ⟨k, l, z, hz, e⟩ | ⟨v, hv⟩
        · exact (h2 k l z hz e).elim
        · exact (h1 v hv).elim
  all_goals
    obtain ⟨-, -, A1, -, hc⟩ := hs
    exact ((hc.val _ _).1 h).1

/-- C50: in every valid call, an object that was alive is alive afterwards (with the same value) iff a `shared_ptr` still
owns it when the call returns: it is destroyed by the very call that takes its last owner away.  An object that was
destroyed never comes back while a handle refers to it. -/
theorem destroyed_when_last_owner_goes_partial (hr : Reach w) {c : Call V} (hv : Valid w c) :
    ∃ r w', Runs (exec c) (ready w) r w' ∧ Reach w' ∧
      (∀ b v, Val w.heap b v → (Val w'.heap b v ↔ ∃ l, Refers w' .sh l b)) ∧
      (∀ b k l, Refers w k l b → ¬ Alive w b → ¬ Alive w' b) := by
  obtain ⟨r, w', h1, h2, h3⟩ := call_effect hr hv
  refine ⟨r, w', h1, h2, ?_, ?_⟩
  · intro b v hb
    rw [← alive_iff_owned_partial h2]
    constructor
    · intro h; exact ⟨v, h⟩
    · rintro ⟨u, hu⟩
      have := h3.val_old hu (.inr ⟨v, hb⟩)
      obtain ⟨c1, o1, e1, e2, e3⟩ := this
      obtain ⟨c2, o2, f1, f2, f3⟩ := hb
      rw [e1] at f1; cases f1; rw [e2] at f2; cases f2
      rw [← f3, e3]; exact hu
  · rintro b k l ⟨-, z, hz, e⟩ hd ⟨u, hu⟩
    exact hd ⟨u, h3.val_old hu (.inl ⟨k, l, z, hz, e⟩)⟩

/-- Which calls destroy which objects: all calls but `make_shared` move handles as specified by `Moved`, and then
exactly the objects without owners outside the doomed objects are destroyed. -/
theorem destroys_exactly_doomed_partial (hr : Reach w) {c : Call V} (hv : Valid w c) (hc : ∀ al v ks, c ≠ .makeShared al v ks) :
    ∃ r w' A1, Runs (exec c) (ready w) r w' ∧ Moved (At w.heap) c r A1 ∧
      (∀ b v, Val w'.heap b v ↔ Val w.heap b v ∧ ¬ Doomed A1 b) ∧
      (∀ k l z, At w'.heap k l z ↔ A1 k l z ∧ ∀ b i, l = .mem b i → ¬ Doomed A1 b) := by
  obtain ⟨r, w', h1, h2, h3⟩ := call_effect hr hv
  have : ∃ A1, Moved (At w.heap) c r A1 ∧ Collect A1 (Val w.heap) (At w'.heap) (Val w'.heap) := by
    cases c <;> first | exact (hc _ _ _ rfl).elim | exact h3.2.2
  obtain ⟨A1, h4, h5⟩ := this
  exact ⟨r, w', A1, h1, h4, h5.val, h5.at_⟩

/-- In the demonstration the variables can be dropped; dropping `sa` dooms the object `a`, but not `b`, which is owned
by `sb` as well. -/
example : Reach Demo.d5 ∧ Valid Demo.d5 (.dropShared Demo.sa) ∧ Val Demo.d5.heap Demo.a 10 ∧
    Doomed (Hs.del (At Demo.d5.heap) (.var Demo.sa)) Demo.a ∧ ¬ Doomed (Hs.del (At Demo.d5.heap) (.var Demo.sa)) Demo.b := by
  refine ⟨Demo.r5, ⟨⟨_, rfl⟩, Demo.calm_del _ (by simp)⟩, Demo.facts.2.2.2.2.2.2.2.1, ?_, ?_⟩
  · refine .intro ?_ ?_
    · rintro p z ⟨h1, h2⟩ e
      have h2 : Demo.d5.heap p = some (.var .sh z) := h2
      rcases p with _ | i | i
      · cases h2
      · rcases i with _ | _ | _ | _ | i
        · exact h1 rfl
        · cases h2; cases e
        · cases h2
        · cases h2
        · cases h2
      · rcases i with _ | _ | i <;> cases h2
    · rintro x i z ⟨-, c, o, h1, h2, h3⟩ e
      rcases Demo.blk5 h1 with rfl | rfl
      all_goals
        cases h1; cases h2
        rcases i with _ | _ | i <;> cases h3
        cases e
  · rintro ⟨h1, -⟩
    exact h1 Demo.sb ⟨Demo.b, Demo.b⟩ ⟨by simp, rfl⟩ rfl

/-! ### C51 -/

/-- C51: at every moment between calls, a control block is allocated iff some `shared_ptr` or `weak_ptr` refers to it, and
dynamic memory contains nothing but such control blocks. -/
theorem block_iff_referenced_partial (hr : Reach w) (b : Ptr) :
    (Block w b ↔ ∃ k l, Refers w k l b) ∧ (∀ a, w.heap (.dyn a) ≠ none → Block w (.dyn a)) :=
  ⟨hr.ok.block_iff b, fun _ => hr.ok.dyn⟩

example : Reach Demo.d5 ∧ Block Demo.d5 Demo.a ∧ Refers Demo.d5 .wk (.var Demo.wa) Demo.a :=
  ⟨Demo.r5, ⟨_, rfl⟩, Demo.facts.2.2.2.2.1⟩

/-- C51: a control block goes away in the very call after which neither kind of handle refers to it. -/
theorem block_freed_with_last_handle_partial (hr : Reach w) {c : Call V} (hv : Valid w c) :
    ∃ r w', Runs (exec c) (ready w) r w' ∧ Reach w' ∧ ∀ b, Block w b → (Block w' b ↔ ∃ k l, Refers w' k l b) := by
  obtain ⟨r, w', h1, h2, -⟩ := call_effect hr hv
  exact ⟨r, w', h1, h2, fun b _ => h2.ok.block_iff b⟩

example : Reach Demo.d5 ∧ Valid Demo.d5 (.dropWeak Demo.wa) ∧ Block Demo.d5 Demo.a := ⟨Demo.r5, ⟨_, rfl⟩, ⟨_, rfl⟩⟩

/-- C51: when no handle variables are left and no object owns itself through other objects, no memory is left
allocated. -/
theorem acyclic_leaves_nothing_partial (hr : Reach w) (hv : ∀ k p z, ¬ At w.heap k (.var p) z) (hac : Acyclic (At w.heap)) :
    ∀ a, w.heap (.dyn a) = none := hr.ok.nothing_left hv hac

/-- Dropping variables only removes handles. -/
theorem drop_acyclic (hr : Reach w) {c : Call V} {r : Option Ptr} {w' : W V} (hv : Valid w c) (h : Runs (exec c) (ready w) r w')
    (hc : (∃ p, c = .dropShared p) ∨ ∃ p, c = .dropWeak p) (hac : Acyclic (At w.heap)) :
    Acyclic (At w'.heap) ∧ ∀ k l z, At w'.heap k l z → At w.heap k l z := by
  obtain ⟨r', w1, h1, h2, h3⟩ := call_effect hr hv
  obtain ⟨rfl, rfl⟩ := h.det h1
  have hsub : ∀ k l z, At w'.heap k l z → At w.heap k l z := by
    rcases hc with ⟨p, rfl⟩ | ⟨p, rfl⟩
    all_goals
      obtain ⟨-, -, A1, hm, hcl⟩ := h3
      cases r with
      | some q => exact hm.elim
      | none =>
        have hm : A1 = Hs.del (At w.heap) (.var p) := hm
        subst hm
        intro k l z hz
        exact ((hcl.at_ _ _ _).1 hz).1.2
  refine ⟨?_, hsub⟩
  have hre : ∀ x y, Reaches (At w'.heap) x y → Reaches (At w.heap) x y := by
    intro x y hxy
    induction hxy with
    | refl => exact .refl _
    | step _ ho ih =>
      obtain ⟨i, z, hz, e⟩ := ho
      exact ih.step ⟨i, z, hsub _ _ _ hz, e⟩
  rintro x y ⟨i, z, hz, e⟩ hr'
  exact hac x y ⟨i, z, hsub _ _ _ hz, e⟩ (hre _ _ hr')

/-- The ownership graph of the demonstration is acyclic. -/
theorem demo_acyclic : Acyclic (At Demo.d5.heap) := by
  have own : ∀ x y, Owns (At Demo.d5.heap) x y → y ≠ .null → x = Demo.a ∧ y = Demo.b := by
    rintro x y ⟨i, z, ⟨c, o, h1, h2, h3⟩, e⟩ hn
    rcases Demo.blk5 h1 with rfl | rfl
    all_goals
      cases h1; cases h2
      rcases i with _ | _ | i <;> cases h3
      first
        | exact ⟨rfl, e.symm⟩
        | exact (hn e.symm).elim
  have null : ∀ y, ¬ Owns (At Demo.d5.heap) .null y := by
    rintro y ⟨i, z, ⟨c, o, h1, -⟩, -⟩
    cases h1
  have stop : ∀ u v, Reaches (At Demo.d5.heap) u v → u = .null ∨ u = Demo.b → v = .null ∨ v = Demo.b := by
    intro u v h hu
    induction h with
    | refl => exact hu
    | @step y z _ ho ih =>
      by_cases hz : z = .null
      · exact .inl hz
      · exact .inr (own _ _ ho hz).2
  intro x y ho hre
  have hx : x ≠ .null := by rintro rfl; exact null _ ho
  by_cases hy : y = .null
  · subst hy
    rcases stop _ _ hre (.inl rfl) with h | h
    · exact hx h
    · subst h
      cases hre with
      | step h1 h2 => exact absurd (own _ _ h2 (by simp)) (by
          rintro ⟨rfl, -⟩
          rcases stop _ _ h1 (.inl rfl) with h | h <;> cases h)
  · obtain ⟨rfl, rfl⟩ := own _ _ ho hy
    rcases stop _ _ hre (.inr rfl) with h | h <;> cases h

example : Reach Demo.d5 ∧ Acyclic (At Demo.d5.heap) ∧ Valid Demo.d5 (.dropShared Demo.sa) :=
  ⟨Demo.r5, demo_acyclic, ⟨_, rfl⟩, Demo.calm_del _ (by simp)⟩

/-! ### C52: the part that holds -/

/-- C52: `weak_ptr::use_count` is the number of owners of the object, and `expired()` iff the object is not alive. -/
theorem expired_correct_partial (hr : Reach w) (h : Refers w .wk l b) :
    ∃ n e, Card (fun m => Refers w .sh m b) n ∧ Runs (weakUseCount l) w n w ∧ Runs (expired l) w e w ∧ (e = true ↔ ¬ Alive w b) := by
  have ho := hr.ok
  have hx := ho.refers h
  have hn := ho.g.null
  obtain ⟨c, hc⟩ := ho.block h
  obtain ⟨hu, -, -⟩ := ho.counts hc
  have huc : wp (weakUseCount l) w fun r w' => r = c.use ∧ w' = w := by
    unfold weakUseCount
    rw [wp_bind, wp_getH hx hn, if_neg h.1]
    unfold blkUseCount
    rw [wp_bind, wp_rdBlk hc h.1]; exact ⟨rfl, rfl⟩
  refine ⟨c.use, decide (c.use = 0), hu, runs_of_wp huc, runs_of_wp ?_, ?_⟩
  · unfold expired; rw [wp_bind]
    refine wp_mono huc ?_
    rintro r w' ⟨rfl, rfl⟩; exact ⟨rfl, rfl⟩
  · rw [ho.alive_iff, ← hu.pos]; simp

/-- C52: an empty `weak_ptr` is expired. -/
theorem expired_empty_partial (hr : Reach w) (h : Empty w .wk l) : Runs (weakUseCount l) w 0 w ∧ Runs (expired l) w true w := by
  have hn := hr.ok.g.null
  have huc : wp (weakUseCount l) w fun r w' => r = 0 ∧ w' = w := by
    unfold weakUseCount
    rw [wp_bind, wp_getH h hn]; exact ⟨rfl, rfl⟩
  refine ⟨runs_of_wp huc, runs_of_wp ?_⟩
  unfold expired; rw [wp_bind]
  refine wp_mono huc ?_
  rintro r w' ⟨rfl, rfl⟩; exact ⟨rfl, rfl⟩

example : Reach Demo.d5 ∧ Refers Demo.d5 .wk (.mem Demo.b 1) Demo.a ∧ Runs (weakUseCount (.mem Demo.b 1)) Demo.d5 1 Demo.d5 ∧
    Empty Demo.d5 .wk (.mem Demo.a 1) := ⟨Demo.r5, Demo.facts.2.2.2.1, rfl, Demo.facts.2.2.2.2.2.2.1⟩

theorem Refers.of_at {w' : W V} {k : Kind} {l : Loc} {b : Ptr} (hb : b ≠ .null) (h : At w'.heap k l ⟨b, b⟩) : Refers w' k l b :=
  ⟨hb, _, h, rfl⟩

/-- C52, missing: `lock()` on a `weak_ptr` whose object has been destroyed should return an empty pointer; see
`lock_expired_violated`.  For a live object it returns a further owner, and the object and all other handles are
untouched; for an empty `weak_ptr` it returns an empty pointer. -/
theorem lock_partial (hr : Reach w) (h : Empty w .wk l ∨ ∃ b, Refers w .wk l b ∧ Alive w b) :
    ∃ p w', Runs (exec (.lock l)) (ready w) (some p) w' ∧ Reach w' ∧ w'.err = none ∧
      (Empty w .wk l → Empty w' .sh (.var p)) ∧ (∀ b, Refers w .wk l b → Refers w' .sh (.var p) b) ∧
      (∀ b v, Val w'.heap b v ↔ Val w.heap b v) ∧
      (∀ k m z, m ≠ .var p → (At w'.heap k m z ↔ At w.heap k m z)) := by
  have ho := hr.ok
  have hval : Valid w (.lock l) := by
    rcases h with h | ⟨b, h1, h2⟩
    · refine ⟨⟨_, h⟩, ?_⟩
      intro x hx hn
      rw [(h.det hx).2.symm] at hn; exact (hn rfl).elim
    · refine ⟨⟨_, ho.refers h1⟩, ?_⟩
      intro x hx hn
      rw [((ho.refers h1).det hx).2.symm]; exact h2
  obtain ⟨r, w', h1, h2, h3⟩ := call_effect hr hval
  obtain ⟨hnew, hf, A1, hm, hc⟩ := h3
  cases r with
  | none => exact hm.elim
  | some p =>
    obtain ⟨x, hx, rfl⟩ := hm
    have hnd : ∀ b v, Val w.heap b v → ¬ Doomed (Hs.put (At w.heap) .sh (.var p) x) b := by
      intro b v hb
      have : Held (Hs.put (At w.heap) .sh (.var p) x) fun b => Alive w b := by
        intro d hd
        obtain ⟨m, hn, z, hz, e⟩ := (ho.alive_iff d).1 hd
        refine ⟨m, z, Hs.put_ne ?_ hz, e, ?_⟩
        · rintro rfl; exact hnew p rfl _ _ hz
        · rintro y i rfl; exact memOk_heap w.heap _ _ _ _ hz
      exact this.not_doomed ⟨v, hb⟩
    have hat : ∀ k m z, At w'.heap k m z ↔ Hs.put (At w.heap) .sh (.var p) x k m z := by
      intro k m z
      rw [hc.at_]
      constructor
      · exact fun h => h.1
      · intro hz
        refine ⟨hz, ?_⟩
        rintro b i rfl
        rw [Hs.put, if_neg (by intro e; cases e)] at hz
        obtain ⟨v, hv⟩ := memOk_heap w.heap _ _ _ _ hz
        exact hnd b v hv
    refine ⟨p, w', h1, h2, by simpa using hf, ?_, ?_, ?_, ?_⟩
    · intro he
      obtain ⟨-, rfl⟩ := he.det hx
      exact (hat _ _ _).2 (Hs.put_self _ _ _ _)
    · intro b hb
      obtain ⟨-, rfl⟩ := (ho.refers hb).det hx
      exact .of_at hb.1 ((hat _ _ _).2 (Hs.put_self _ _ _ _))
    · intro b v
      rw [hc.val]
      exact ⟨fun h => h.1, fun h => ⟨h, hnd b v h⟩⟩
    · intro k m z hne
      rw [hat, Hs.put, if_neg hne]

example : Reach Demo.d5 ∧ Refers Demo.d5 .wk (.mem Demo.b 1) Demo.a ∧ Alive Demo.d5 Demo.a ∧ Empty Demo.d5 .wk (.mem Demo.a 1) :=
  ⟨Demo.r5, Demo.facts.2.2.2.1, ⟨_, Demo.facts.2.2.2.2.2.2.2.1⟩, Demo.facts.2.2.2.2.2.2.1⟩

end Nestl.SP
