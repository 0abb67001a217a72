import Verif.NodeOf.Base
set_option autoImplicit false
/-
Containers of nodes whose elements are objects, and the same containers with values as elements: the relation between their states
and between their programs.
-/
namespace Nestl.NO
open Nestl.VO (Elem ElemOps)
open Lean.Order Cell
open Classical

/-- Program state: the memory of the nodes (a node holds the address of its element) and the memory of the elements. -/
structure NS (N : Type → Type) (S : Type) where
  o : World (N Ptr)
  i : S

variable {N : Type → Type} [Cell N] {S A X α β : Type}

/-- A step of the container. -/
def onO (m : M (World (N Ptr)) α) : M (NS N S) α := fun s =>
  match m s.o with
  | some (.ok (a, o')) => some (.ok (a, { s with o := o' }))
  | some (.error f) => some (.error f)
  | none => none

/-- A step of the elements. -/
def onI (m : M S α) : M (NS N S) α := fun s =>
  match m s.i with
  | some (.ok (a, i')) => some (.ok (a, { s with i := i' }))
  | some (.error f) => some (.error f)
  | none => none

/-- `if (err)` -/
def failed : M (NS N S) Bool := onO hasErr

/-- Report an error. -/
def report (e : Err) : M (NS N S) Unit := fun s => some (.ok ((), { s with o := { s.o with err := some e } }))

omit [Cell N] in
theorem runs_onO {m : M (World (N Ptr)) α} {s : NS N S} {r : α} {o : World (N Ptr)} (h : Runs m s.o r o) :
    Runs (onO m) s r ⟨o, s.i⟩ := by
  unfold Runs onO; rw [show m s.o = _ from h]

omit [Cell N] in
theorem runs_onI {m : M S α} {s : NS N S} {r : α} {i : S} (h : Runs m s.i r i) : Runs (onI m) s r ⟨s.o, i⟩ := by
  unfold Runs onI; rw [show m s.i = _ from h]

/-- `q` is an element of a container. -/
def Owned (o : World (N Ptr)) (q : Ptr) : Prop := ∃ p, Held o p q

variable (E : Elem S A X)

/-- The values of the objects that are not elements of containers, and everything else in the memory of the elements. -/
noncomputable def outside (s : NS N S) : (Ptr → Option A) × X :=
  (fun q => if Owned s.o q then none else E.val s.i q, E.rest s.i)

/-- `w` holds nodes with values where `s` holds nodes with objects. -/
structure Rel (s : NS N S) (w : World (N A)) : Prop where
  inv : E.inv s.i
  same : Same (E.val s.i) s.o w
  uniq : ∀ p p' q, Held s.o p q → Held s.o p' q → p = p'
  err : w.err.isSome = s.o.err.isSome

/-- The same state with other answers of the constructors. -/
def oracle (w : World (N A)) (c : Nat → Bool) : World (N A) := { w with env := { w.env with ctor := c } }

/-- The program runs without fault whatever the constructors answer from now on. -/
def AllSafe (n : M (World (N A)) α) (w : World (N A)) : Prop :=
  ∀ c, (∀ k, k < w.nCtor → c k = w.env.ctor k) → ∃ r w', Runs n (oracle w c) r w'

/-- Constructors answered between `w` and `w'`; if there is no error, they have all succeeded. -/
structure Later (w w' : World (N A)) : Prop where
  le : w.nCtor ≤ w'.nCtor
  past : ∀ k, k < w.nCtor → w'.env.ctor k = w.env.ctor k
  done : w'.err = none → w.err = none ∧ ∀ k, w.nCtor ≤ k → k < w'.nCtor → w'.env.ctor k = true

/-- `m` does with objects what `n` does with values, for some answers of the constructors. -/
def Sim (P : NS N S → Prop) (m : M (NS N S) α) (n : M (World (N A)) α) (Q : α → NS N S → Prop) : Prop :=
  ∀ s w, Rel E s w → P s → AllSafe n w → ∃ r s' w', Runs m s r s' ∧ Rel E s' w' ∧ Q r s' ∧ Later w w' ∧
    ∀ c, (∀ k, k < w'.nCtor → c k = w'.env.ctor k) → Runs n (oracle w c) r (oracle w' c)

/-- `m` does with objects what `n` does with values; neither constructs elements. -/
def QSim (P : NS N S → Prop) (m : M (NS N S) α) (n : M (World (N A)) α) (Q : α → NS N S → Prop) : Prop :=
  ∀ s w, Rel E s w → P s → ∀ r w', Runs n w r w' → ∃ s', Runs m s r s' ∧ Rel E s' w' ∧ Q r s' ∧ Still w w'

variable {E} {P P' : NS N S → Prop} {Q Q' : α → NS N S → Prop} {s : NS N S} {w w' : World (N A)}
  {m m' : M (NS N S) α} {n n' : M (World (N A)) α}

omit [Cell N] in
theorem Later.trans {w w1 w2 : World (N A)} (h : Later w w1) (h' : Later w1 w2) : Later w w2 where
  le := Nat.le_trans h.le h'.le
  past k hk := (h'.past k (Nat.lt_of_lt_of_le hk h.le)).trans (h.past k hk)
  done he := by
    obtain ⟨h1, h2⟩ := h'.done he
    obtain ⟨h3, h4⟩ := h.done h1
    refine ⟨h3, fun k hk hk' => ?_⟩
    by_cases e : k < w1.nCtor
    · rw [h'.past k e]; exact h4 k hk e
    · exact h2 k (by omega) hk'

omit [Cell N] in
theorem Later.refl (w : World (N A)) : Later w w := ⟨Nat.le_refl _, fun _ _ => rfl, fun h => ⟨h, fun _ h1 h2 => by omega⟩⟩

omit [Cell N] in
theorem Later.of_still (h : Still w w') : Later w w' :=
  ⟨by rw [h.ctors]; exact Nat.le_refl _, fun k _ => by rw [h.env],
    fun he => ⟨by rw [← h.err]; exact he, fun k h1 h2 => by rw [h.ctors] at h2; omega⟩⟩

theorem Rel.oracle (h : Rel E s w) (c : Nat → Bool) : Rel E s (oracle w c) := ⟨h.inv, ⟨h.same.heap, h.same.live, h.same.typed, h.same.addr,
  h.same.junk, h.same.nAlloc, h.same.nCmp, h.same.sp⟩, h.uniq, h.err⟩

/-- The objects determine the values. -/
theorem Rel.det {w1 w2 : World (N A)} (h1 : Rel E s w1) (h2 : Rel E s w2) (e1 : w1.nCtor = w2.nCtor) (e2 : w1.env.ctor = w2.env.ctor)
    (e3 : w1.err = w2.err) : w1 = w2 := by
  have a1 : w1.heap = w2.heap := funext fun p => (h1.same.heap p).trans (h2.same.heap p).symm
  have a2 := h1.same.addr.trans h2.same.addr.symm
  have a3 : w1.env.junk = w2.env.junk := funext fun p => (h1.same.junk p).trans (h2.same.junk p).symm
  have a4 := h1.same.nAlloc.trans h2.same.nAlloc.symm
  have a5 := h1.same.nCmp.trans h2.same.nCmp.symm
  have a6 := h1.same.sp.trans h2.same.sp.symm
  obtain ⟨_, ⟨_, _, _⟩, _, _, _, _, _⟩ := w1
  obtain ⟨_, ⟨_, _, _⟩, _, _, _, _, _⟩ := w2
  simp only at *
  subst a1 a2 a3 a4 a5 a6 e1 e2 e3
  rfl

theorem Sim.weaken (h : Sim E P m n Q) (hp : ∀ s, P' s → P s) (hq : ∀ r s, Q r s → Q' r s) : Sim E P' m n Q' := by
  intro s w hR hP hA
  obtain ⟨r, s', w', h1, h2, h3, h4⟩ := h s w hR (hp s hP) hA
  exact ⟨r, s', w', h1, h2, hq _ _ h3, h4⟩

theorem Sim.bind {f : α → M (NS N S) β} {g : α → M (World (N A)) β} {R : β → NS N S → Prop}
    (h1 : Sim E P m n Q) (h2 : ∀ r, Sim E (Q r) (f r) (g r) R) : Sim E P (m >>= f) (n >>= g) R := by
  intro s w hR hP hA
  obtain ⟨r, s', w', a1, a2, a3, a4, a6⟩ := h1 s w hR hP (fun c hc => by
    obtain ⟨r, w', h⟩ := hA c hc
    obtain ⟨a, t, h, -⟩ := VO.runs_bind_iff.1 h
    exact ⟨a, t, h⟩)
  obtain ⟨r', s'', w'', b1, b2, b3, b4, b6⟩ := h2 r s' w' a2 a3 (fun c hc => by
    have hc' : ∀ k, k < w.nCtor → c k = w.env.ctor k := fun k hk => (hc k (Nat.lt_of_lt_of_le hk a4.le)).trans (a4.past k hk)
    obtain ⟨r1, w1, h⟩ := hA c hc'
    obtain ⟨a, t, k1, k2⟩ := VO.runs_bind_iff.1 h
    obtain ⟨rfl, rfl⟩ := Runs.det k1 (a6 c hc)
    exact ⟨_, _, k2⟩)
  refine ⟨r', s'', w'', VO.runs_bind_iff.2 ⟨_, _, a1, b1⟩, b2, b3, a4.trans b4,
    fun c hc => VO.runs_bind_iff.2 ⟨_, _, a6 c fun k hk => (hc k (Nat.lt_of_lt_of_le hk b4.le)).trans (b4.past k hk), b6 c hc⟩⟩

theorem Sim.pure (r : α) (hq : ∀ s, P s → Q r s) : Sim E P (pure r) (pure r) Q :=
  fun s w hR hP _ => ⟨r, s, w, rfl, hR, hq s hP, .refl _, fun _ _ => rfl⟩

theorem Sim.ite {c : Prop} {i j : Decidable c} (h1 : c → Sim E P m n Q) (h2 : ¬ c → Sim E P m' n' Q) :
    Sim E P (@_root_.ite _ c i m m') (@_root_.ite _ c j n n') Q := by
  by_cases h : c
  · rw [if_pos h, if_pos h]; exact h1 h
  · rw [if_neg h, if_neg h]; exact h2 h

/-- A fact that does not depend on the state. -/
theorem Sim.pre {φ : Prop} (h : φ → Sim E P m n Q) : Sim E (fun s => P s ∧ φ) m n Q :=
  fun s w hR hP hA => h hP.2 s w hR hP.1 hA

theorem QSim.weaken (h : QSim E P m n Q) (hp : ∀ s, P' s → P s) (hq : ∀ r s, Q r s → Q' r s) : QSim E P' m n Q' := by
  intro s w hR hP r w' hr
  obtain ⟨s', h1, h2, h3, h4⟩ := h s w hR (hp s hP) r w' hr
  exact ⟨s', h1, h2, hq _ _ h3, h4⟩

theorem QSim.bind {f : α → M (NS N S) β} {g : α → M (World (N A)) β} {R : β → NS N S → Prop}
    (h1 : QSim E P m n Q) (h2 : ∀ r, QSim E (Q r) (f r) (g r) R) : QSim E P (m >>= f) (n >>= g) R := by
  intro s w hR hP r w' hr
  obtain ⟨a, w1, k1, k2⟩ := runs_steps hr
  obtain ⟨s1, a1, a2, a3, a4⟩ := h1 s w hR hP a w1 k1
  obtain ⟨s2, b1, b2, b3, b4⟩ := h2 a s1 w1 a2 a3 r w' k2
  exact ⟨s2, VO.runs_bind_iff.2 ⟨_, _, a1, b1⟩, b2, b3, a4.trans b4⟩

theorem QSim.pure (r : α) (hq : ∀ s, P s → Q r s) : QSim E P (pure r) (pure r) Q := by
  intro s w hR hP r w' hr
  cases hr
  exact ⟨s, rfl, hR, hq s hP, .refl _⟩

theorem QSim.ite {c : Prop} {i j : Decidable c} (h1 : c → QSim E P m n Q) (h2 : ¬ c → QSim E P m' n' Q) :
    QSim E P (@_root_.ite _ c i m m') (@_root_.ite _ c j n n') Q := by
  by_cases h : c
  · rw [if_pos h, if_pos h]; exact h1 h
  · rw [if_neg h, if_neg h]; exact h2 h

theorem QSim.pre {φ : Prop} (h : φ → QSim E P m n Q) : QSim E (fun s => P s ∧ φ) m n Q :=
  fun s w hR hP r w' hr => h hP.2 s w hR hP.1 r w' hr

/-- Programs that do not construct elements do not depend on what constructors would answer. -/
theorem QSim.sim (h : QSim E P m n Q) : Sim E P m n Q := by
  intro s w hR hP hA
  obtain ⟨r, w', hr⟩ := hA w.env.ctor fun _ _ => rfl
  obtain ⟨s', h1, h2, h3, h4⟩ := h s w hR hP r w' hr
  refine ⟨r, s', w', h1, h2, h3, .of_still h4, fun c hc => ?_⟩
  obtain ⟨r1, w1, hr1⟩ := hA c fun k hk => by rw [hc k (by rw [h4.ctors]; exact hk), h4.env]
  obtain ⟨s1, a1, a2, a3, a4⟩ := h s _ (hR.oracle c) hP r1 w1 hr1
  obtain ⟨rfl, rfl⟩ := Runs.det h1 a1
  have : w1 = NO.oracle w' c := a2.det (h2.oracle c) (by rw [a4.ctors]; exact h4.ctors.symm) (by rw [a4.env]; rfl)
    (by rw [a4.err]; exact h4.err.symm)
  rw [← this]; exact hr1

theorem QSim.admissible (P : NS N S → Prop) (m : M (NS N S) α) (Q : α → NS N S → Prop) :
    admissible (fun n : M (World (N A)) α => QSim E P m n Q) := by
  have h1 : ∀ w : World (N A), Lean.Order.admissible (fun r : Option (Except Fault (α × World (N A))) =>
      ∀ s, Rel E s w → P s → ∀ a w', r = some (.ok (a, w')) → ∃ s', Runs m s a s' ∧ Rel E s' w' ∧ Q a s' ∧ Still w w') :=
    fun w => admissible_flatOrder _ (by intro s hR hP a w' h; cases h)
  have h2 := admissible_pi_apply _ h1
  intro c hc hQ
  have := h2 c hc (fun x hx w s hR hP a w' hr => hQ x hx s w hR hP a w' hr)
  exact fun s w hR hP r w' hr => this w s hR hP r w' hr

theorem QSim.admissible1 {B : Type} (P : B → NS N S → Prop) (m : B → M (NS N S) α) (Q : B → α → NS N S → Prop) :
    Lean.Order.admissible (fun n : B → M (World (N A)) α => ∀ b, QSim E (P b) (m b) (n b) (Q b)) :=
  admissible_pi_apply _ fun b => QSim.admissible (P b) (m b) (Q b)

omit [Cell N] in
theorem onO_bind {m : M (World (N Ptr)) α} {f : α → M (World (N Ptr)) β} :
    (onO (m >>= f) : M (NS N S) β) = (onO m >>= fun a => onO (f a)) := by
  funext s
  simp only [bind, StateT.bind, ExceptT.bind, ExceptT.mk, ExceptT.bindCont, onO]
  rcases m s.o with _ | (e | ⟨a, o⟩) <;> rfl

omit [Cell N] in
theorem onO_pure (a : α) : (onO (Pure.pure a) : M (NS N S) α) = Pure.pure a := rfl

/-- Predicates that do not depend on the links. -/
def Stable (P : NS N S → Prop) : Prop :=
  ∀ (s : NS N S) (o : World (N Ptr)), (∀ p q, Held o p q ↔ Held s.o p q) → o.err = s.o.err → P s → P ⟨o, s.i⟩

/-- Programs that do not touch the elements. -/
theorem NSim.quiet {k : M (World (N Ptr)) α} {R : α → Prop} (h : NSim k n R) (hP : Stable P) :
    QSim E P (onO k) n fun r s => P s ∧ R r := by
  intro s w hR h0 r w' hr
  obtain ⟨o', h1, h2, h3, h4, h5, h6⟩ := h _ _ _ hR.same r w' hr
  refine ⟨⟨o', s.i⟩, runs_onO h1, ⟨hR.inv, h2, fun p p' q a b => hR.uniq p p' q ((h4 _ _).1 a) ((h4 _ _).1 b), ?_⟩,
    ⟨hP s o' h4 h5 h0, h3⟩, h6⟩
  rw [h6.err, hR.err]; simp only [h5]

theorem NSim.quiet' {k : M (World (N Ptr)) α} {R : α → Prop} (h : NSim k n R) (hP : Stable P) :
    QSim E P (onO k) n fun _ s => P s := (h.quiet hP).weaken (fun _ h => h) fun _ _ h => h.1

theorem NSim.sim {k : M (World (N Ptr)) α} {R : α → Prop} (h : NSim k n R) (hP : Stable P) :
    Sim E P (onO k) n fun _ s => P s := (h.quiet' hP).sim

theorem QSim.fault {e : Fault} : QSim E P (fault e : M (NS N S) α) (fault e : M (World (N A)) α) Q := by
  intro s w hR hP r w' hr; cases hr

theorem QSim.assertM (b : Bool) : QSim E P (assertM b) (assertM b : M (World (N A)) Unit) fun _ s => P s := by
  cases b
  · exact .fault
  · exact .pure _ fun _ h => h

theorem QSim.failed : QSim E P (failed : M (NS N S) Bool) (hasErr : M (World (N A)) Bool) fun b s => P s ∧ s.o.err.isSome = b := by
  intro s w hR hP r w' hr
  cases hr
  exact ⟨s, by rw [hR.err]; rfl, hR, ⟨hP, hR.err.symm⟩, .refl _⟩

theorem Sim.failed : Sim E P (failed : M (NS N S) Bool) (hasErr : M (World (N A)) Bool) fun b s => P s ∧ s.o.err.isSome = b :=
  QSim.failed.sim

end Nestl.NO
