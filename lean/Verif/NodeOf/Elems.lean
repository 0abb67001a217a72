import Verif.NodeOf.Rel
set_option autoImplicit false
/-
Construction, destruction and comparison of the elements of nodes.
-/
namespace Nestl.NO
open Nestl.VO (Elem ElemOps)
open Lean.Order Cell
open Classical

variable {N : Type → Type} [Cell N] {S A X α β : Type}

/-! ### Model -/

/-- Constructor arguments: an object, by reference or by rvalue reference; or none at all. -/
inductive Arg
  | obj (t : Ptr)
  | mov (t : Ptr)
  | none

/-- The element in the node `p`. -/
def theVal {V : Type} (p : Ptr) : M (World (N V)) V := do
  match get (← rd p) with
  | some v => pure v
  | none => fault .rawRead

/-- The lifetime of the element in the node `p` begins. -/
def beginVal {V : Type} (p : Ptr) (v : V) : M (World (N V)) Unit := do
  match get (← rd p) with
  | some _ => fault .overwriteLive
  | none => modCell p (put (some v))

/-- The lifetime of the element in the node `p` ends. -/
def endVal {V : Type} (p : Ptr) : M (World (N V)) Unit := do
  match get (← rd p) with
  | none => fault .rawRead
  | some _ => modCell p (put none)

/-- The new object, if there is one, becomes the element of the node `p`. -/
def settle (p : Ptr) : Except Err Ptr → M (NS N S) Unit
  | .ok q => onO (beginVal p q)
  | .error e => report e

/-- `class_operations::construct(err, ptr, args...)`: class_operations.hpp:32-65. -/
def construct (E : ElemOps S) (p : Ptr) : Arg → M (NS N S) Unit
  | .obj t => do settle p (← onI (E.copy t))
  | .mov t => do settle p (.ok (← onI (E.move t)))
  | .none => do settle p (.ok (← onI E.make))

/-- Destruction of the element in the node `p`: nestl/detail/destroy.hpp:17-21, calls `~T()`. -/
def destroyElem (E : ElemOps S) (p : Ptr) : M (NS N S) Unit := do
  let q ← onO (theVal p)
  onI (E.drop q)
  onO (endVal p)

/-- A call of the comparator on two objects. -/
def compare (less : Ptr → Ptr → M S Bool) (a b : Ptr) : M (NS N S) Bool := do
  let r ← onI (less a b)
  onO (cmp (fun _ _ => r) () ())

/-! ### Proofs -/

/-- Construction of a value. -/
def ctorAt {V : Type} (p : Ptr) (v : V) : M (World (N V)) Unit := do
  if (← tryCtor) then beginVal p v else pure ()

/-- The comparator `less` computes `lt` on the values of the objects, and changes nothing. -/
def Compares (E : Elem S A X) (less : Ptr → Ptr → M S Bool) (lt : A → A → Bool) : Prop :=
  ∀ i p q a b, E.inv i → E.val i p = some a → E.val i q = some b → wp (less p q) i fun r i' =>
    r = lt a b ∧ E.inv i' ∧ E.rest i' = E.rest i ∧ E.val i' = E.val i

section runs
variable {V : Type} {w w' : World (N V)} {p : Ptr}

theorem runs_theVal {v : V} : Runs (theVal p) w v w' ↔ p ≠ .null ∧ (∃ c, w.heap p = some c ∧ get c = some v) ∧ w' = w := by
  unfold theVal
  rw [VO.runs_bind_iff]
  simp only [runs_rd]
  constructor
  · rintro ⟨c, t, ⟨h1, h2, rfl⟩, h3⟩
    rcases e : get c with _ | x
    · simp only [e] at h3; cases h3
    · simp only [e] at h3; cases h3; exact ⟨h1, ⟨c, h2, e⟩, rfl⟩
  · rintro ⟨h1, ⟨c, h2, h3⟩, rfl⟩
    exact ⟨c, _, ⟨h1, h2, rfl⟩, by simp only [h3]; rfl⟩

theorem runs_beginVal {v : V} {r : Unit} : Runs (beginVal p v) w r w' ↔ p ≠ .null ∧ ∃ c, w.heap p = some c ∧ get c = none ∧
    w' = w.setHeap (upd w.heap p (some (put (some v) c))) := by
  unfold beginVal
  rw [VO.runs_bind_iff]
  simp only [runs_rd]
  constructor
  · rintro ⟨c, t, ⟨h1, h2, rfl⟩, h3⟩
    rcases e : get c with _ | x
    · simp only [e] at h3
      obtain ⟨-, c', h4, h5⟩ := runs_modCell.1 h3
      rw [h2] at h4; cases h4
      exact ⟨h1, c, h2, e, h5⟩
    · simp only [e] at h3; cases h3
  · rintro ⟨h1, c, h2, h3, h4⟩
    exact ⟨c, _, ⟨h1, h2, rfl⟩, by simp only [h3]; exact runs_modCell.2 ⟨h1, _, h2, h4⟩⟩

theorem runs_endVal {r : Unit} : Runs (endVal p) w r w' ↔ p ≠ .null ∧ ∃ c v, w.heap p = some c ∧ get c = some v ∧
    w' = w.setHeap (upd w.heap p (some (put none c))) := by
  unfold endVal
  rw [VO.runs_bind_iff]
  simp only [runs_rd]
  constructor
  · rintro ⟨c, t, ⟨h1, h2, rfl⟩, h3⟩
    rcases e : get c with _ | x
    · simp only [e] at h3; cases h3
    · simp only [e] at h3
      obtain ⟨-, c', h4, h5⟩ := runs_modCell.1 h3
      rw [h2] at h4; cases h4
      exact ⟨h1, c, x, h2, e, h5⟩
  · rintro ⟨h1, c, v, h2, h3, h4⟩
    exact ⟨c, _, ⟨h1, h2, rfl⟩, by simp only [h3]; exact runs_modCell.2 ⟨h1, _, h2, h4⟩⟩

omit [Cell N] in
theorem runs_tryCtor (b : Bool) (h : w.env.ctor w.nCtor = b) : Runs tryCtor w b
    { w with nCtor := w.nCtor + 1, err := if b then w.err else some .ctorFailed } := by
  unfold Runs tryCtor; cases b <;> simp [h]

end runs

variable {E : Elem S A X} {P : NS N S → Prop} {Q : α → NS N S → Prop} {u : (Ptr → Option A) × X} {s : NS N S} {w : World (N A)} {p : Ptr}

theorem outside_eq {s s' : NS N S} (hi : s'.i = s.i) (hs : ∀ p q, Held s'.o p q ↔ Held s.o p q) : outside E s' = outside E s := by
  unfold outside Owned
  simp only [hi, hs]

/-- Predicates that only depend on the objects outside of containers. -/
def Loose (E : Elem S A X) (P : NS N S → Prop) : Prop := ∀ s s' : NS N S, outside E s' = outside E s → P s → P s'

/-- Predicates that stay true when objects are constructed in nodes. -/
def Grows (E : Elem S A X) (P : NS N S → Prop) : Prop :=
  ∀ s s' : NS N S, outside E s' = outside E s → (∀ q a, E.val s.i q = some a → E.val s'.i q = some a) → P s → P s'

theorem Loose.grows (h : Loose E P) : Grows E P := fun s s' h1 _ => h s s' h1

theorem Grows.stable (h : Grows E P) : Stable P := fun s o h1 _ h0 => h s ⟨o, s.i⟩ (outside_eq rfl h1) (fun _ _ h => h) h0

/-- The objects outside of containers are `u`. -/
def Keep (E : Elem S A X) (u : (Ptr → Option A) × X) (s : NS N S) : Prop := outside E s = u

theorem Keep.loose : Loose E (Keep (N := N) E u) := fun _ _ h1 h2 => h1.trans h2

/-- The object `t` has the value `v`. -/
def Knows (E : Elem S A X) (t : Ptr) (v : A) (s : NS N S) : Prop := E.val s.i t = some v

theorem Knows.grows {t : Ptr} {v : A} : Grows E (Knows (N := N) E t v) := fun _ _ _ h1 h2 => h1 _ _ h2

theorem Grows.and {P' : NS N S → Prop} (h : Grows E P) (h' : Grows E P') : Grows E fun s => P s ∧ P' s :=
  fun s s' h1 h2 h3 => ⟨h s s' h1 h2 h3.1, h' s s' h1 h2 h3.2⟩

theorem Stable.and {P' : NS N S → Prop} (h : Stable P) (h' : Stable P') : Stable fun s => P s ∧ P' s :=
  fun s o h1 h2 h3 => ⟨h s o h1 h2 h3.1, h' s o h1 h2 h3.2⟩

/-- Predicates that only depend on the objects and on the nodes they are in. -/
def Calm (E : Elem S A X) (P : NS N S → Prop) : Prop :=
  ∀ s s' : NS N S, (∀ p q, Held s'.o p q ↔ Held s.o p q) → s'.o.err = s.o.err → E.val s'.i = E.val s.i → E.rest s'.i = E.rest s.i →
    P s → P s'

theorem Calm.stable (h : Calm E P) : Stable P := fun s o h1 h2 h0 => h s ⟨o, s.i⟩ h1 h2 rfl rfl h0

theorem Grows.calm (h : Grows E P) : Calm E P := fun s s' h1 _ h3 h4 h0 =>
  h s s' (by unfold outside Owned; simp only [h1, h3, h4]) (fun _ _ h => by rw [h3]; exact h) h0

theorem Calm.and {P' : NS N S → Prop} (h : Calm E P) (h' : Calm E P') : Calm E fun s => P s ∧ P' s :=
  fun s s' h1 h2 h3 h4 h5 => ⟨h s s' h1 h2 h3 h4 h5.1, h' s s' h1 h2 h3 h4 h5.2⟩

/-- The objects are those of `s₀`, in the same nodes. -/
def Frozen (E : Elem S A X) (s₀ s : NS N S) : Prop :=
  (∀ p q, Held s.o p q ↔ Held s₀.o p q) ∧ s.o.err = s₀.o.err ∧ E.val s.i = E.val s₀.i ∧ E.rest s.i = E.rest s₀.i

theorem Frozen.calm {s₀ : NS N S} : Calm E (Frozen E s₀) := fun _ _ h1 h2 h3 h4 ⟨k1, k2, k3, k4⟩ =>
  ⟨fun p q => (h1 p q).trans (k1 p q), h2.trans k2, h3.trans k3, h4.trans k4⟩

/-- There is no error. -/
def NoErr (s : NS N S) : Prop := s.o.err = none

theorem NoErr.stable : Stable (NoErr (N := N) (S := S)) := fun _ _ _ h1 h2 => h1.trans h2

omit [Cell N] in
theorem failed_false {s : NS N S} {P : NS N S → Prop} (h : P s ∧ s.o.err.isSome = false) : NoErr s := by
  unfold NoErr; simpa using h.2

/-- Reading the element of a node. -/
theorem QSim.elem {k : Ptr → M (NS N S) α} {l : A → M (World (N A)) α}
    (h : ∀ q v, QSim E (fun s => P s ∧ Held s.o p q ∧ Knows E q v s) (k q) (l v) Q) :
    QSim E P (onO (theVal p) >>= k) (theVal p >>= l) Q := by
  intro s w hR hP r w' hr
  obtain ⟨v, w1, h1, h2⟩ := runs_steps hr
  obtain ⟨h3, ⟨c, h4, h5⟩, rfl⟩ := runs_theVal.1 h1
  obtain ⟨c', h6, rfl⟩ := hR.same.some h4
  rw [get_abs] at h5
  obtain ⟨q, h7, h8⟩ := Option.bind_eq_some_iff.1 h5
  obtain ⟨s', h9⟩ := h q v s _ hR ⟨hP, ⟨c', h6, h7⟩, h8⟩ r w' h2
  exact ⟨s', VO.runs_bind_iff.2 ⟨_, _, runs_onO (runs_theVal.2 ⟨h3, ⟨c', h6, h7⟩, rfl⟩), h9.1⟩, h9.2⟩

/-- As `QSim.elem`, for programs that construct elements. -/
theorem Sim.elem {k : Ptr → M (NS N S) α} {l : A → M (World (N A)) α}
    (h : ∀ q v, Sim E (fun s => P s ∧ Held s.o p q ∧ Knows E q v s) (k q) (l v) Q) :
    Sim E P (onO (theVal p) >>= k) (theVal p >>= l) Q := by
  intro s w hR hP hA
  obtain ⟨r, w', hr⟩ := hA w.env.ctor fun _ _ => rfl
  obtain ⟨v, w1, h1, h2⟩ := runs_steps hr
  obtain ⟨h3, ⟨c, h4, h5⟩, rfl⟩ := runs_theVal.1 h1
  have hrd : ∀ cc, Runs (theVal p) (oracle w cc) v (oracle w cc) := fun cc => runs_theVal.2 ⟨h3, ⟨c, h4, h5⟩, rfl⟩
  obtain ⟨c', h6, rfl⟩ := hR.same.some h4
  rw [get_abs] at h5
  obtain ⟨q, h7, h8⟩ := Option.bind_eq_some_iff.1 h5
  obtain ⟨r', s', w'', h9, h10, h11, h12, h13⟩ := h q v s _ hR ⟨hP, ⟨c', h6, h7⟩, h8⟩ (fun cc hc => by
    obtain ⟨r1, w1, k1⟩ := hA cc hc
    obtain ⟨v', w2, k2, k3⟩ := runs_steps k1
    obtain ⟨rfl, rfl⟩ := Runs.det k2 (hrd cc)
    exact ⟨_, _, k3⟩)
  exact ⟨r', s', w'', VO.runs_bind_iff.2 ⟨_, _, runs_onO (runs_theVal.2 ⟨h3, ⟨c', h6, h7⟩, rfl⟩), h9⟩, h10, h11, h12,
    fun cc hc => VO.runs_bind_iff.2 ⟨_, _, hrd cc, h13 cc hc⟩⟩

/-- Comparing two objects. -/
theorem QSim.compare {less : Ptr → Ptr → M S Bool} {lt : A → A → Bool} (hc : Compares E less lt) {a b : Ptr} {x y : A}
    (hP : Calm E P) : QSim E (fun s => P s ∧ Knows E a x s ∧ Knows E b y s) (compare less a b) (cmp lt x y : M (World (N A)) Bool)
      fun _ s => P s := by
  intro s w hR ⟨h0, h1, h2⟩ r w' hr
  cases hr
  obtain ⟨r, i', h3, rfl, h4, h5, h6⟩ := (hc _ _ _ _ _ hR.inv h1 h2).runs
  refine ⟨⟨{ s.o with nCmp := s.o.nCmp + 1 }, i'⟩, VO.runs_bind_iff.2 ⟨_, _, runs_onI h3, rfl⟩, ⟨h4, ?_, ?_, hR.err⟩,
    hP s _ (fun _ _ => .rfl) rfl h6 h5 h0, ⟨rfl, rfl, rfl, rfl, fun _ h => h⟩⟩
  · have hS := hR.same
    rw [← h6] at hS
    exact ⟨hS.heap, hS.live, hS.typed, hS.addr, hS.junk, hS.nAlloc, by simp [hS.nCmp], hS.sp⟩
  · exact hR.uniq

/-- Asking two objects something, `eq` say, without changing them. -/
theorem QSim.ask {eqv : Ptr → Ptr → M S Bool} {eq : A → A → Bool} (hc : Compares E eqv eq) {a b : Ptr} {x y : A} (hP : Calm E P)
    {k : Bool → M (NS N S) α} {n : M (World (N A)) α}
    (h : QSim E P (k (eq x y)) n Q) : QSim E (fun s => P s ∧ Knows E a x s ∧ Knows E b y s) (onI (eqv a b) >>= k) n Q := by
  intro s w hR ⟨h0, h1, h2⟩ r w' hr
  obtain ⟨r1, i', h3, rfl, h4, h5, h6⟩ := (hc _ _ _ _ _ hR.inv h1 h2).runs
  have hS := hR.same
  rw [← h6] at hS
  obtain ⟨s', k1, k2⟩ := h ⟨s.o, i'⟩ w ⟨h4, hS, hR.uniq, hR.err⟩
    (hP s _ (fun _ _ => .rfl) rfl h6 h5 h0) r w' hr
  exact ⟨s', VO.runs_bind_iff.2 ⟨_, _, runs_onI h3, k1⟩, k2⟩

/-- Allocation of a node. -/
theorem Sim.allocCell (hP : Grows E P) {init : N Ptr → N Ptr} {init' : N A → N A} (hn : ∀ c, get (init c) = none)
    (ha : ∀ f c, init' (abs (fun _ => Option.none) c) = abs f (init c)) :
    Sim E P (onO (allocCell init)) (allocCell init' : M (World (N A)) Ptr) fun p s => P s ∧ (NoErr s → ∃ d, p = .dyn d) := by
  intro s w hR h0 hA
  have hno : ∀ o' : World (N Ptr), o'.heap = s.o.heap → P ⟨o', s.i⟩ :=
    fun o' ho => hP s _ (outside_eq rfl fun p q => by simp only [Held, ho]) (fun _ _ h => h) h0
  have hf : Rel E ⟨{ s.o with nAlloc := s.o.nAlloc + 1, err := some .badAlloc }, s.i⟩
      { w with nAlloc := w.nAlloc + 1, err := some .badAlloc } :=
    ⟨hR.inv, ⟨hR.same.heap, hR.same.live, hR.same.typed, hR.same.addr, hR.same.junk, by simp [hR.same.nAlloc], hR.same.nCmp, hR.same.sp⟩,
      hR.uniq, rfl⟩
  have hl : Later w { w with nAlloc := w.nAlloc + 1, err := some .badAlloc } :=
    ⟨Nat.le_refl _, fun _ _ => rfl, fun h => by cases h⟩
  cases e1 : w.env.addr w.nAlloc with
  | none =>
    have e1' : s.o.env.addr s.o.nAlloc = none := by rw [← hR.same.addr, ← hR.same.nAlloc]; exact e1
    refine ⟨.null, _, _, runs_onO (o := { s.o with nAlloc := s.o.nAlloc + 1, err := some .badAlloc }) ?_, hf, ⟨hno _ rfl, fun h => by cases h⟩, hl,
      fun c _ => ?_⟩
    · unfold Runs Nestl.allocCell; simp only [e1']
    · unfold Runs Nestl.allocCell oracle; simp only [e1]
  | some d =>
    have e1' : s.o.env.addr s.o.nAlloc = some d := by rw [← hR.same.addr, ← hR.same.nAlloc]; exact e1
    cases e2 : w.heap (.dyn d) with
    | some c0 =>
      obtain ⟨c', h3, -⟩ := hR.same.some e2
      refine ⟨.null, _, _, runs_onO (o := { s.o with nAlloc := s.o.nAlloc + 1, err := some .badAlloc }) ?_, hf, ⟨hno _ rfl, fun h => by cases h⟩, hl,
        fun c _ => ?_⟩
      · unfold Runs Nestl.allocCell; simp only [e1', h3]
      · unfold Runs Nestl.allocCell oracle; simp only [e1, e2]
    | none =>
      have h3 := (hR.same.none _).1 e2
      have hd : (s.o.heap (.dyn d)).bind get = (some (init (s.o.env.junk s.o.nAlloc))).bind get := by rw [h3]; simp [hn]
      have hh := held_upd (o' := { s.o with nAlloc := s.o.nAlloc + 1, heap := upd s.o.heap (.dyn d) (some (init (s.o.env.junk s.o.nAlloc))) }) rfl hd
      refine ⟨.dyn d, _, _, runs_onO (o := { s.o with nAlloc := s.o.nAlloc + 1, heap := upd s.o.heap (.dyn d) (some (init (s.o.env.junk s.o.nAlloc))) }) ?_,
        ⟨hR.inv, hR.same.upd (w' := { w with nAlloc := w.nAlloc + 1, heap := upd w.heap (.dyn d) (some (init' (w.env.junk w.nAlloc))) })
          rfl ?_ hd rfl rfl (by simp [hR.same.nAlloc]) hR.same.nCmp hR.same.sp,
          fun p p' q a b => hR.uniq p p' q ((hh _ _).1 a) ((hh _ _).1 b), hR.err⟩,
        ⟨hP s _ (outside_eq rfl hh) (fun _ _ h => h) h0, fun _ => ⟨d, rfl⟩⟩, ⟨Nat.le_refl _, fun _ _ => rfl, fun h => ⟨h, fun k h1 h2 => by simp only at h2; omega⟩⟩, fun c _ => ?_⟩
      · unfold Runs Nestl.allocCell; simp only [e1', h3]; rfl
      · simp only [Option.map_some, hR.same.junk, ha (E.val s.i), hR.same.nAlloc]
      · unfold Runs Nestl.allocCell oracle; simp only [e1, e2]; rfl

/-! ### Construction -/

/-- What a construction needs. -/
theorem ctorAt_needs {v : A} (hA : AllSafe (ctorAt p v) w) : p ≠ .null ∧ ∃ c, w.heap p = some c ∧ get c = none := by
  obtain ⟨r, w1, h⟩ := hA (fun k => if k = w.nCtor then true else w.env.ctor k) (fun k hk => by simp; omega)
  obtain ⟨b, t, h1, h2⟩ := runs_steps h
  obtain ⟨rfl, rfl⟩ := Runs.det h1 (runs_tryCtor true (by simp [oracle]))
  obtain ⟨h3, c, h4, h5, -⟩ := runs_beginVal.1 h2
  exact ⟨h3, c, h4, h5⟩

/-- The state of the values after a construction. -/
def ctorDone (w : World (N A)) (p : Ptr) (c : N A) (v : A) : World (N A) :=
  oracle ({ w with nCtor := w.nCtor + 1 }.setHeap (upd w.heap p (some (put (some v) c)))) fun k => if k = w.nCtor then true else w.env.ctor k

/-- The state of the values after a construction that failed. -/
def ctorFailed (w : World (N A)) : World (N A) :=
  oracle { w with nCtor := w.nCtor + 1, err := some .ctorFailed } fun k => if k = w.nCtor then false else w.env.ctor k

theorem ctorDone.later {c : N A} {v : A} : Later w (ctorDone w p c v) := by
  refine ⟨Nat.le_succ _, fun k hk => ?_, fun h => ⟨h, fun k h1 h2 => ?_⟩⟩
  · show (if _ then _ else _) = _
    rw [if_neg (by omega)]
  · show (if _ then _ else _) = _
    have h2 : k < w.nCtor + 1 := h2
    rw [if_pos (by omega)]

omit [Cell N] in
theorem ctorFailed.later : Later w (ctorFailed w) := by
  refine ⟨Nat.le_succ _, fun k hk => ?_, fun h => by cases h⟩
  show (if _ then _ else _) = _
  rw [if_neg (by omega)]

theorem runs_ctorDone {c : N A} {v : A} (hp : p ≠ .null) (hc : w.heap p = some c) (hn : get c = none) {d : Nat → Bool}
    (hd : ∀ k, k < (ctorDone w p c v).nCtor → d k = (ctorDone w p c v).env.ctor k) :
    Runs (ctorAt p v) (oracle w d) () (oracle (ctorDone w p c v) d) := by
  refine VO.runs_bind_iff.2 ⟨_, _, runs_tryCtor (w := oracle w d) true ?_, ?_⟩
  · refine (hd _ (Nat.lt_succ_self _)).trans ?_
    simp [ctorDone, oracle]
  · exact runs_beginVal.2 ⟨hp, c, hc, hn, rfl⟩

theorem runs_ctorFailed {v : A} {d : Nat → Bool} (hd : ∀ k, k < (ctorFailed w).nCtor → d k = (ctorFailed w).env.ctor k) :
    Runs (ctorAt p v) (oracle w d) () (oracle (ctorFailed w) d) := by
  refine VO.runs_bind_iff.2 ⟨_, _, runs_tryCtor (w := oracle w d) false ?_, rfl⟩
  refine (hd _ (Nat.lt_succ_self _)).trans ?_
  simp [ctorFailed, oracle]

/-- A new object becomes the element of the node `p`. -/
theorem settle_ok (hR : Rel E s w) {q : Ptr} {v : A} {c : N A} {i' : S} {f : Ptr → Option A} (hp : p ≠ .null) (hd : ∃ a, p = .dyn a)
    (hc : w.heap p = some c) (hn : get c = none) (hin : E.inv i') (hr : E.rest i' = E.rest s.i) (hq : E.val s.i q = none)
    (hf : ∀ x, Owned s.o x → f x = E.val s.i x) (hv : E.val i' = upd f q (some v)) :
    ∃ s', Runs (settle p (.ok q)) ⟨s.o, i'⟩ () s' ∧ Rel E s' (ctorDone w p c v) ∧ s'.o.err = s.o.err ∧ s'.i = i' ∧
      outside E s' = (fun x => if Owned s.o x then none else if x = q then none else f x, E.rest s.i) := by
  obtain ⟨c', h1, rfl⟩ := hR.same.some hc
  have hq' : ∀ x, Held s.o x q → False := fun x hx => hR.same.live _ _ hx hq
  have h2 : get c' = none := by
    rw [get_abs] at hn
    rcases e : get c' with _ | x
    · rfl
    · rw [e] at hn; exact (hR.same.live _ _ ⟨c', h1, e⟩ hn).elim
  have hh : ∀ x y, Held (s.o.setHeap (upd s.o.heap p (some (put (some q) c')))) x y ↔ x = p ∧ y = q ∨ Held s.o x y := by
    intro x y
    unfold Held
    rw [World.setHeap_heap, upd_apply]
    split
    · rename_i e; subst e
      constructor
      · rintro ⟨d, h3, h4⟩; cases h3; rw [get_put] at h4; cases h4; exact .inl ⟨rfl, rfl⟩
      · rintro (⟨-, rfl⟩ | ⟨d, h3, h4⟩)
        · exact ⟨_, rfl, get_put _ _⟩
        · rw [h1] at h3; cases h3; rw [h2] at h4; cases h4
    · rename_i e
      constructor
      · exact .inr
      · rintro (⟨h3, -⟩ | h3)
        · exact (e h3).elim
        · exact h3
  have hval : ∀ x, Owned s.o x → E.val i' x = E.val s.i x := by
    intro x hx
    rw [hv, upd_other _ _ (by rintro rfl; obtain ⟨y, hy⟩ := hx; exact hq' _ hy), hf x hx]
  refine ⟨⟨s.o.setHeap (upd s.o.heap p (some (put (some q) c'))), i'⟩, runs_onO (runs_beginVal.2 ⟨hp, c', h1, h2, rfl⟩),
    ⟨hin, ⟨?_, ?_, ?_, hR.same.addr, hR.same.junk, hR.same.nAlloc, hR.same.nCmp, hR.same.sp⟩, ?_, hR.err⟩, rfl, rfl, ?_⟩
  · intro x
    have hx : ∀ d, s.o.heap x = some d → abs (E.val i') d = abs (E.val s.i) d :=
      fun d hd => abs_congr _ _ _ fun y hy => hval y ⟨x, d, hd, hy⟩
    show upd w.heap p _ x = (upd s.o.heap p _ x).map _
    rw [upd_apply, upd_apply]
    split
    · rename_i e
      subst e
      simp only [Option.map_some, abs_put, Option.bind_some, hx _ h1, show E.val i' q = some v by rw [hv, upd_same]]
    · rw [hR.same.heap]
      rcases e : s.o.heap x with _ | d
      · rfl
      · simp only [Option.map_some, hx _ e]
  · intro x y hy
    rcases (hh x y).1 hy with ⟨-, rfl⟩ | h3
    · simp only [hv, upd_same]; simp
    · simp only [hval y ⟨x, h3⟩]; exact hR.same.live _ _ h3
  · intro x y hy
    rcases (hh x y).1 hy with ⟨rfl, -⟩ | h3
    · exact hd
    · exact hR.same.typed _ _ h3
  · intro x x' y hy hy'
    rcases (hh x y).1 hy with ⟨rfl, rfl⟩ | h3 <;> rcases (hh x' y).1 hy' with ⟨e, e'⟩ | h4
    · exact e.symm
    · exact (hq' _ h4).elim
    · subst e'; exact (hq' _ h3).elim
    · exact hR.uniq _ _ _ h3 h4
  · have ho : ∀ x, Owned (s.o.setHeap (upd s.o.heap p (some (put (some q) c')))) x ↔ x = q ∨ Owned s.o x := by
      intro x
      constructor
      · rintro ⟨y, hy⟩
        rcases (hh y x).1 hy with ⟨-, rfl⟩ | h3
        · exact .inl rfl
        · exact .inr ⟨y, h3⟩
      · rintro (rfl | ⟨y, hy⟩)
        · exact ⟨p, (hh _ _).2 (.inl ⟨rfl, rfl⟩)⟩
        · exact ⟨y, (hh _ _).2 (.inr hy)⟩
    unfold outside
    simp only [ho, hr, hv, upd_apply]
    congr 1
    funext x
    by_cases e1 : x = q
    · simp [e1]
    · simp [e1]

theorem settle_error (hR : Rel E s w) {e : Err} {i' : S} (hin : E.inv i') (hr : E.rest i' = E.rest s.i)
    (hv : E.val i' = E.val s.i) :
    ∃ s', Runs (settle p (.error e)) ⟨s.o, i'⟩ () s' ∧ Rel E s' (ctorFailed w) ∧ s'.i = i' ∧ outside E s' = outside E s := by
  have hS := hR.same
  rw [← hv] at hS
  refine ⟨⟨{ s.o with err := some e }, i'⟩, rfl, ⟨hin, ⟨hS.heap, hS.live, hS.typed, hS.addr, hS.junk, hS.nAlloc, hS.nCmp, hS.sp⟩,
    hR.uniq, rfl⟩, rfl, ?_⟩
  unfold outside; simp only [hv, hr]; rfl

theorem outside_same (hR : Rel E s w) {q : Ptr} (hq : E.val s.i q = none) :
    (fun x => if Owned s.o x then none else if x = q then none else E.val s.i x, E.rest s.i) = outside E s := by
  unfold outside
  congr 1
  funext x
  by_cases e1 : Owned s.o x
  · simp [e1]
  · by_cases e2 : x = q
    · subst e2; simp [e1, hq]
    · simp [e1, e2]

/-- The element that an argument stands for. -/
def ArgRel (E : Elem S A X) : Arg → A → NS N S → Prop
  | .obj t, v, s => Knows E t v s
  | .mov _, _, _ => False
  | .none, v, _ => v = E.blank

theorem ArgRel.grows {a : Arg} {v : A} : Grows E (ArgRel (N := N) E a v) := by
  cases a with
  | obj t => exact Knows.grows
  | mov t => exact fun _ _ _ _ h => h
  | none => exact fun _ _ _ _ h => h

/-- Construction of an element. -/
theorem Sim.construct (hP : Grows E P) {d : Nat} {a : Arg} {v : A} :
    Sim E (fun s => P s ∧ ArgRel E a v s) (construct E.toElemOps (.dyn d) a) (ctorAt (.dyn d) v : M (World (N A)) Unit) fun _ s => P s := by
  intro s w hR ⟨h0, ha⟩ hA
  obtain ⟨hp, c, hc, hn⟩ := ctorAt_needs hA
  cases a with
  | mov t => exact ha.elim
  | obj t =>
    obtain ⟨r, i', h1, h2, h3, h4⟩ := (E.copy_ok _ _ _ hR.inv ha).runs
    cases r with
    | ok q =>
      obtain ⟨s', k1, k2, k3, k4, k5⟩ := settle_ok hR hp ⟨d, rfl⟩ hc hn h2 h3 h4.1 (fun _ _ => rfl) h4.2
      refine ⟨(), s', _, VO.runs_bind_iff.2 ⟨_, _, runs_onI h1, k1⟩, k2, hP s s' (k5.trans (outside_same hR h4.1)) ?_ h0,
        ctorDone.later, fun c' hc' => runs_ctorDone hp hc hn hc'⟩
      intro x y hx
      rw [k4, h4.2, upd_other _ _ (by rintro rfl; rw [h4.1] at hx; cases hx)]
      exact hx
    | error e =>
      obtain ⟨s', k1, k2, k3, k4⟩ := settle_error (p := .dyn d) (e := e) hR h2 h3 h4
      refine ⟨(), s', _, VO.runs_bind_iff.2 ⟨_, _, runs_onI h1, k1⟩, k2, hP s s' k4 ?_ h0,
        ctorFailed.later, fun c' hc' => runs_ctorFailed hc'⟩
      intro x y hx
      rw [k3, h4]; exact hx
  | none =>
    have ha : v = E.blank := ha
    subst ha
    obtain ⟨q, i', h1, h2, h3, h4, h5⟩ := (E.make_ok _ hR.inv).runs
    obtain ⟨s', k1, k2, k3, k4, k5⟩ := settle_ok hR hp ⟨d, rfl⟩ hc hn h2 h3 h4 (fun _ _ => rfl) h5
    refine ⟨(), s', _, VO.runs_bind_iff.2 ⟨_, _, runs_onI h1, k1⟩, k2, hP s s' (k5.trans (outside_same hR h4)) ?_ h0,
      ctorDone.later, fun c' hc' => runs_ctorDone hp hc hn hc'⟩
    intro x y hx
    rw [k4, h5, upd_other _ _ (by rintro rfl; rw [h4] at hx; cases hx)]
    exact hx

/-- After moving the object `t` into a container, it has the value of a moved-from object. -/
noncomputable def movedOut (E : Elem S A X) (u : (Ptr → Option A) × X) (t : Ptr) : (Ptr → Option A) × X :=
  (upd u.1 t (some E.blank), u.2)

theorem Sim.construct_move {d : Nat} {t : Ptr} {x : A} (ht : u.1 t = some x) :
    Sim E (fun s => Keep E u s ∧ NoErr s) (NO.construct E.toElemOps (.dyn d) (.mov t)) (ctorAt (.dyn d) x : M (World (N A)) Unit)
      fun _ s => Keep E (movedOut E u t) s ∧ NoErr s := by
  intro s w hR ⟨hK, he⟩ hA
  obtain ⟨hp, c, hc, hn⟩ := ctorAt_needs hA
  have ht' : ¬ Owned s.o t ∧ E.val s.i t = some x := by
    rw [← show outside E s = u from hK] at ht
    unfold outside at ht
    simp only at ht
    split at ht
    · cases ht
    · exact ⟨‹_›, ht⟩
  obtain ⟨q, i', h1, h2, h3, h4, h5⟩ := (E.move_ok _ _ _ hR.inv ht'.2).runs
  obtain ⟨s', k1, k2, k3, -, k4⟩ := settle_ok hR hp ⟨d, rfl⟩ hc hn h2 h3 h4
    (fun x hx => upd_other _ _ (by rintro rfl; exact ht'.1 hx)) h5
  refine ⟨(), s', _, VO.runs_bind_iff.2 ⟨_, _, runs_onI h1, k1⟩, k2, ⟨k4.trans ?_, k3.trans he⟩, ctorDone.later,
    fun c' hc' => runs_ctorDone hp hc hn hc'⟩
  rw [← show outside E s = u from hK]
  unfold movedOut outside
  congr 1
  funext y
  simp only [upd_apply]
  by_cases e1 : y = t
  · subst e1
    have : y ≠ q := by rintro rfl; rw [ht'.2] at h4; cases h4
    simp [ht'.1, this]
  · by_cases e2 : Owned s.o y
    · simp [e1, e2]
    · by_cases e3 : y = q
      · subst e3; simp [e1, e2, h4]
      · simp [e1, e2, e3]

/-! ### Destruction -/

theorem QSim.destroyElem (hP : Loose E P) (p : Ptr) :
    QSim E P (destroyElem E.toElemOps p) (endVal p : M (World (N A)) Unit) fun _ s => P s := by
  intro s w hR h0 r w' hr
  obtain ⟨hp, c, v, hc, hn, rfl⟩ := runs_endVal.1 hr
  obtain ⟨c', h1, rfl⟩ := hR.same.some hc
  rw [get_abs] at hn
  obtain ⟨q, h2, h3⟩ := Option.bind_eq_some_iff.1 hn
  obtain ⟨_, i', h4, h5, h6, h7⟩ := (E.drop_ok _ _ hR.inv (by rw [h3]; simp)).runs
  have hh : ∀ x y, Held (s.o.setHeap (upd s.o.heap p (some (put none c')))) x y ↔ x ≠ p ∧ Held s.o x y := by
    intro x y
    unfold Held
    rw [World.setHeap_heap, upd_apply]
    split
    · rename_i e
      constructor
      · rintro ⟨d, h3, h4⟩; cases h3; rw [get_put] at h4; cases h4
      · rintro ⟨h3, -⟩; exact (h3 e).elim
    · rename_i e
      exact ⟨fun h => ⟨e, h⟩, fun h => h.2⟩
  have hq : ∀ x y, x ≠ p → Held s.o x y → y ≠ q := by
    rintro x y hx hy rfl
    exact hx (hR.uniq _ _ _ hy ⟨c', h1, h2⟩)
  have hval : ∀ x y, x ≠ p → Held s.o x y → E.val i' y = E.val s.i y := by
    intro x y hx hy
    rw [h7]; exact upd_other _ _ (hq x y hx hy)
  have hown : ∀ y, Owned (s.o.setHeap (upd s.o.heap p (some (put none c')))) y ↔ Owned s.o y ∧ y ≠ q := by
    intro y
    constructor
    · rintro ⟨x, hx⟩
      obtain ⟨k1, k2⟩ := (hh x y).1 hx
      exact ⟨⟨x, k2⟩, hq x y k1 k2⟩
    · rintro ⟨⟨x, hx⟩, hne⟩
      refine ⟨x, (hh x y).2 ⟨?_, hx⟩⟩
      rintro rfl
      obtain ⟨d, k1, k2⟩ := hx
      rw [h1] at k1; cases k1
      rw [h2] at k2; cases k2
      exact hne rfl
  have hout : outside E ⟨s.o.setHeap (upd s.o.heap p (some (put none c'))), i'⟩ = outside E s := by
    unfold outside
    simp only [hown, h6, h7, upd_apply]
    congr 1
    funext y
    by_cases e1 : y = q
    · subst e1; simp [show Owned s.o y from ⟨_, c', h1, h2⟩]
    · simp [e1]
  refine ⟨⟨s.o.setHeap (upd s.o.heap p (some (put none c'))), i'⟩, ?_, ⟨h5, ⟨?_, ?_, ?_, hR.same.addr, hR.same.junk, hR.same.nAlloc,
    hR.same.nCmp, hR.same.sp⟩, ?_, hR.err⟩, hP s _ hout h0, .upd hc _⟩
  · refine VO.runs_bind_iff.2 ⟨_, _, runs_onO (runs_theVal.2 ⟨hp, ⟨c', h1, h2⟩, rfl⟩), VO.runs_bind_iff.2 ⟨_, _, runs_onI h4, ?_⟩⟩
    exact runs_onO (s := ⟨s.o, i'⟩) (runs_endVal.2 ⟨hp, c', q, h1, h2, rfl⟩)
  · intro x
    show upd w.heap p _ x = (upd s.o.heap p _ x).map _
    rw [upd_apply, upd_apply]
    split
    · simp only [Option.map_some, abs_put, Option.bind_none]
      congr 1
      have := abs_congr (E.val s.i) (E.val i') (put none c') (fun y hy => by rw [get_put] at hy; cases hy)
      rw [abs_put, abs_put] at this
      exact this
    · rename_i e
      rw [hR.same.heap]
      rcases e' : s.o.heap x with _ | d
      · rfl
      · simp only [Option.map_some]
        exact congrArg _ (abs_congr _ _ _ fun y hy => (hval x y e ⟨d, e', hy⟩).symm)
  · intro x y hy
    obtain ⟨k1, k2⟩ := (hh x y).1 hy
    simp only [hval x y k1 k2]
    exact hR.same.live _ _ k2
  · intro x y hy
    exact hR.same.typed _ _ ((hh x y).1 hy).2
  · intro x x' y hy hy'
    exact hR.uniq _ _ _ ((hh x y).1 hy).2 ((hh x' y).1 hy').2

/-! ### Loops that construct elements -/

/-- All constructors succeed from now on. -/
def allTrue (w : World (N A)) (k : Nat) : Bool := if k < w.nCtor then w.env.ctor k else true

/-- `n` is an approximation of the loop `n₀`: if it ends when all constructors succeed, then `m` does what `n₀` does. -/
def LSim (E : Elem S A X) (P : NS N S → Prop) (m : M (NS N S) α) (n n₀ : M (World (N A)) α) (Q : α → NS N S → Prop) : Prop :=
  ∀ s w, Rel E s w → P s → AllSafe n₀ w → ∀ r w', Runs n (oracle w (allTrue w)) r w' →
    ∃ r s' w', Runs m s r s' ∧ Rel E s' w' ∧ Q r s' ∧ Later w w' ∧
      ∀ c, (∀ k, k < w'.nCtor → c k = w'.env.ctor k) → Runs n₀ (oracle w c) r (oracle w' c)

variable {m m' : M (NS N S) α} {n n' n₀ n₀' : M (World (N A)) α}

theorem LSim.of_sim (h : Sim E P m n₀ Q) : LSim E P m n n₀ Q := fun s w hR hP hA _ _ _ => h s w hR hP hA

theorem LSim.sim (h : LSim E P m n₀ n₀ Q) : Sim E P m n₀ Q := by
  intro s w hR hP hA
  obtain ⟨r, w', hr⟩ := hA (allTrue w) fun k hk => by simp [allTrue, hk]
  exact h s w hR hP hA r w' hr

theorem LSim.ite {c : Prop} {i j k : Decidable c} (h1 : c → LSim E P m n n₀ Q) (h2 : ¬ c → LSim E P m' n' n₀' Q) :
    LSim E P (@_root_.ite _ c i m m') (@_root_.ite _ c j n n') (@_root_.ite _ c k n₀ n₀') Q := by
  by_cases h : c
  · rw [if_pos h, if_pos h, if_pos h]; exact h1 h
  · rw [if_neg h, if_neg h, if_neg h]; exact h2 h

theorem LSim.weaken {P' : NS N S → Prop} {Q' : α → NS N S → Prop} (h : LSim E P m n n₀ Q) (hp : ∀ s, P' s → P s) (hq : ∀ r s, Q r s → Q' r s) :
    LSim E P' m n n₀ Q' := by
  intro s w hR hP hA r w' hr
  obtain ⟨r, s', w', h1, h2, h3, h4⟩ := h s w hR (hp s hP) hA r w' hr
  exact ⟨r, s', w', h1, h2, hq _ _ h3, h4⟩

/-- A part of a loop, after which the loop ends if there is an error. -/
theorem LSim.bind {k : α → M (NS N S) β} {l l₀ : α → M (World (N A)) β} {R : β → NS N S → Prop} (h1 : Sim E P m n Q)
    (h2 : ∀ r, Sim E (fun s => Q r s ∧ ¬ NoErr s) (k r) (l₀ r) R) (h3 : ∀ r, LSim E (fun s => Q r s ∧ NoErr s) (k r) (l r) (l₀ r) R) :
    LSim E P (m >>= k) (n >>= l) (n >>= l₀) R := by
  intro s w hR hP hA
  obtain ⟨r, s', w', a1, a2, a3, a4, a6⟩ := h1 s w hR hP (fun c hc => by
    obtain ⟨r, w', h⟩ := hA c hc
    obtain ⟨a, t, h, -⟩ := VO.runs_bind_iff.1 h
    exact ⟨a, t, h⟩)
  have hA' : AllSafe (l₀ r) w' := by
    intro c hc
    have hc' : ∀ k, k < w.nCtor → c k = w.env.ctor k := fun k hk => (hc k (Nat.lt_of_lt_of_le hk a4.le)).trans (a4.past k hk)
    obtain ⟨r1, w1, h⟩ := hA c hc'
    obtain ⟨a, t, k1, k2⟩ := VO.runs_bind_iff.1 h
    obtain ⟨rfl, rfl⟩ := Runs.det k1 (a6 c hc)
    exact ⟨_, _, k2⟩
  intro r0 w0 hr
  have key : ∃ r' s'' w'', Runs (k r) s' r' s'' ∧ Rel E s'' w'' ∧ R r' s'' ∧ Later w' w'' ∧
      ∀ c, (∀ k, k < w''.nCtor → c k = w''.env.ctor k) → Runs (l₀ r) (oracle w' c) r' (oracle w'' c) := by
    by_cases he : NoErr s'
    · have he' : w'.err = none := by
        have := a2.err
        rw [show s'.o.err = none from he] at this
        simpa using this
      have hag : ∀ k, allTrue w k = allTrue w' k := by
        intro k
        unfold allTrue
        by_cases e1 : k < w.nCtor
        · rw [if_pos e1, if_pos (Nat.lt_of_lt_of_le e1 a4.le), a4.past k e1]
        · rw [if_neg e1]
          by_cases e2 : k < w'.nCtor
          · rw [if_pos e2, (a4.done he').2 k (by omega) e2]
          · rw [if_neg e2]
      obtain ⟨a, t, k1, k2⟩ := VO.runs_bind_iff.1 hr
      obtain ⟨rfl, rfl⟩ := Runs.det k1 (a6 _ fun k hk => by rw [hag]; simp [allTrue, hk])
      rw [funext hag] at k2
      exact h3 a s' w' a2 ⟨a3, he⟩ hA' r0 w0 k2
    · exact h2 r s' w' a2 ⟨a3, he⟩ hA'
  obtain ⟨r', s'', w'', b1, b2, b3, b4, b6⟩ := key
  exact ⟨r', s'', w'', VO.runs_bind_iff.2 ⟨_, _, a1, b1⟩, b2, b3, a4.trans b4,
    fun c hc => VO.runs_bind_iff.2 ⟨_, _, a6 c fun k hk => (hc k (Nat.lt_of_lt_of_le hk b4.le)).trans (b4.past k hk), b6 c hc⟩⟩

/-- A part of a loop that cannot fail. -/
theorem LSim.bind' {k : α → M (NS N S) β} {l l₀ : α → M (World (N A)) β} {R : β → NS N S → Prop} (h1 : Sim E P m n Q)
    (he : ∀ r s, Q r s → NoErr s) (h3 : ∀ r, LSim E (Q r) (k r) (l r) (l₀ r) R) :
    LSim E P (m >>= k) (n >>= l) (n >>= l₀) R :=
  .bind h1 (fun r s w _ h => (h.2 (he r s h.1)).elim) fun r => (h3 r).weaken (fun _ h => h.1) fun _ _ h => h

/-- Reading an element in a loop. -/
theorem LSim.elem {k : Ptr → M (NS N S) α} {l l₀ : A → M (World (N A)) α}
    (h : ∀ q v, LSim E (fun s => P s ∧ Held s.o p q ∧ Knows E q v s) (k q) (l v) (l₀ v) Q) :
    LSim E P (onO (theVal p) >>= k) (theVal p >>= l) (theVal p >>= l₀) Q := by
  intro s w hR hP hA r w' hr
  obtain ⟨v, w1, h1, h2⟩ := runs_steps hr
  obtain ⟨h3, ⟨c, h4, h5⟩, rfl⟩ := runs_theVal.1 h1
  have hrd : ∀ cc, Runs (theVal p) (oracle w cc) v (oracle w cc) := fun cc => runs_theVal.2 ⟨h3, ⟨c, h4, h5⟩, rfl⟩
  obtain ⟨c', h6, rfl⟩ := hR.same.some h4
  rw [get_abs] at h5
  obtain ⟨q, h7, h8⟩ := Option.bind_eq_some_iff.1 h5
  obtain ⟨r', s', w'', h9, h10, h11, h12, h13⟩ := h q v s _ hR ⟨hP, ⟨c', h6, h7⟩, h8⟩ (fun cc hc => by
    obtain ⟨r1, w1, k1⟩ := hA cc hc
    obtain ⟨v', w2, k2, k3⟩ := runs_steps k1
    obtain ⟨rfl, rfl⟩ := Runs.det k2 (hrd cc)
    exact ⟨_, _, k3⟩) r w' h2
  exact ⟨r', s', w'', VO.runs_bind_iff.2 ⟨_, _, runs_onO (runs_theVal.2 ⟨h3, ⟨c', h6, h7⟩, rfl⟩), h9⟩, h10, h11, h12,
    fun cc hc => VO.runs_bind_iff.2 ⟨_, _, hrd cc, h13 cc hc⟩⟩

theorem LSim.admissible (P : NS N S → Prop) (m : M (NS N S) α) (n₀ : M (World (N A)) α) (Q : α → NS N S → Prop) :
    admissible (fun n : M (World (N A)) α => LSim E P m n n₀ Q) := by
  have h1 : ∀ w : World (N A), Lean.Order.admissible (fun r : Option (Except Fault (α × World (N A))) =>
      ∀ s w0, Rel E s w0 → P s → AllSafe n₀ w0 → w = oracle w0 (allTrue w0) → ∀ a w', r = some (.ok (a, w')) →
        ∃ r s' w', Runs m s r s' ∧ Rel E s' w' ∧ Q r s' ∧ Later w0 w' ∧
          ∀ c, (∀ k, k < w'.nCtor → c k = w'.env.ctor k) → Runs n₀ (oracle w0 c) r (oracle w' c)) :=
    fun w => admissible_flatOrder _ (by intro s w0 hR hP hA he a w' h; cases h)
  have h2 := admissible_pi_apply _ h1
  intro c hc hQ
  have := h2 c hc (fun x hx w s w0 hR hP hA he a w' hr => hQ x hx s w0 hR hP hA a w' (by subst he; exact hr))
  exact fun s w hR hP hA r w' hr => this _ s w hR hP hA rfl r w' hr

end Nestl.NO
