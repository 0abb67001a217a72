import Verif.SharedPtr.Make
set_option autoImplicit false
/-
Programs using `shared_ptr` and `weak_ptr`: the calls, when they are valid, what they are specified to do, and the
states a program can reach.
-/
namespace Nestl.SP

variable {V : Type}

/-- The calls.  `Loc` arguments name handles in variables or in (live) managed objects; `Ptr` arguments name
variables. -/
inductive Call (V : Type)
  | newShared
  | makeShared (alloc : Nat) (v : V) (ks : List Kind)
  | copyShared (l : Loc)
  | moveShared (l : Loc)
  | dropShared (p : Ptr)
  | assignShared (l m : Loc)
  | assignSharedY (l m : Loc)
  | moveAssignShared (l m : Loc)
  | resetShared (l : Loc)
  | swapShared (l m : Loc)
  | newWeak
  | toWeak (k : Kind) (l : Loc)
  | moveWeak (l : Loc)
  | dropWeak (p : Ptr)
  | resetWeak (l : Loc)
  | assignWeak (k : Kind) (l m : Loc)
  | moveAssignWeak (l m : Loc)
  | lock (l : Loc)

/-- Execution of a call; the result is the new variable, if there is one. -/
def exec : Call V → M (W V) (Option Ptr)
  | .newShared => do pure (some (← newShared))
  | .makeShared al v ks => do pure (some (← makeShared al v ks))
  | .copyShared l => do pure (some (← copyShared l))
  | .moveShared l => do pure (some (← moveShared l))
  | .dropShared p => do dropShared p; pure none
  | .assignShared l m => do assignShared l m; pure none
  | .assignSharedY l m => do assignSharedY l m; pure none
  | .moveAssignShared l m => do moveAssignShared l m; pure none
  | .resetShared l => do resetShared l; pure none
  | .swapShared l m => do swapShared l m; pure none
  | .newWeak => do pure (some (← newWeak))
  | .toWeak k l => do pure (some (← toWeak k l))
  | .moveWeak l => do pure (some (← moveWeak l))
  | .dropWeak p => do dropWeak p; pure none
  | .resetWeak l => do resetWeak l; pure none
  | .assignWeak k l m => do assignWeak k l m; pure none
  | .moveAssignWeak l m => do moveAssignWeak l m; pure none
  | .lock l => do pure (some (← lock l))

/-- `Moved A c p A1`: the call `c` with the new variable `p` turns the handles `A` into `A1`, not counting the
destruction of objects that lose their last owner (and apart from `make_shared`). -/
def Moved (A : Hs) (c : Call V) (r : Option Ptr) (A1 : Hs) : Prop :=
  match c, r with
  | .newShared, some p => A1 = A.put .sh (.var p) .nil
  | .copyShared l, some p => ∃ x, A .sh l x ∧ A1 = A.put .sh (.var p) x
  | .moveShared l, some p => ∃ x, A .sh l x ∧ A1 = (A.put .sh l .nil).put .sh (.var p) x
  | .dropShared p, none => A1 = A.del (.var p)
  | .assignShared l m, none => ∃ y, A .sh m y ∧ A1 = A.put .sh l y
  | .assignSharedY l m, none => ∃ y, A .sh m y ∧ A1 = A.put .sh l y
  | .moveAssignShared l m, none => ∃ y, A .sh m y ∧ A1 = (A.put .sh l y).put .sh m .nil
  | .resetShared l, none => A1 = A.put .sh l .nil
  | .swapShared l m, none => ∃ x y, A .sh l x ∧ A .sh m y ∧ A1 = (A.put .sh l y).put .sh m x
  | .newWeak, some p => A1 = A.put .wk (.var p) .nil
  | .toWeak k l, some p => ∃ x, A k l x ∧ A1 = A.put .wk (.var p) x
  | .moveWeak l, some p => ∃ x, A .wk l x ∧ A1 = (A.put .wk l .nil).put .wk (.var p) x
  | .dropWeak p, none => A1 = A.del (.var p)
  | .resetWeak l, none => A1 = A.put .wk l .nil
  | .assignWeak k l m, none => ∃ y, A k m y ∧ A1 = A.put .wk l y
  | .moveAssignWeak l m, none => ∃ y, A .wk m y ∧ A1 = (A.put .wk l y).put .wk m .nil
  | .lock l, some p => ∃ x, A .wk l x ∧ A1 = A.put .sh (.var p) x
  | _, _ => False

/-- There is a handle of kind `k` at `l`. -/
def Has (A : Hs) (k : Kind) (l : Loc) : Prop := ∃ x, A k l x

/-- When a call is valid.  The `Calm` conditions exclude the destruction of an object holding the last `weak_ptr` to
itself (property C55); move assignment needs operands that survive the release of the old target (C56); the conditions
on `assignWeak`, `moveAssignWeak` and `lock` exclude the defects of C52-C54. -/
def Valid (w : W V) (c : Call V) : Prop :=
  let A : Hs := At w.heap
  match c with
  | .newShared => True
  | .makeShared _ _ _ => True
  | .copyShared l => Has A .sh l
  | .moveShared l => Has A .sh l
  | .dropShared p => Has A .sh (.var p) ∧ Calm (A.del (.var p))
  | .assignShared l m => Has A .sh l ∧ Has A .sh m ∧ ∀ y, A .sh m y → m ≠ l → Calm (A.put .sh l y)
  | .assignSharedY l m => Has A .sh l ∧ Has A .sh m ∧ l ≠ m ∧ ∀ y, A .sh m y → Calm (A.put .sh l y)
  | .moveAssignShared l m => Has A .sh l ∧ Has A .sh m ∧ LocRooted A l ∧ LocRooted (A.put .sh l .nil) m ∧ Calm (A.put .sh l .nil)
  | .resetShared l => Has A .sh l ∧ Calm (A.put .sh l .nil)
  | .swapShared l m => Has A .sh l ∧ Has A .sh m
  | .newWeak => True
  | .toWeak k l => Has A k l
  | .moveWeak l => Has A .wk l
  | .dropWeak p => Has A .wk (.var p)
  | .resetWeak l => Has A .wk l
  | .assignWeak k l m => Has A .wk l ∧ Has A k m ∧
      (m = l → ∀ x, A .wk l x → x.ref ≠ .null → ∃ k' m' y, A k' m' y ∧ m' ≠ l ∧ y.ref = x.ref)
  | .moveAssignWeak l m => Has A .wk l ∧ Has A .wk m ∧ (l = m ∨ A .wk m .nil)
  | .lock l => Has A .wk l ∧ ∀ x, A .wk l x → x.ref ≠ .null → ∃ v, Val w.heap x.ref v

/-- The caller passes a fresh error object. -/
def ready (w : W V) : W V := { w with err := none }

/-- The start of a program. -/
def start (env : Env (Cell V)) : W V :=
  { heap := fun _ => none, env := env, nAlloc := 0, nCtor := 0, nCmp := 0, sp := 0, err := none }

/-- The states a program can reach by valid calls. -/
inductive Reach : W V → Prop
  | start (env) : Reach (start env)
  | step {w c r w'} : Reach w → Valid w c → Runs (exec c) (ready w) r w' → Reach w'

/-- Reference counting: of the handles `A1` and the objects `B1`, precisely the doomed objects (and the handles inside
them) disappear. -/
structure Collect (A1 : Hs) (B1 : Ptr → V → Prop) (A' : Hs) (B' : Ptr → V → Prop) : Prop where
  at_ : ∀ k l z, A' k l z ↔ A1 k l z ∧ ∀ b i, l = .mem b i → ¬ Doomed A1 b
  val : ∀ b v, B' b v ↔ B1 b v ∧ ¬ Doomed A1 b

/-- Effect of a call on handles, objects and the error object. -/
def Spec (A : Hs) (B : Ptr → V → Prop) (c : Call V) (r : Option Ptr) (failed : Bool) (A' : Hs) (B' : Ptr → V → Prop) : Prop :=
  (∀ p, r = some p → ∀ k z, ¬ A k (.var p) z) ∧
  match c with
  | .makeShared _ v ks => ∃ p, r = some p ∧
      ((failed = true ∧ A' = A.put .sh (.var p) .nil ∧ B' = B) ∨
       (failed = false ∧ ∃ b, b ≠ .null ∧ (∀ u, ¬ B b u) ∧ (∀ k l z, A k l z → z.ref ≠ b) ∧
          A' = (A.obj b ks).put .sh (.var p) ⟨b, b⟩ ∧ B' = fun d u => B d u ∨ (d = b ∧ u = v)))
  | c => failed = false ∧ ∃ A1, Moved A c r A1 ∧ Collect A1 B A' B'

/-- `m_ptr` and `m_refcount` always agree. -/
def Same (A : Hs) : Prop := ∀ k l z, A k l z → z.ptr = z.ref

/-- What holds between calls. -/
structure Ok (w : W V) : Prop where
  g : G (At w.heap) (Val w.heap) w
  same : Same (At w.heap)

/-- Members belong to live objects. -/
def MemOk (A : Hs) (B : Ptr → V → Prop) : Prop := ∀ k b i z, A k (.mem b i) z → ∃ v, B b v

section
variable {A : Hs} {B : Ptr → V → Prop} {w : W V}

theorem memOk_heap (h : Heap V) : MemOk (At h) (Val h) := by
  rintro k b i z ⟨c, o, h1, h2, -⟩
  exact ⟨o.val, c, o, h1, h2, rfl⟩

theorem MemOk.put (hm : MemOk A B) {k k' : Kind} {l : Loc} {x y : Hnd} (hx : A k' l x) : MemOk (A.put k l y) B := by
  intro k1 b i z hz
  by_cases h : Loc.mem b i = l
  · subst h; exact hm _ _ _ _ hx
  · rw [Hs.put, if_neg h] at hz; exact hm _ _ _ _ hz

theorem MemOk.putVar (hm : MemOk A B) {k : Kind} {p : Ptr} {y : Hnd} : MemOk (A.put k (.var p) y) B := by
  intro k1 b i z hz
  rw [Hs.put, if_neg (by intro h; cases h)] at hz; exact hm _ _ _ _ hz

theorem MemOk.del (hm : MemOk A B) {l : Loc} : MemOk (A.del l) B := fun k1 b i z hz => hm k1 b i z hz.2

theorem Same.put (hs : Same A) {k : Kind} {l : Loc} {y : Hnd} (hy : y.ptr = y.ref) : Same (A.put k l y) := by
  intro k' l' z hz
  unfold Hs.put at hz
  split at hz
  · rw [hz.2]; exact hy
  · exact hs _ _ _ hz

theorem Same.del (hs : Same A) {l : Loc} : Same (A.del l) := fun _ _ _ h => hs _ _ _ h.2

theorem Eff.collect {A' : Hs} {B' : Ptr → V → Prop} {w' : W V} (he : Eff A B A' B') (hm : MemOk A B) (s : G A' B' w') :
    Collect A B A' B' := by
  refine ⟨?_, ?_⟩
  · intro k l z
    rw [he.at_]
    constructor
    · rintro ⟨h1, h2⟩
      refine ⟨h1, ?_⟩
      rintro b i rfl
      obtain ⟨v, hv⟩ := h2 b i rfl
      exact he.not_doomed s hv
    · rintro ⟨h1, h2⟩
      refine ⟨h1, ?_⟩
      rintro b i rfl
      obtain ⟨v, hv⟩ := hm _ _ _ _ h1
      exact he.live b v hv (h2 b i rfl)
  · intro b v
    constructor
    · intro h; exact ⟨((he.val b v).1 h).1, he.not_doomed s h⟩
    · rintro ⟨h1, h2⟩; exact (he.val b v).2 ⟨h1, he.live b v h1 h2⟩

theorem Ok.ready (h : Ok w) : Ok (ready w) := ⟨h.g.same rfl (Nat.le_refl _), h.same⟩

/-- From the outcome of a call to its specification. -/
theorem Post.ok {A1 : Hs} {w w' : W V} (hp : Post A1 (Val w.heap) w w') (hm : MemOk A1 (Val w.heap)) (hs : Same A1) :
    Ok w' ∧ Collect A1 (Val w.heap) (At w'.heap) (Val w'.heap) ∧ w'.err = w.err := by
  obtain ⟨f, A', B', he, s⟩ := hp
  have h1 := s.at_
  have h2 := s.val
  subst h1; subst h2
  exact ⟨⟨s, fun k l z hz => hs k l z ((he.at_ _ _ _).1 hz).1⟩, he.collect hm s, f.err⟩

theorem wp_some {m : M (W V) Ptr} {w : W V} {Q : Option Ptr → W V → Prop} (h : wp m w fun p w' => Q (some p) w') :
    wp (do pure (some (← m))) w Q := by
  rw [wp_bind]; exact h

theorem wp_none {m : M (W V) Unit} {w : W V} {Q : Option Ptr → W V → Prop} (h : wp m w fun _ w' => Q none w') :
    wp (do m; pure none) w Q := by
  rw [wp_bind]; exact h

/-- Every valid call returns, does what it is specified to do and leaves a state in which the next call can be made. -/
theorem exec_ok (h : Ok w) {c : Call V} (hv : Valid w c) :
    wp (exec c) (ready w) fun r w' => Ok w' ∧ Spec (At w.heap) (Val w.heap) c r w'.err.isSome (At w'.heap) (Val w'.heap) := by
  have hg : G (At w.heap) (Val w.heap) (ready w) := h.ready.g
  have hm := memOk_heap w.heap
  have nil0 : Hnd.nil.ptr = Hnd.nil.ref := rfl
  have mk : ∀ (c : Call V) (r : Option Ptr) (A1 : Hs) (w' : W V), (∀ al v ks, c ≠ .makeShared al v ks) →
      Moved (At w.heap) c r A1 → (∀ p, r = some p → ∀ k z, ¬ (At w.heap) k (.var p) z) → MemOk A1 (Val w.heap) → Same A1 →
      Post A1 (Val w.heap) (ready w) w' →
      Ok w' ∧ Spec (At w.heap) (Val w.heap) c r w'.err.isSome (At w'.heap) (Val w'.heap) := by
    intro c r A1 w' hc hmv hnew hmo hsa hp
    obtain ⟨h1, h2, h3⟩ := Post.ok (w := ready w) hp hmo hsa
    have h3 : w'.err = none := h3
    refine ⟨h1, hnew, ?_⟩
    cases c <;> first
      | exact (hc _ _ _ rfl).elim
      | exact ⟨by rw [h3]; rfl, A1, hmv, h2⟩
  cases c with
  | newShared =>
    refine wp_some (wp_mono (wp_newShared hg) ?_)
    rintro p w' ⟨⟨rfl, hn⟩, hp⟩
    exact mk _ _ _ _ (by intros; simp) rfl (by rintro p h; cases h; exact hn) hm.putVar (h.same.put nil0) hp
  | makeShared al v ks =>
    refine wp_some (wp_mono (wp_makeShared hg rfl al v ks) ?_)
    rintro p w' (⟨a, hmade⟩ | hun)
    · have e1 := hmade.g.at_
      have e2 := hmade.g.val
      have hg' := hmade.g
      rw [e1, e2]
      refine ⟨⟨by rw [e1, e2]; exact hg', ?_⟩, ?_, ?_⟩
      · rw [e1]
        refine Same.put ?_ rfl
        rintro k l z (hz | ⟨i, -, -, rfl⟩)
        · exact h.same _ _ _ hz
        · rfl
      · rintro p' h; cases h
        rw [hmade.var]; exact hg.no_var _ (Nat.le_refl _)
      · refine ⟨p, rfl, .inr ⟨by rw [hmade.err]; rfl, .dyn a, (by intro e; cases e), ?_, ?_, rfl, rfl⟩⟩
        · rintro u ⟨c, o, h1, -⟩
          have := hmade.free
          rw [show (ready w).heap = w.heap from rfl, h1] at this; cases this
        · intro k l z hz e
          obtain ⟨c, hc⟩ := hg.target hz (by rw [e]; intro h; cases h)
          rw [e] at hc
          have := hmade.free
          rw [hc] at this; cases this
    · have e1 := hun.g.at_
      have e2 := hun.g.val
      have hg' := hun.g
      rw [e1, e2]
      refine ⟨⟨by rw [e1, e2]; exact hg', by rw [e1]; exact h.same.put nil0⟩, ?_, ?_⟩
      · rintro p' h; cases h
        obtain ⟨i, rfl, hi⟩ := hun.var
        exact hg.no_var _ hi
      · refine ⟨p, rfl, .inl ⟨?_, rfl, rfl⟩⟩
        have := hun.err
        cases hh : w'.err with
        | none => exact (this hh).elim
        | some e => rfl
  | copyShared l =>
    obtain ⟨x, hx⟩ := hv
    refine wp_some (wp_mono (wp_copyShared hg hx) ?_)
    rintro p w' ⟨⟨rfl, hn⟩, hp⟩
    exact mk _ _ _ _ (by intros; simp) ⟨x, hx, rfl⟩ (by rintro p h; cases h; exact hn) hm.putVar (h.same.put (h.same _ _ _ hx)) hp
  | moveShared l =>
    obtain ⟨x, hx⟩ := hv
    refine wp_some (wp_mono (wp_moveShared hg hx) ?_)
    rintro p w' ⟨⟨rfl, hn⟩, hp⟩
    exact mk _ _ _ _ (by intros; simp) ⟨x, hx, rfl⟩ (by rintro p h; cases h; exact hn) (hm.put hx).putVar
      ((h.same.put nil0).put (h.same _ _ _ hx)) hp
  | dropShared p =>
    obtain ⟨⟨x, hx⟩, hc⟩ := hv
    refine wp_none (wp_mono (wp_dropShared hg hx hc) ?_)
    intro _ w' hp
    exact mk _ _ _ _ (by intros; simp) rfl (by rintro p h; cases h) hm.del h.same.del hp
  | assignShared l m =>
    obtain ⟨⟨x, hx⟩, ⟨y, hy⟩, hc⟩ := hv
    refine wp_none (wp_mono (wp_assignShared hg hx hy (hc y hy)) ?_)
    intro _ w' hp
    exact mk _ _ _ _ (by intros; simp) ⟨y, hy, rfl⟩ (by rintro p h; cases h) (hm.put hx) (h.same.put (h.same _ _ _ hy)) hp
  | assignSharedY l m =>
    obtain ⟨⟨x, hx⟩, ⟨y, hy⟩, hne, hc⟩ := hv
    refine wp_none (wp_mono (wp_assignSharedY hg hx hy hne (hc y hy)) ?_)
    intro _ w' hp
    exact mk _ _ _ _ (by intros; simp) ⟨y, hy, rfl⟩ (by rintro p h; cases h) (hm.put hx) (h.same.put (h.same _ _ _ hy)) hp
  | moveAssignShared l m =>
    obtain ⟨⟨x, hx⟩, ⟨y, hy⟩, h1, h2, hc⟩ := hv
    refine wp_none (wp_mono (wp_moveAssignShared hg hx hy h1 h2 hc) ?_)
    intro _ w' hp
    refine mk _ _ _ _ (by intros; simp) ⟨y, hy, rfl⟩ (by rintro p h; cases h) ?_ ((h.same.put (h.same _ _ _ hy)).put nil0) hp
    by_cases hlm : m = l
    · subst hlm; exact (hm.put hx).put (Hs.put_self _ _ _ _)
    · exact (hm.put hx).put (Hs.put_ne hlm hy)
  | resetShared l =>
    obtain ⟨⟨x, hx⟩, hc⟩ := hv
    refine wp_none (wp_mono (wp_resetShared hg hx hc) ?_)
    intro _ w' hp
    exact mk _ _ _ _ (by intros; simp) rfl (by rintro p h; cases h) (hm.put hx) (h.same.put nil0) hp
  | swapShared l m =>
    obtain ⟨⟨x, hx⟩, ⟨y, hy⟩⟩ := hv
    refine wp_none (wp_mono (wp_swapShared hg hx hy) ?_)
    intro _ w' hp
    refine mk _ _ _ _ (by intros; simp) ⟨x, y, hx, hy, rfl⟩ (by rintro p h; cases h) ?_
      ((h.same.put (h.same _ _ _ hy)).put (h.same _ _ _ hx)) hp
    by_cases hlm : m = l
    · subst hlm; exact (hm.put hx).put (Hs.put_self _ _ _ _)
    · exact (hm.put hx).put (Hs.put_ne hlm hy)
  | newWeak =>
    refine wp_some (wp_mono (wp_newWeak hg) ?_)
    rintro p w' ⟨⟨rfl, hn⟩, hp⟩
    exact mk _ _ _ _ (by intros; simp) rfl (by rintro p h; cases h; exact hn) hm.putVar (h.same.put nil0) hp
  | toWeak k l =>
    obtain ⟨x, hx⟩ := hv
    refine wp_some (wp_mono (wp_toWeak hg hx) ?_)
    rintro p w' ⟨⟨rfl, hn⟩, hp⟩
    exact mk _ _ _ _ (by intros; simp) ⟨x, hx, rfl⟩ (by rintro p h; cases h; exact hn) hm.putVar (h.same.put (h.same _ _ _ hx)) hp
  | moveWeak l =>
    obtain ⟨x, hx⟩ := hv
    refine wp_some (wp_mono (wp_moveWeak hg hx) ?_)
    rintro p w' ⟨⟨rfl, hn⟩, hp⟩
    exact mk _ _ _ _ (by intros; simp) ⟨x, hx, rfl⟩ (by rintro p h; cases h; exact hn) (hm.put hx).putVar
      ((h.same.put nil0).put (h.same _ _ _ hx)) hp
  | dropWeak p =>
    obtain ⟨x, hx⟩ := hv
    refine wp_none (wp_mono (wp_dropWeak hg hx) ?_)
    intro _ w' hp
    exact mk _ _ _ _ (by intros; simp) rfl (by rintro p h; cases h) hm.del h.same.del hp
  | resetWeak l =>
    obtain ⟨x, hx⟩ := hv
    refine wp_none (wp_mono (wp_resetWeak hg hx) ?_)
    intro _ w' hp
    exact mk _ _ _ _ (by intros; simp) rfl (by rintro p h; cases h) (hm.put hx) (h.same.put nil0) hp
  | assignWeak k l m =>
    obtain ⟨⟨x, hx⟩, ⟨y, hy⟩, hc⟩ := hv
    by_cases hlm : m = l
    · subst hlm
      obtain ⟨rfl, rfl⟩ := hg.det hx hy
      refine wp_none (wp_mono (wp_assignWeak_self hg hx (hc rfl _ hx)) ?_)
      intro _ w' hp
      exact mk _ _ _ _ (by intros; simp) ⟨_, hx, (Hs.put_same (fun k' z hz => hg.det hx hz) hx).symm⟩ (by rintro p h; cases h) hm h.same hp
    · refine wp_none (wp_mono (wp_assignWeak hg hx hy hlm) ?_)
      intro _ w' hp
      exact mk _ _ _ _ (by intros; simp) ⟨y, hy, rfl⟩ (by rintro p h; cases h) (hm.put hx) (h.same.put (h.same _ _ _ hy)) hp
  | moveAssignWeak l m =>
    obtain ⟨⟨x, hx⟩, ⟨y, hy⟩, hc⟩ := hv
    refine wp_none (wp_mono (wp_moveAssignWeak hg hx hy (hc.imp id fun h => (hg.det h hy).2)) ?_)
    intro _ w' hp
    refine mk _ _ (Hs.put (At w.heap) .wk l .nil) _ (by intros; simp) ⟨y, hy, ?_⟩ (by rintro p h; cases h) (hm.put hx) (h.same.put nil0) hp
    by_cases hlm : l = m
    · subst hlm; rw [Hs.put_put]
    · rcases hc with h | h
      · exact (hlm h).elim
      · obtain ⟨-, rfl⟩ := hg.det h hy
        funext k' l' z
        simp only [Hs.put]
        by_cases h1 : l' = l <;> by_cases h2 : l' = m <;> simp_all
        constructor
        · intro hz; exact hg.det hy hz
        · rintro ⟨rfl, rfl⟩; exact hy
  | lock l =>
    obtain ⟨⟨x, hx⟩, hc⟩ := hv
    refine wp_some (wp_mono (wp_lock hg hx (hc x hx)) ?_)
    rintro p w' ⟨⟨rfl, hn⟩, hp⟩
    exact mk _ _ _ _ (by intros; simp) ⟨x, hx, rfl⟩ (by rintro p h; cases h; exact hn) hm.putVar (h.same.put (h.same _ _ _ hx)) hp

theorem ok_start (env : Env (Cell V)) : Ok (start env) := by
  refine ⟨⟨⟨[], ?_⟩, fun _ _ => rfl, rfl, rfl, ?_⟩, ?_⟩
  · refine ⟨List.nodup_nil, ?_, ?_, ?_, ?_, ?_, ?_, ?_, ?_, ?_, ?_, ?_⟩ <;> simp [start, tot]
  · rintro k b ⟨hb, l, z, hz, rfl⟩
    cases l with
    | var p => cases (show (none : Option (Cell V)) = some _ from hz)
    | mem b i => obtain ⟨c, o, h1, -⟩ := hz; cases h1
  · intro k l z hz
    cases l with
    | var p => cases (show (none : Option (Cell V)) = some _ from hz)
    | mem b i => obtain ⟨c, o, h1, -⟩ := hz; cases h1

theorem Reach.ok (h : Reach w) : Ok w := by
  induction h with
  | start env => exact ok_start env
  | step _ hv hr ih => exact (Runs.wp (exec_ok ih hv) hr).1

end

end Nestl.SP
