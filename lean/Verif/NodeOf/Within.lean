import Verif.NodeOf.Does
import Verif.VectorOf.Growth
set_option autoImplicit false
/-
How many elements a program on containers of nodes constructs, compared to the nodes it requests.
-/
namespace Nestl.NO
open Nestl.VO (ElemOps Counts)
open Lean.Order

variable {N : Type → Type} [Cell N] {S α β : Type} {f : S → Nat} {F : ElemOps S}

/-- The program constructs at most one element for every node that it requests. -/
def Within (f : S → Nat) (m : M (NS N S) α) : Prop := ∀ s r s', Runs m s r s' → f s'.i + s.o.nAlloc ≤ f s.i + s'.o.nAlloc

omit [Cell N] in
theorem Within.pure (x : α) : Within f (pure x : M (NS N S) α) := fun s r s' h => by cases h; exact Nat.le_refl _

omit [Cell N] in
theorem Within.fault (e : Fault) : Within f (fault e : M (NS N S) α) := fun s r s' h => by cases h

omit [Cell N] in
theorem Within.assertM (b : Bool) : Within f (assertM b : M (NS N S) Unit) := by
  cases b
  · exact .fault _
  · exact .pure _

omit [Cell N] in
theorem Within.bind {m : M (NS N S) α} {g : α → M (NS N S) β} (h : Within f m) (hg : ∀ a, Within f (g a)) :
    Within f (m >>= g) := by
  intro s r s' hr
  obtain ⟨a, s1, h1, h2⟩ := VO.runs_bind_iff.1 hr
  have := h _ _ _ h1
  have := hg a _ _ _ h2
  omega

omit [Cell N] in
theorem Within.ite {p : Prop} {i : Decidable p} {m m' : M (NS N S) α} (h : Within f m) (h' : Within f m') :
    Within f (@_root_.ite _ p i m m') := by
  split
  · exact h
  · exact h'

omit [Cell N] in
theorem Within.onO {m : M (World (N Ptr)) α} (h : Quiet m) : Within f (onO m : M (NS N S) α) := fun s r s' hr => by
  obtain ⟨o, h1, rfl⟩ := of_onO hr
  have := (h _ _ _ h1).allocs
  dsimp only
  omega

theorem Within.link {m : M (World (N Ptr)) α} (h : Link m) : Within f (NO.onO m : M (NS N S) α) := .onO fun w a w' hr => (h w a w' hr).1

omit [Cell N] in
theorem Within.onI {m : M S α} (h : ∀ i r i', Runs m i r i' → f i' ≤ f i) : Within f (onI m : M (NS N S) α) := fun s r s' hr => by
  obtain ⟨i, h1, rfl⟩ := of_onI hr
  exact Nat.add_le_add_right (h _ _ _ h1) _

omit [Cell N] in
theorem Within.failed : Within f (failed : M (NS N S) Bool) := .onO .hasErr

theorem Within.destroyElem (hF : Counts F f) (p : Ptr) : Within f (destroyElem F p : M (NS N S) Unit) := by
  refine .bind (.onO ?_) fun q => .bind (.onI (hF.drop q)) fun _ => .onO ?_
  · refine .bind (.rd _) fun c => ?_
    split
    · exact .pure _
    · exact .fault _
  · refine .bind (.rd _) fun c => ?_
    split
    · exact .fault _
    · exact .modCell _ _

/-- Specification: `less` makes no elements. -/
def Looks (f : S → Nat) (less : Ptr → Ptr → M S Bool) : Prop := ∀ a b i r i', Runs (less a b) i r i' → f i' ≤ f i

omit [Cell N] in
theorem Within.compare {less : Ptr → Ptr → M S Bool} (h : Looks f less) (a b : Ptr) :
    Within f (compare less a b : M (NS N S) Bool) :=
  .bind (.onI (h a b)) fun _ => .onO (.cmp _ _ _)

/-- A construction makes at most one element and requests no node. -/
theorem construct_makes (hF : Counts F f) {p : Ptr} {a : Arg} {s s' : NS N S} {r : Unit} (h : Runs (construct F p a) s r s') :
    f s'.i ≤ f s.i + 1 ∧ s'.o.nAlloc = s.o.nAlloc := by
  have hb : ∀ {q : Ptr} {s1 s2 : NS N S} {u : Unit}, Runs (onO (beginVal p q)) s1 u s2 → s2.i = s1.i ∧ s2.o.nAlloc = s1.o.nAlloc := by
    intro q s1 s2 u h2
    obtain ⟨o, h3, rfl⟩ := of_onO h2
    refine ⟨rfl, (Quiet.bind (.rd _) (fun c => ?_) _ _ _ h3).allocs⟩
    split
    · exact .fault _
    · exact .modCell _ _
  cases a with
  | obj t =>
    obtain ⟨x, s1, h1, h2⟩ := VO.runs_bind_iff.1 h
    obtain ⟨i, h3, rfl⟩ := of_onI h1
    have := hF.copy _ _ _ _ h3
    cases x with
    | ok q => obtain ⟨e1, e2⟩ := hb h2; rw [e1, e2]; exact ⟨this, rfl⟩
    | error e => cases h2; exact ⟨this, rfl⟩
  | mov t =>
    obtain ⟨x, s1, h1, h2⟩ := VO.runs_bind_iff.1 h
    obtain ⟨i, h3, rfl⟩ := of_onI h1
    have := hF.move _ _ _ _ h3
    obtain ⟨e1, e2⟩ := hb h2
    rw [e1, e2]
    exact ⟨this, rfl⟩
  | none =>
    obtain ⟨x, s1, h1, h2⟩ := VO.runs_bind_iff.1 h
    obtain ⟨i, h3, rfl⟩ := of_onI h1
    have := hF.make _ _ _ h3
    obtain ⟨e1, e2⟩ := hb h2
    rw [e1, e2]
    exact ⟨this, rfl⟩

omit [Cell N] in
theorem allocCell_one {w w' : World (N Ptr)} {g : N Ptr → N Ptr} {p : Ptr} (h : Runs (allocCell g) w p w') :
    w'.nAlloc = w.nAlloc + 1 := by
  unfold Runs allocCell at h
  dsimp only at h
  split at h
  · cases h; rfl
  · split at h <;> cases h <;> rfl

/-- A request for a node, followed by at most one construction. -/
theorem Within.node (hF : Counts F f) {g : N Ptr → N Ptr} {a : Arg} {m : Ptr → M (NS N S) Ptr} (hm : ∀ n, Within f (m n)) :
    Within f (do
      let n ← NO.onO (allocCell g)
      if (← NO.failed) then Pure.pure Ptr.null else do
      construct F n a
      m n : M (NS N S) Ptr) := by
  intro s r s' h
  obtain ⟨n, s1, h1, h2⟩ := VO.runs_bind_iff.1 h
  obtain ⟨o, h3, rfl⟩ := of_onO h1
  have e1 := allocCell_one h3
  obtain ⟨b, s2, h4, h5⟩ := VO.runs_bind_iff.1 h2
  have e2 : s2 = ⟨o, s.i⟩ := by cases h4; rfl
  subst e2
  split at h5
  · cases h5; dsimp only; omega
  · obtain ⟨u, s3, h6, h7⟩ := VO.runs_bind_iff.1 h5
    have e3 := construct_makes hF h6
    have e4 := hm n _ _ _ h7
    dsimp only at e3 e4 ⊢
    omega

omit [Cell N] in
theorem Within.admissible : admissible (fun m : M (NS N S) α => Within f m) := by
  have h1 : ∀ s : NS N S, Lean.Order.admissible (fun r : Option (Except Fault (α × NS N S)) =>
      ∀ a s', r = some (.ok (a, s')) → f s'.i + s.o.nAlloc ≤ f s.i + s'.o.nAlloc) :=
    fun s => admissible_flatOrder _ (by intro a w' h; cases h)
  exact admissible_pi_apply _ h1

omit [Cell N] in
theorem Within.admissible1 {A : Type} : Lean.Order.admissible (fun m : A → M (NS N S) α => ∀ a, Within f (m a)) :=
  admissible_pi_apply _ fun _ => Within.admissible

omit [Cell N] in
theorem Within.admissible2 {A B : Type} : Lean.Order.admissible (fun m : A → B → M (NS N S) α => ∀ a b, Within f (m a b)) :=
  admissible_pi_apply _ fun _ => Within.admissible1

omit [Cell N] in
theorem Within.admissible3 {A B C : Type} :
    Lean.Order.admissible (fun m : A → B → C → M (NS N S) α => ∀ a b c, Within f (m a b c)) :=
  admissible_pi_apply _ fun _ => Within.admissible2

omit [Cell N] in
theorem Within.admissible4 {A B C D : Type} :
    Lean.Order.admissible (fun m : A → B → C → D → M (NS N S) α => ∀ a b c d, Within f (m a b c d)) :=
  admissible_pi_apply _ fun _ => Within.admissible3

/-- One step of a proof that a program constructs at most one element for every node. -/
syntax "within1" : tactic
macro_rules | `(tactic| within1) => `(tactic| split)
macro_rules | `(tactic| within1) => `(tactic| with_reducible refine Within.ite ?_ ?_)
macro_rules | `(tactic| within1) => `(tactic| with_reducible refine Within.bind ?_ fun _ => ?_)
macro_rules | `(tactic| within1) => `(tactic| with_reducible exact Within.compare ‹Looks _ _› _ _)
macro_rules | `(tactic| within1) => `(tactic| with_reducible exact Within.failed)
macro_rules | `(tactic| within1) => `(tactic| with_reducible exact Within.assertM _)
macro_rules | `(tactic| within1) => `(tactic| with_reducible exact Within.fault _)
macro_rules | `(tactic| within1) => `(tactic| with_reducible exact Within.pure _)

/-- See `within1`. -/
macro "within" : tactic => `(tactic| repeat' within1)

end Nestl.NO
