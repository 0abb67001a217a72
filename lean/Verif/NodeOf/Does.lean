import Verif.NodeOf.More
import Verif.Told
set_option autoImplicit false
/-
What programs on containers of nodes can do to the elements, whatever state they run in: programs that only follow and change links
leave the elements where they are.  Relations between the states before and after a program are proved step by step.
-/
namespace Nestl.NO
open Nestl.VO (ElemOps)
open Lean.Order Cell

variable {N : Type → Type} [Cell N] {S α β : Type}

/-- Only nodes in dynamic storage hold objects. -/
def Typed (o : World (N Ptr)) : Prop := ∀ p q, Held o p q → ∃ a, p = .dyn a

/-- `m` only follows and changes links, and it may create empty containers. -/
def Link (m : M (World (N Ptr)) α) : Prop :=
  ∀ o r o', Runs m o r o' → Still o o' ∧ (Typed o → ∀ p q, Held o' p q ↔ Held o p q)

namespace Link
variable {m m' : M (World (N Ptr)) α}

theorem pure {r : α} : Link (Pure.pure r : M (World (N Ptr)) α) := by
  intro o r o' h; cases h; exact ⟨.refl _, fun _ _ _ => .rfl⟩

theorem fault {e : Fault} : Link (Nestl.fault e : M (World (N Ptr)) α) := by intro o r o' h; cases h

theorem bind {k : α → M (World (N Ptr)) β} (h1 : Link m) (h2 : ∀ r, Link (k r)) : Link (m >>= k) := by
  intro o r o' h
  obtain ⟨a, o1, k1, k2⟩ := VO.runs_bind_iff.1 h
  obtain ⟨a1, a2⟩ := h1 _ _ _ k1
  obtain ⟨b1, b2⟩ := h2 _ _ _ _ k2
  refine ⟨a1.trans b1, fun ht p q => ?_⟩
  have ht' : Typed o1 := fun p q hq => ht p q ((a2 ht p q).1 hq)
  exact (b2 ht' p q).trans (a2 ht p q)

theorem ite {c : Prop} {i : Decidable c} (h1 : c → Link m) (h2 : ¬ c → Link m') : Link (@_root_.ite _ c i m m') := by
  by_cases h : c
  · rw [if_pos h]; exact h1 h
  · rw [if_neg h]; exact h2 h

theorem assertM (b : Bool) : Link (Nestl.assertM b : M (World (N Ptr)) Unit) := by
  cases b
  · exact .fault
  · exact .pure

theorem rd (p : Ptr) : Link (Nestl.rd p : M (World (N Ptr)) (N Ptr)) := by
  intro o r o' h
  obtain ⟨-, -, rfl⟩ := runs_rd.1 h
  exact ⟨.refl _, fun _ _ _ => .rfl⟩

theorem modCell {p : Ptr} {g : N Ptr → N Ptr} (hg : ∀ c, get (g c) = get c) : Link (Nestl.modCell p g) := by
  intro o r o' h
  obtain ⟨-, c, h2, rfl⟩ := runs_modCell.1 h
  exact ⟨.upd h2 _, fun _ => held_upd rfl (by rw [h2]; simp [hg])⟩

theorem newObj {mk : Ptr → N Ptr} (hm : ∀ p, get (mk p) = none) : Link (Nestl.newObj mk) := by
  intro o r o' h
  cases h
  refine ⟨⟨rfl, rfl, rfl, rfl, fun a h => by simpa [Nestl.upd] using h⟩, fun ht => held_upd rfl ?_⟩
  simp only [Option.bind_some, hm]
  rcases e : (o.heap (.stk o.sp)).bind get with _ | q
  · rfl
  · obtain ⟨c, h1, h2⟩ := Option.bind_eq_some_iff.1 e
    obtain ⟨a, ha⟩ := ht _ _ ⟨c, h1, h2⟩
    cases ha

theorem freeCell {p : Ptr} {ok : N Ptr → Except Fault Unit} (h : ∀ c, ok c = .ok () → get c = none) :
    Link (Nestl.freeCell p ok) := by
  intro o r o' hr
  rcases runs_freeCell.1 hr with ⟨rfl, rfl⟩ | ⟨a, c, rfl, h2, h3, rfl⟩
  · exact ⟨.refl _, fun _ _ _ => .rfl⟩
  · exact ⟨.upd h2 _, fun _ => held_upd rfl (by rw [h2]; simp [h c h3])⟩

theorem cmp {K : Type} (lt : K → K → Bool) (a b : K) : Link (Nestl.cmp lt a b : M (World (N Ptr)) Bool) := by
  intro o r o' h
  cases h
  exact ⟨⟨rfl, rfl, rfl, rfl, fun _ h => h⟩, fun _ _ _ => .rfl⟩

theorem hasErr : Link (Nestl.hasErr : M (World (N Ptr)) Bool) := by
  intro o r o' h
  cases h
  exact ⟨.refl _, fun _ _ _ => .rfl⟩

theorem admissible : admissible (fun m : M (World (N Ptr)) α => Link m) := by
  have h1 : ∀ o : World (N Ptr), Lean.Order.admissible (fun r : Option (Except Fault (α × World (N Ptr))) =>
      ∀ a o', r = some (.ok (a, o')) → Still o o' ∧ (Typed o → ∀ p q, Held o' p q ↔ Held o p q)) :=
    fun o => admissible_flatOrder _ (by intro a o' h; cases h)
  have h2 := admissible_pi_apply _ h1
  intro c hc hQ
  have := h2 c hc (fun x hx o a o' hr => hQ x hx o a o' hr)
  exact fun o r o' hr => this o r o' hr

theorem admissible1 {B : Type} : Lean.Order.admissible (fun m : B → M (World (N Ptr)) α => ∀ b, Link (m b)) :=
  admissible_pi_apply _ fun _ => admissible

end Link

/-- One step of a proof that a program only follows and changes links. -/
syntax "link1" : tactic
macro_rules | `(tactic| link1) => `(tactic| split)
macro_rules | `(tactic| link1) => `(tactic| with_reducible refine Link.ite (fun _ => ?_) (fun _ => ?_))
macro_rules | `(tactic| link1) => `(tactic| with_reducible refine Link.bind ?_ fun _ => ?_)
macro_rules | `(tactic| link1) => `(tactic| ((with_reducible refine Link.newObj ?_); intro _; rfl))
macro_rules | `(tactic| link1) => `(tactic| ((with_reducible refine Link.modCell ?_); intro _; rfl))
macro_rules | `(tactic| link1) => `(tactic| with_reducible exact Link.rd _)
macro_rules | `(tactic| link1) => `(tactic| with_reducible exact Link.assertM _)
macro_rules | `(tactic| link1) => `(tactic| with_reducible exact Link.fault)
macro_rules | `(tactic| link1) => `(tactic| with_reducible exact Link.pure)

/-- See `link1`. -/
macro "links" : tactic => `(tactic| repeat' link1)

/-- Every run of `m` leads from a state to one that is in the relation `R` to it. -/
def Does (R : NS N S → NS N S → Prop) (m : M (NS N S) α) : Prop := ∀ s r s', Runs m s r s' → R s s'

/-- Relations between states that hold for steps of the elements and for programs that only follow and change links. -/
structure Moves (R : NS N S → NS N S → Prop) : Prop where
  refl : ∀ s, R s s
  trans : ∀ s s1 s2, R s s1 → R s1 s2 → R s s2
  link : ∀ {α : Type} (m : M (World (N Ptr)) α), Link m → Does R (onO m : M (NS N S) α)
  inner : ∀ s i, R s ⟨s.o, i⟩

omit [Cell N] in
theorem of_onO {m : M (World (N Ptr)) α} {s s' : NS N S} {r : α} (h : Runs (onO m) s r s') : ∃ o, Runs m s.o r o ∧ s' = ⟨o, s.i⟩ := by
  unfold Runs onO at h
  split at h
  · rename_i a o' e; cases h; exact ⟨o', e, rfl⟩
  · cases h
  · cases h

omit [Cell N] in
theorem of_onI {m : M S α} {s s' : NS N S} {r : α} (h : Runs (onI m) s r s') : ∃ i, Runs m s.i r i ∧ s' = ⟨s.o, i⟩ := by
  unfold Runs onI at h
  split at h
  · rename_i a o' e; cases h; exact ⟨o', e, rfl⟩
  · cases h
  · cases h

namespace Does
variable {R : NS N S → NS N S → Prop} (hR : Moves R) {m m' : M (NS N S) α}
include hR

theorem pure {r : α} : Does R (Pure.pure r : M (NS N S) α) := by
  intro s r s' h; cases h; exact hR.refl _

theorem bind {k : α → M (NS N S) β} (h1 : Does R m) (h2 : ∀ r, Does R (k r)) : Does R (m >>= k) := by
  intro s r s' h
  obtain ⟨a, s1, k1, k2⟩ := VO.runs_bind_iff.1 h
  exact hR.trans _ _ _ (h1 _ _ _ k1) (h2 _ _ _ _ k2)

omit hR [Cell N] in
theorem ite {c : Prop} {i : Decidable c} (h1 : c → Does R m) (h2 : ¬ c → Does R m') : Does R (@_root_.ite _ c i m m') := by
  by_cases h : c
  · rw [if_pos h]; exact h1 h
  · rw [if_neg h]; exact h2 h

omit hR [Cell N] in
theorem fault {e : Fault} : Does R (Nestl.fault e : M (NS N S) α) := by intro s r s' h; cases h

theorem assertM (b : Bool) : Does R (Nestl.assertM b : M (NS N S) Unit) := by
  cases b
  · exact .fault
  · exact .pure hR

theorem inner (m : M S α) : Does R (onI m) := by
  intro s r s' h
  obtain ⟨i, -, rfl⟩ := of_onI h
  exact hR.inner _ _

theorem failed : Does R (NO.failed : M (NS N S) Bool) := hR.link _ .hasErr

theorem compare {less : Ptr → Ptr → M S Bool} {a b : Ptr} : Does R (NO.compare less a b) :=
  .bind hR (.inner hR _) fun _ => hR.link _ (.cmp _ _ _)

omit hR [Cell N] in
theorem admissible : Lean.Order.admissible (fun m : M (NS N S) α => Does R m) := by
  have h1 : ∀ s : NS N S, Lean.Order.admissible (fun r : Option (Except Fault (α × NS N S)) => ∀ a s', r = some (.ok (a, s')) → R s s') :=
    fun o => admissible_flatOrder _ (by intro a o' h; cases h)
  have h2 := admissible_pi_apply _ h1
  intro c hc hQ
  have := h2 c hc (fun x hx o a o' hr => hQ x hx o a o' hr)
  exact fun o r o' hr => this o r o' hr

omit hR [Cell N] in
theorem admissible1 {B : Type} : Lean.Order.admissible (fun m : B → M (NS N S) α => ∀ b, Does R (m b)) :=
  admissible_pi_apply _ fun _ => admissible

omit hR [Cell N] in
theorem admissible2 {B C : Type} : Lean.Order.admissible (fun m : B → C → M (NS N S) α => ∀ b c, Does R (m b c)) :=
  admissible_pi_apply _ fun _ => admissible1

omit hR [Cell N] in
theorem admissible3 {B C D : Type} : Lean.Order.admissible (fun m : B → C → D → M (NS N S) α => ∀ b c d, Does R (m b c d)) :=
  admissible_pi_apply _ fun _ => admissible2

omit hR [Cell N] in
theorem admissible4 {B C D F : Type} :
    Lean.Order.admissible (fun m : B → C → D → F → M (NS N S) α => ∀ b c d e, Does R (m b c d e)) :=
  admissible_pi_apply _ fun _ => admissible3

end Does

/-- One step of a proof that a program only does what the relation allows. -/
syntax "does1" : tactic
macro_rules | `(tactic| does1) => `(tactic| split)
macro_rules | `(tactic| does1) => `(tactic| with_reducible refine Does.ite (fun _ => ?_) (fun _ => ?_))
macro_rules | `(tactic| does1) => `(tactic| with_reducible refine Does.bind ‹Moves _› ?_ fun _ => ?_)
macro_rules | `(tactic| does1) => `(tactic| with_reducible exact Does.inner ‹Moves _› _)
macro_rules | `(tactic| does1) => `(tactic| with_reducible exact Does.compare ‹Moves _›)
macro_rules | `(tactic| does1) => `(tactic| with_reducible exact Does.failed ‹Moves _›)
macro_rules | `(tactic| does1) => `(tactic| with_reducible exact Does.assertM ‹Moves _› _)
macro_rules | `(tactic| does1) => `(tactic| with_reducible exact Does.fault)
macro_rules | `(tactic| does1) => `(tactic| with_reducible exact Does.pure ‹Moves _›)

/-- See `does1`. -/
macro "doesAll" : tactic => `(tactic| repeat' does1)

/-- Every element after the program is an element that was there before, in the same node. -/
def Fewer (s s' : NS N S) : Prop := Typed s.o → ∀ p q, Held s'.o p q → Held s.o p q

/-- Every element before the program is still there, in the same node. -/
def More (s s' : NS N S) : Prop := Typed s.o → Typed s'.o ∧ ∀ p q, Held s.o p q → Held s'.o p q

theorem moves_fewer : Moves (Fewer (N := N) (S := S)) where
  refl _ _ _ _ h := h
  trans s s1 s2 h h' ht p q hq := h ht p q (h' (fun p q hq => ht p q (h ht p q hq)) p q hq)
  link m hm s r s' h ht p q hq := by
    obtain ⟨o, h1, rfl⟩ := of_onO h
    exact ((hm _ _ _ h1).2 ht p q).1 hq
  inner _ _ _ _ _ h := h

theorem moves_more : Moves (More (N := N) (S := S)) where
  refl _ ht := ⟨ht, fun _ _ h => h⟩
  trans s s1 s2 h h' ht := by
    obtain ⟨h1, h2⟩ := h ht
    obtain ⟨h3, h4⟩ := h' h1
    exact ⟨h3, fun p q hq => h4 p q (h2 p q hq)⟩
  link m hm s r s' h ht := by
    obtain ⟨o, h1, rfl⟩ := of_onO h
    have := (hm _ _ _ h1).2 ht
    exact ⟨fun p q hq => ht p q ((this p q).1 hq), fun p q hq => (this p q).2 hq⟩
  inner _ _ ht := ⟨ht, fun _ _ h => h⟩

theorem held_set {o o' : World (N Ptr)} {p : Ptr} {d : Option (N Ptr)} (ho : o'.heap = upd o.heap p d) {x q : Ptr} :
    Held o' x q ↔ (x = p ∧ d.bind get = some q) ∨ (x ≠ p ∧ Held o x q) := by
  unfold Held
  rw [ho, upd_apply]
  split
  · rename_i e; subst e
    constructor
    · rintro ⟨c, h1, h2⟩; exact .inl ⟨rfl, by rw [h1]; exact h2⟩
    · rintro (⟨-, h⟩ | ⟨h, -⟩)
      · exact Option.bind_eq_some_iff.1 h
      · exact (h rfl).elim
  · rename_i e
    constructor
    · exact fun h => .inr ⟨e, h⟩
    · rintro (⟨h, -⟩ | ⟨-, h⟩)
      · exact (e h).elim
      · exact h

theorem fewer_drop (p : Ptr) : Does Fewer (onO (dropObj p) : M (NS N S) Unit) := by
  intro s r s' h ht x q hq
  obtain ⟨o, h1, rfl⟩ := of_onO h
  obtain ⟨-, rfl⟩ := runs_dropObj.1 h1
  rcases (held_set (o := s.o) rfl).1 hq with ⟨-, h⟩ | ⟨-, h⟩
  · cases h
  · exact h

theorem runs_destroyElem {E : ElemOps S} {p : Ptr} {s s' : NS N S} {r : Unit} (h : Runs (destroyElem E p) s r s') :
    (∃ q, Held s.o p q) ∧ (∀ x q, Held s'.o x q ↔ x ≠ p ∧ Held s.o x q) ∧ Still s.o s'.o := by
  obtain ⟨q, s1, h1, h2⟩ := VO.runs_bind_iff.1 h
  obtain ⟨o, h0, rfl⟩ := of_onO h1
  obtain ⟨h3, ⟨c, h4, h5⟩, rfl⟩ := runs_theVal.1 h0
  obtain ⟨_, s2, h6, h7⟩ := VO.runs_bind_iff.1 h2
  obtain ⟨i, -, rfl⟩ := of_onI h6
  obtain ⟨o2, h8, rfl⟩ := of_onO h7
  unfold endVal at h8
  obtain ⟨c', o3, h9, h10⟩ := VO.runs_bind_iff.1 h8
  obtain ⟨-, h11, rfl⟩ := runs_rd.1 h9
  rw [h4] at h11; cases h11
  simp only [h5] at h10
  obtain ⟨-, d, h12, rfl⟩ := runs_modCell.1 h10
  rw [h4] at h12; cases h12
  refine ⟨⟨q, c, h4, h5⟩, fun x y => ?_, .upd h4 _⟩
  rw [held_set (o := s.o) rfl]
  simp [get_put]

theorem fewer_destroy (E : ElemOps S) (p : Ptr) : Does Fewer (destroyElem E p : M (NS N S) Unit) :=
  fun _ _ _ h _ x q hq => (((runs_destroyElem h).2.1 x q).1 hq).2

/-- The construction of an element in a raw node: either the element is there, or there is an error and nothing has happened. -/
theorem runs_construct {E : ElemOps S} {p : Ptr} {a : Arg} {s s' : NS N S} {r : Unit} (h : Runs (construct E p a) s r s') :
    ((∀ q, ¬ Held s.o p q) ∧ ∃ q, (∀ x y, Held s'.o x y ↔ (x = p ∧ y = q) ∨ Held s.o x y) ∧ Still s.o s'.o) ∨
      ∃ e i t, a = .obj t ∧ Runs (E.copy t) s.i (.error e) i ∧ s' = ⟨{ s.o with err := some e }, i⟩ := by
  have key : ∀ {i : S} {q : Ptr}, Runs (settle p (.ok q)) (⟨s.o, i⟩ : NS N S) r s' →
      (∀ q, ¬ Held s.o p q) ∧ ∃ q, (∀ x y, Held s'.o x y ↔ (x = p ∧ y = q) ∨ Held s.o x y) ∧ Still s.o s'.o := by
    intro i q h
    obtain ⟨o, h1, rfl⟩ := of_onO h
    unfold beginVal at h1
    obtain ⟨c, o1, h2, h3⟩ := VO.runs_bind_iff.1 h1
    obtain ⟨-, h4, rfl⟩ := runs_rd.1 h2
    have h4 : s.o.heap p = some c := h4
    rcases e : get c with _ | y
    · simp only [e] at h3
      obtain ⟨-, d, h5, rfl⟩ := runs_modCell.1 h3
      rw [h4] at h5; cases h5
      have hno : ∀ q, ¬ Held s.o p q := by
        rintro q ⟨c', k1, k2⟩; rw [h4] at k1; cases k1; rw [e] at k2; cases k2
      refine ⟨hno, q, fun x y => ?_, .upd h4 _⟩
      rw [held_set (o := s.o) rfl]
      simp only [Option.bind_some, get_put, Option.some.injEq]
      constructor
      · rintro (⟨h, h'⟩ | ⟨h, h'⟩)
        · exact .inl ⟨h, h'.symm⟩
        · exact .inr h'
      · rintro (⟨h, h'⟩ | h)
        · exact .inl ⟨h, h'.symm⟩
        · exact .inr ⟨fun e => hno _ (e ▸ h), h⟩
    · simp only [e] at h3; cases h3
  cases a with
  | obj t =>
    obtain ⟨q, s1, h1, h2⟩ := VO.runs_bind_iff.1 h
    obtain ⟨i, h3, rfl⟩ := of_onI h1
    cases q with
    | ok q => exact .inl (key h2)
    | error e => cases h2; exact .inr ⟨e, i, t, rfl, h3, rfl⟩
  | mov t =>
    obtain ⟨q, s1, h1, h2⟩ := VO.runs_bind_iff.1 h
    obtain ⟨i, h3, rfl⟩ := of_onI h1
    exact .inl (key h2)
  | none =>
    obtain ⟨q, s1, h1, h2⟩ := VO.runs_bind_iff.1 h
    obtain ⟨i, h3, rfl⟩ := of_onI h1
    exact .inl (key h2)

/-- A request for memory: a new node without element, or an error. -/
theorem runs_alloc {N : Type} {init : N → N} {o o' : World N} {r : Ptr} (h : Runs (allocCell init) o r o') :
    (∃ a, o.env.addr o.nAlloc = some a ∧ o.heap (.dyn a) = none ∧ r = .dyn a ∧ o'.heap = upd o.heap (.dyn a) (some (init (o.env.junk o.nAlloc))) ∧
        o'.err = o.err ∧ o'.env = o.env ∧ o'.nAlloc = o.nAlloc + 1 ∧ o'.nCtor = o.nCtor) ∨
      ((∀ a, o.env.addr o.nAlloc = some a → o.heap (.dyn a) ≠ none) ∧ r = .null ∧ o' = { o with nAlloc := o.nAlloc + 1, err := some .badAlloc }) := by
  unfold Runs allocCell at h
  simp only at h
  split at h
  · rename_i e
    cases h
    exact .inr ⟨fun a ha => by (rw [e] at ha; cases ha), rfl, rfl⟩
  · rename_i a e
    split at h
    · rename_i c e'
      cases h
      exact .inr ⟨fun b hb => by (rw [e] at hb; cases hb; rw [e']; simp), rfl, rfl⟩
    · rename_i e'
      cases h
      exact .inl ⟨a, e, e', rfl, rfl, rfl, rfl, rfl, rfl⟩

/-- Every element is still there, in the same node, and there are no others. -/
def Kept (s s' : NS N S) : Prop := Typed s.o → ∀ p q, Held s'.o p q ↔ Held s.o p q

theorem Kept.typed {s s' : NS N S} (h : Kept s s') (ht : Typed s.o) : Typed s'.o := fun p q hq => ht p q ((h ht p q).1 hq)

theorem moves_kept : Moves (Kept (N := N) (S := S)) where
  refl _ _ _ _ := .rfl
  trans s s1 s2 h h' ht p q := (h' (h.typed ht) p q).trans (h ht p q)
  link m hm s r s' h ht p q := by
    obtain ⟨o, h1, rfl⟩ := of_onO h
    exact (hm _ _ _ h1).2 ht p q
  inner _ _ _ _ _ := .rfl

/-! ### New nodes -/

/-- A new node with an element: the pattern of `create_node` (list.hpp:1270-1290) and `m_create_node` (rbt.hpp:702-722). -/
def build (init : N Ptr → N Ptr) (put : Ptr → M (World (N Ptr)) Unit) (E : ElemOps S) (a : Arg) : M (NS N S) Ptr := do
  let n ← onO (allocCell init)
  if (← failed) then pure .null else do
  construct E n a
  if (← failed) then
    onO (put n)
    pure .null
  else pure n

/-- The reasons for an error: a request for memory was denied, an element could not be copied, or (`t`) the copy of a comparator
failed. -/
def Cause (E : ElemOps S) (t : Prop) (s s' : NS N S) (e : Err) : Prop :=
  (e = .badAlloc ∧ ∃ k, s.o.nAlloc ≤ k ∧ k < s'.o.nAlloc ∧ Denied s.o k) ∨
  (t ∧ e = .ctorFailed ∧ ∃ k, s.o.nCtor ≤ k ∧ k < s'.o.nCtor ∧ s.o.env.ctor k = false) ∨
  ∃ q i i', Runs (E.copy q) i (.error e) i'

/-- Errors have a cause, and no denied request for memory goes unreported. -/
structure Blame (E : ElemOps S) (t : Prop) (s s' : NS N S) : Prop where
  env : s'.o.env = s.o.env
  allocs : s.o.nAlloc ≤ s'.o.nAlloc
  ctors : s.o.nCtor ≤ s'.o.nCtor
  heap : ∀ a, s'.o.heap (.dyn a) ≠ none →
    s.o.heap (.dyn a) ≠ none ∨ ∃ j, s.o.nAlloc ≤ j ∧ j < s'.o.nAlloc ∧ s.o.env.addr j = some a
  cause : s'.o.err = s.o.err ∨ ∃ e, s'.o.err = some e ∧ Cause E t s s' e
  served : s'.o.err = none → s.o.err = none ∧ Served s.o s'.o.nAlloc

omit [Cell N] in
theorem Blame.of_still {E : ElemOps S} {t : Prop} {s s' : NS N S} (h : Still s.o s'.o) : Blame E t s s' where
  env := h.env
  allocs := by rw [h.allocs]; exact Nat.le_refl _
  ctors := by rw [h.ctors]; exact Nat.le_refl _
  heap a ha := .inl (h.heap a ha)
  cause := .inl h.err
  served he := ⟨by rw [← h.err]; exact he, fun k h1 h2 => by rw [h.allocs] at h2; omega⟩

omit [Cell N] in
theorem Blame.trans {E : ElemOps S} {t : Prop} {s s1 s2 : NS N S} (h : Blame E t s s1) (h' : Blame E t s1 s2) : Blame E t s s2 where
  env := h'.env.trans h.env
  allocs := Nat.le_trans h.allocs h'.allocs
  ctors := Nat.le_trans h.ctors h'.ctors
  heap a ha := by
    rcases h'.heap a ha with h1 | ⟨j, h1, h2, h3⟩
    · rcases h.heap a h1 with h2 | ⟨j, h2, h3, h4⟩
      · exact .inl h2
      · exact .inr ⟨j, h2, Nat.lt_of_lt_of_le h3 h'.allocs, h4⟩
    · exact .inr ⟨j, Nat.le_trans h.allocs h1, h2, by rw [← h.env]; exact h3⟩
  cause := by
    rcases h'.cause with h1 | ⟨e, h1, h2⟩
    · rcases h.cause with h3 | ⟨e, h3, h4⟩
      · exact .inl (h1.trans h3)
      · refine .inr ⟨e, h1.trans h3, ?_⟩
        rcases h4 with ⟨rfl, k, k1, k2, k3⟩ | ⟨ht, rfl, k, k1, k2, k3⟩ | k
        · exact .inl ⟨rfl, k, k1, Nat.lt_of_lt_of_le k2 h'.allocs, k3⟩
        · exact .inr (.inl ⟨ht, rfl, k, k1, Nat.lt_of_lt_of_le k2 h'.ctors, k3⟩)
        · exact .inr (.inr k)
    · refine .inr ⟨e, h1, ?_⟩
      rcases h2 with ⟨rfl, k, k1, k2, k3⟩ | ⟨ht, rfl, k, k1, k2, k3⟩ | k
      · refine .inl ⟨rfl, k, Nat.le_trans h.allocs k1, k2, fun a ha => ?_⟩
        rcases k3 a (by rw [h.env]; exact ha) with k4 | ⟨j, k4, k5, k6⟩
        · rcases h.heap a k4 with k5 | ⟨j, k5, k6, k7⟩
          · exact .inl k5
          · exact .inr ⟨j, k5, Nat.lt_of_lt_of_le k6 k1, k7⟩
        · exact .inr ⟨j, Nat.le_trans h.allocs k4, k5, by rw [← h.env]; exact k6⟩
      · exact .inr (.inl ⟨ht, rfl, k, Nat.le_trans h.ctors k1, k2, by rw [← h.env]; exact k3⟩)
      · exact .inr (.inr k)
  served he := by
    obtain ⟨h1, h2⟩ := h'.served he
    obtain ⟨h3, h4⟩ := h.served h1
    refine ⟨h3, fun k k1 k2 => ?_⟩
    by_cases hk : k < s1.o.nAlloc
    · exact h4 k k1 hk
    · rw [← h.env]; exact h2 k (by omega) k2

theorem moves_blame (E : ElemOps S) (t : Prop) : Moves (Blame (N := N) E t) where
  refl s := .of_still (.refl _)
  trans _ _ _ h h' := h.trans h'
  link m hm s r s' h := by
    obtain ⟨o, h1, rfl⟩ := of_onO h
    exact .of_still (hm _ _ _ h1).1
  inner s i := .of_still (.refl _)

omit [Cell N] in
theorem blame_drop (E : ElemOps S) (t : Prop) (p : Ptr) : Does (Blame E t) (onO (dropObj p) : M (NS N S) Unit) := by
  intro s r s' h
  obtain ⟨o, h1, rfl⟩ := of_onO h
  obtain ⟨h2, rfl⟩ := runs_dropObj.1 h1
  obtain ⟨c, hc⟩ := Option.ne_none_iff_exists'.1 h2
  exact .of_still (.upd hc _)

theorem blame_destroy (E : ElemOps S) (t : Prop) (p : Ptr) : Does (Blame E t) (destroyElem E p : M (NS N S) Unit) :=
  fun _ _ _ h => .of_still (runs_destroyElem h).2.2

omit [Cell N] in
theorem blame_alloc (E : ElemOps S) (t : Prop) (init : N Ptr → N Ptr) : Does (Blame E t) (onO (allocCell init) : M (NS N S) Ptr) := by
  intro s r s' h
  obtain ⟨o, h1, rfl⟩ := of_onO h
  rcases runs_alloc h1 with ⟨a, k1, k2, k3, k4, k5, k6, k7, k8⟩ | ⟨k1, k2, rfl⟩
  · refine ⟨k6, by simp only; omega, by simp only; omega, fun b hb => ?_, .inl k5, fun he => ⟨by rw [← k5]; exact he, fun k h1 h2 => ?_⟩⟩
    · simp only [k4, upd_apply] at hb
      split at hb
      · rename_i e; cases e
        exact .inr ⟨s.o.nAlloc, Nat.le_refl _, by simp only; omega, k1⟩
      · exact .inl hb
    · have : k = s.o.nAlloc := by simp only at h2; omega
      rw [this, k1]; simp
  · refine ⟨rfl, by simp only; omega, Nat.le_refl _, fun b hb => .inl hb, .inr ⟨_, rfl, .inl ⟨rfl, s.o.nAlloc, Nat.le_refl _, by simp only; omega,
      fun a ha => .inl (k1 a ha)⟩⟩, fun he => by cases he⟩

theorem blame_construct (E : ElemOps S) (t : Prop) (p : Ptr) (a : Arg) : Does (Blame E t) (construct E p a : M (NS N S) Unit) := by
  intro s r s' h
  rcases runs_construct h with ⟨-, q, -, h2⟩ | ⟨e, i, q, rfl, h2, rfl⟩
  · exact .of_still h2
  · exact ⟨rfl, Nat.le_refl _, Nat.le_refl _, fun b hb => .inl hb, .inr ⟨e, rfl, .inr (.inr ⟨q, _, _, h2⟩)⟩, fun he => by cases he⟩

omit [Cell N] in
theorem blame_tryCtor (E : ElemOps S) {t : Prop} (ht : t) : Does (Blame E t) (onO tryCtor : M (NS N S) Bool) := by
  intro s r s' h
  obtain ⟨o, h1, rfl⟩ := of_onO h
  unfold Runs tryCtor at h1
  simp only at h1
  split at h1
  · cases h1
    exact ⟨rfl, Nat.le_refl _, Nat.le_succ _, fun b hb => .inl hb, .inl rfl, fun he => ⟨he, fun k h1 h2 => by simp only at h2; omega⟩⟩
  · rename_i hf
    cases h1
    exact ⟨rfl, Nat.le_refl _, Nat.le_succ _, fun b hb => .inl hb, .inr ⟨_, rfl, .inr (.inl ⟨ht, rfl, s.o.nCtor, Nat.le_refl _, Nat.lt_succ_self _,
      by simpa using hf⟩)⟩, fun he => by cases he⟩

section
variable {init : N Ptr → N Ptr} {put : Ptr → M (World (N Ptr)) Unit} {E : ElemOps S} {a : Arg}

theorem blame_build {t : Prop} (hp : ∀ p, Link (put p)) : Does (Blame E t) (build init put E a) := by
  have hR : Moves (Blame (N := N) E t) := moves_blame E t
  unfold build
  repeat' (first | with_reducible exact blame_alloc _ _ _ | with_reducible exact blame_construct _ _ _ _ | with_reducible exact hR.link _ (hp _) | does1)

/-- A new node either holds a new element, or it is not there. -/
theorem runs_build (hi : ∀ c, get (init c) = none) (hp : ∀ p, Link (put p)) {s s' : NS N S} {r : Ptr} (h : Runs (build init put E a) s r s')
    (ht : Typed s.o) : (s'.o.err ≠ none ∧ ∀ p q, Held s'.o p q ↔ Held s.o p q) ∨
      ∃ b q, r = .dyn b ∧ s.o.heap (.dyn b) = none ∧ s'.o.err = none ∧ ∀ x y, Held s'.o x y ↔ (x = .dyn b ∧ y = q) ∨ Held s.o x y := by
  unfold build at h
  obtain ⟨n, s1, h1, h2⟩ := VO.runs_bind_iff.1 h
  obtain ⟨o1, h3, rfl⟩ := of_onO h1
  obtain ⟨b, s2, h4, h5⟩ := VO.runs_bind_iff.1 h2
  cases h4
  have kept : ∀ p q, Held o1 p q ↔ Held s.o p q := by
    rcases runs_alloc h3 with ⟨a, k1, k2, -, k4, -⟩ | ⟨-, -, rfl⟩
    · exact held_upd k4 (by rw [k2]; simp [hi])
    · exact fun _ _ => .rfl
  by_cases he : o1.err = none
  · simp only [he, Option.isSome_none, Bool.false_eq_true, if_false] at h5
    rcases runs_alloc h3 with ⟨a, k1, k2, rfl, k4, -⟩ | ⟨-, -, rfl⟩
    rotate_left
    · cases he
    obtain ⟨_, s3, h6, h7⟩ := VO.runs_bind_iff.1 h5
    obtain ⟨b, s4, h8, h9⟩ := VO.runs_bind_iff.1 h7
    cases h8
    rcases runs_construct h6 with ⟨-, q, h10, h11⟩ | ⟨e, i, t, -, -, rfl⟩
    · have he' : s3.o.err = none := h11.err.trans he
      simp only [he', Option.isSome_none, Bool.false_eq_true, if_false] at h9
      cases h9
      exact .inr ⟨a, q, rfl, k2, he', fun x y => (h10 x y).trans (or_congr_right (kept x y))⟩
    · simp only [Option.isSome_some, if_true] at h9
      obtain ⟨_, s5, h10, h11⟩ := VO.runs_bind_iff.1 h9
      cases h11
      obtain ⟨o5, h12, rfl⟩ := of_onO h10
      obtain ⟨h13, h14⟩ := hp _ _ _ _ h12
      refine .inl ⟨by rw [h13.err]; simp, fun p q => ?_⟩
      exact (h14 (fun p q hq => ht p q ((kept p q).1 hq)) p q).trans (kept p q)
  · have : o1.err.isSome = true := by cases e : o1.err <;> simp_all
    simp only [this, if_true] at h5
    cases h5
    exact .inl ⟨he, kept⟩

theorem more_build (hi : ∀ c, get (init c) = none) (hp : ∀ p, Link (put p)) : Does More (build init put E a) := by
  intro s r s' h ht
  rcases runs_build hi hp h ht with ⟨-, h1⟩ | ⟨b, q, -, -, -, h1⟩
  · exact ⟨fun p q hq => ht p q ((h1 p q).1 hq), fun p q hq => (h1 p q).2 hq⟩
  · refine ⟨fun p q hq => ?_, fun p q hq => (h1 p q).2 (.inr hq)⟩
    rcases (h1 p q).1 hq with ⟨rfl, -⟩ | h
    · exact ⟨b, rfl⟩
    · exact ht p q h

end

end Nestl.NO
