import Verif.TreeOf.Step
set_option autoImplicit false
/-
Lemmas for the theorems about trees of objects: the invariant holds in all reachable states.
-/
namespace Nestl.TO
open Nestl.VO (Elem ElemOps)
open Nestl.NO
open Nestl.RB (TNode T Tree)
open Nestl.Set (InvP Alive Contents contents_iff posOf)
open Nestl.Full (FCall FValid)
variable {S A X : Type} {E : Elem S A X} {s s' : ST S} {c : Call S A} {c' : FCall A} {r : Res}

theorem NInv.shows (h : NInv E s) : ∃ B, Shows E s B ∧ ∀ B', Shows E s B' → B' = B := by
  obtain ⟨B, hB⟩ := Abs.exists (absW E s)
  exact ⟨B, (shows_iff h.rel h.outer).2 hB, fun B' h' => ((shows_iff h.rel h.outer).1 h').unique hB⟩

theorem NInv.ready (h : NInv E s) : NInv E (ready s) := ⟨h.outer.ready, h.inv, h.live, h.typed, h.uniq⟩

theorem NInv.shows_ready (h : NInv E s) {B : AState A} (hB : Shows E s B) : Shows E (TO.ready s) B := by
  have h1 := (shows_iff h.rel h.outer).1 hB
  exact (shows_iff h.ready.rel h.ready.outer).2 h1

/-- Every call has a meaning. -/
theorem Call.Means.exists {blank : A} {f : Ptr → Option A} (h1 : ∀ q, c.reads q → f q ≠ none) (h2 : ∀ q, c.moves q → f q ≠ none) :
    ∃ c', c.Means blank f c' := by
  have hl : ∀ ts : List Ptr, (∀ q ∈ ts, f q ≠ none) → ∃ xs : List A, ts.map f = xs.map some := by
    intro ts
    induction ts with
    | nil => intro _; exact ⟨[], rfl⟩
    | cons t ts ih =>
      intro h
      obtain ⟨xs, hx⟩ := ih fun q hq => h q (by simp [hq])
      obtain ⟨x, hx'⟩ := Option.ne_none_iff_exists'.1 (h t (by simp))
      exact ⟨x :: xs, by simp [hx, hx']⟩
  cases c with
  | insert ord h v a =>
    cases a with
    | obj t => obtain ⟨x, hx⟩ := Option.ne_none_iff_exists'.1 (h1 t rfl); exact ⟨_, x, hx, rfl⟩
    | mov t => obtain ⟨x, hx⟩ := Option.ne_none_iff_exists'.1 (h2 t rfl); exact ⟨_, x, hx, rfl⟩
    | none => exact ⟨_, blank, rfl, rfl⟩
  | eraseKey ord v t => obtain ⟨x, hx⟩ := Option.ne_none_iff_exists'.1 (h1 t rfl); exact ⟨_, x, hx, rfl⟩
  | eraseKeys ord v ts => obtain ⟨x, hx⟩ := hl ts h1; exact ⟨_, x, hx, rfl⟩
  | find ord v t => obtain ⟨x, hx⟩ := Option.ne_none_iff_exists'.1 (h1 t rfl); exact ⟨_, x, hx, rfl⟩
  | _ => exact ⟨_, rfl⟩

theorem Valid.means (hv : Valid E s c) : ∃ c', c.Means E.blank (E.val s.i) c' :=
  Call.Means.exists hv.2.2.1 (fun q hq => (hv.2.2.2.1 q hq).1)

theorem NInv.out (h : NInv E s) {q : Ptr} (hq : ¬ IsElem s q) : (outside E s).1 q = E.val s.i q := by
  unfold outside
  simp only
  rw [if_neg (fun hn => hq (h.isElem.2 hn))]

theorem NInv.out_elem (h : NInv E s) {q : Ptr} (hq : IsElem s q) : (outside E s).1 q = none := by
  unfold outside
  simp only
  rw [if_pos (h.isElem.1 hq)]

/-- The effect of a valid call in a reachable state. -/
theorem NInv.call (h : NInv E s) {B : AState A} (hB : Shows E s B) (hv : Valid E s c) (hm : c.Means E.blank (E.val s.i) c') :
    ∃ r s' B', Runs (exec E.toElemOps c) (TO.ready s) r s' ∧ NInv E s' ∧ Effect E (outside E s) c r s' ∧ Shows E s' B' ∧
      Spec c.lt B c' r s'.o.err.isSome B' := by
  obtain ⟨h1, h2, h3, h4, h5, h6⟩ := hv
  exact h.ready.step rfl (h.shows_ready hB) (h1.ready h.outer) h2 h6 hm (fun q hq => h.out (h4 q hq).2) fun q hq => h.out (h5 q hq)

theorem Reach.inv (hr : Reach E s) : NInv E s := by
  induction hr with
  | start hi =>
    exact ⟨⟨fun i h => (h rfl).elim, fun h => (h.ne_none rfl).elim, fun a h => (h rfl).elim, fun a h => (h rfl).elim⟩, hi,
      fun p q ⟨c, h, _⟩ => (by cases h), fun p q ⟨c, h, _⟩ => (by cases h), fun p p' q ⟨c, h, _⟩ => (by cases h)⟩
  | call _ hv hrun h =>
    obtain ⟨c', hm⟩ := hv.means
    obtain ⟨B, hB, -⟩ := h.shows
    obtain ⟨r, s', B', h1, h2, -⟩ := h.call hB hv hm
    obtain ⟨-, rfl⟩ := Runs.det hrun h1
    exact h2
  | client _ hi hl h =>
    exact ⟨h.outer, hi, fun p q hq => hl q (h.isElem.2 ⟨p, hq⟩), h.typed, h.uniq⟩

/-- The element at position `p` of some tree is the object `q`. -/
theorem NInv.at (h : NInv E s) {p q : Ptr} : (∃ t qs, Alive s.o t ∧ Objs s t qs ∧ (p, q) ∈ qs) ↔ Held s.o p q := by
  rw [h.held]
  constructor
  · rintro ⟨t, qs, h1, h2, h3⟩
    obtain ⟨i, a, v, rfl, -, hv, -⟩ := h.outer.tree h1
    rw [(contents_iff hv).1 h2] at h3
    exact ⟨i, a, v, hv, h3⟩
  · rintro ⟨i, a, v, hv, hm⟩
    exact ⟨.stk i, v.nodes, ⟨i, rfl, hv.ne_none⟩, (contents_iff hv).2 rfl, hm⟩

/-- Nothing has changed. -/
structure Unchanged (E : Elem S A X) (s s' : ST S) : Prop where
  val : E.val s'.i = E.val s.i
  rest : E.rest s'.i = E.rest s.i
  shows : ∀ B, Shows E s' B ↔ Shows E s B
  elems : ∀ p q, (∃ t qs, Alive s'.o t ∧ Objs s' t qs ∧ (p, q) ∈ qs) ↔ ∃ t qs, Alive s.o t ∧ Objs s t qs ∧ (p, q) ∈ qs

/-- Programs that only look. -/
theorem NInv.look {α : Type} (h : NInv E s) {m : M (ST S) α} {n : M (RB.W A) α} {Q : α → Prop} (hq : QSim E (Frozen E s) m n fun _ => Frozen E s)
    (hw : wp n (absW E s) fun r w' => Q r ∧ ∃ k, w' = (absW E s).addCmp k) : ∃ r s', Runs m s r s' ∧ Q r ∧ NInv E s' ∧ Unchanged E s s' := by
  obtain ⟨r, w', h1, h2, k, rfl⟩ := hw.runs
  obtain ⟨s', k1, k2, k3, k4⟩ := hq s (absW E s) h.rel ⟨fun _ _ => .rfl, rfl, rfl, rfl⟩ r _ h1
  have hI : TInv ((absW E s).addCmp k) := ⟨h.lift.alive, h.lift.disj, h.lift.cover, h.lift.past⟩
  have hN := NInv.of_rel k2 hI
  refine ⟨r, s', k1, h2, hN, k3.2.2.1, k3.2.2.2, fun B => ?_, fun p q => hN.at.trans ((k3.1 p q).trans h.at.symm)⟩
  rw [shows_iff k2 hN.outer, shows_iff h.rel h.outer]
  rfl

theorem NInv.query {α : Type} (h : NInv E s) {m : M (ST S) α} {n : M (RB.W A) α} {Q : α → Prop} (hq : QSim E (Frozen E s) m n fun _ => Frozen E s)
    (hw : wp n (absW E s) fun r w' => Q r ∧ ∃ k, w' = (absW E s).addCmp k) : ∃ r s', Runs m s r s' ∧ Q r ∧ Unchanged E s s' := by
  obtain ⟨r, s', h1, h2, -, h3⟩ := h.look hq hw
  exact ⟨r, s', h1, h2, h3⟩

end Nestl.TO
