import Verif.VectorOf.PropLemmas
set_option autoImplicit false
/-
Concrete reachable states used by the examples beside the theorems of C96: vectors of boxes, a class of objects that own a value
and whose copies fail after a while.
-/
namespace Nestl.VO
open Nestl.Vec (ElemSize)

/-- The memory of the boxes; `left` copies will succeed. -/
structure Boxes where
  box : Ptr → Option Nat
  next : Nat
  left : Nat

/-- The operations of boxes. -/
def boxOps : ElemOps Boxes where
  make := fun b => some (.ok (.stk b.next, ⟨upd b.box (.stk b.next) (some 0), b.next + 1, b.left⟩))
  copy q := fun b => match b.box q with
    | none => some (.error .wild)
    | some x =>
      if b.left = 0 then some (.ok (.error .badAlloc, b))
      else some (.ok (.ok (.stk b.next), ⟨upd b.box (.stk b.next) (some x), b.next + 1, b.left - 1⟩))
  move q := fun b => match b.box q with
    | none => some (.error .wild)
    | some x => some (.ok (.stk b.next, ⟨upd (upd b.box q (some 0)) (.stk b.next) (some x), b.next + 1, b.left⟩))
  drop q := fun b => match b.box q with
    | none => some (.error .wild)
    | some _ => some (.ok ((), ⟨upd b.box q none, b.next, b.left⟩))

/-- The contract of boxes. -/
def Elem.box : Elem Boxes Nat Unit where
  toElemOps := boxOps
  inv b := ∀ n, b.next ≤ n → b.box (.stk n) = none
  val := Boxes.box
  rest _ := ()
  blank := 0
  make_ok b h := by
    refine wp_iff_runs.2 ⟨_, _, rfl, ?_, rfl, h _ (Nat.le_refl _), rfl⟩
    intro n hn
    have hn : b.next + 1 ≤ n := hn
    rw [show Boxes.box _ _ = upd b.box _ _ _ from rfl, upd_other _ _ (by simp; omega)]
    exact h _ (by omega)
  copy_ok b q a h hq := by
    by_cases hl : b.left = 0
    · refine wp_iff_runs.2 ⟨.error .badAlloc, b, ?_, h, rfl, rfl⟩
      show (match b.box q with | none => _ | some x => _) = _
      rw [show b.box q = some a from hq]
      show (if _ then _ else _) = _
      rw [if_pos hl]
    · refine wp_iff_runs.2 ⟨.ok (.stk b.next), ⟨upd b.box (.stk b.next) (some a), b.next + 1, b.left - 1⟩, ?_, ?_, rfl,
        h _ (Nat.le_refl _), rfl⟩
      · show (match b.box q with | none => _ | some x => _) = _
        rw [show b.box q = some a from hq]
        show (if _ then _ else _) = _
        rw [if_neg hl]
      · intro n hn
        have hn : b.next + 1 ≤ n := hn
        rw [show Boxes.box _ _ = upd b.box _ _ _ from rfl, upd_other _ _ (by simp; omega)]
        exact h _ (by omega)
  move_ok b q a h hq := by
    have hq : b.box q = some a := hq
    refine wp_iff_runs.2 ⟨.stk b.next, ⟨upd (upd b.box q (some 0)) (.stk b.next) (some a), b.next + 1, b.left⟩, ?_, ?_, rfl,
      h _ (Nat.le_refl _), rfl⟩
    · show (match b.box q with | none => _ | some x => _) = _
      rw [hq]
    · intro n hn
      have hn : b.next + 1 ≤ n := hn
      have h1 : Ptr.stk n ≠ q := by rintro rfl; rw [h n (by omega)] at hq; cases hq
      rw [show Boxes.box _ _ = upd (upd b.box _ _) _ _ _ from rfl, upd_other _ _ (by simp; omega), upd_other _ _ h1]
      exact h _ (by omega)
  drop_ok b q h hq := by
    obtain ⟨a, hq⟩ := Option.ne_none_iff_exists'.1 hq
    have hq : b.box q = some a := hq
    refine wp_iff_runs.2 ⟨(), ⟨upd b.box q none, b.next, b.left⟩, ?_, ?_, rfl, rfl⟩
    · show (match b.box q with | none => _ | some x => _) = _
      rw [hq]
    · intro n hn
      have hn : b.next ≤ n := hn
      rw [show Boxes.box _ _ = upd b.box _ _ _ from rfl, upd_apply]
      split
      · rfl
      · exact h n hn

namespace Demo

scoped instance : ElemSize Ptr := ⟨8, by decide, by decide⟩

/-- Unlimited memory. -/
def env : Env (Vec.VCell Ptr) := { addr := fun n => some n, ctor := fun _ => true, junk := fun _ => .obj ⟨0, .null, 0, 0⟩ }

variable {S A X : Type} {E : Elem S A X}

/-- The state after a call. -/
def go (E : ElemOps S) (c : Call) (s : NS S) : NS S :=
  match exec E c (ready s) with
  | some (.ok (_, s')) => s'
  | _ => s

/-- The call returns. -/
def okB (E : ElemOps S) (c : Call) (s : NS S) : Bool :=
  match exec E c (ready s) with
  | some (.ok _) => true
  | _ => false

theorem runs {E : ElemOps S} {s : NS S} {c : Call} (h : okB E c s = true) : ∃ r, Runs (exec E c) (ready s) r (go E c s) := by
  unfold okB at h
  unfold go Runs
  split at h
  · rename_i x e
    rw [e]; exact ⟨x.1, rfl⟩
  · cases h

theorem step {s : NS S} {c : Call} (hr : Reach E s) (hv : Valid E s c) (h : okB E.toElemOps c s = true) :
    Reach E (go E.toElemOps c s) := by
  obtain ⟨r, h⟩ := runs h
  exact .call hr hv h

theorem alive {s : NS S} {i : Nat} (h : (s.o.heap (.stk i)).isSome = true) : VC.Alive s.o (.stk i) :=
  ⟨i, rfl, by intro e; rw [e] at h; cases h⟩

/-- The elements of a vector. -/
def elems (s : NS S) (v : Ptr) : Option (List Ptr) :=
  match VC.walk v s.o with
  | some (.ok (L, _)) => some L
  | _ => none

theorem objs {s : NS S} {v : Ptr} {L : List Ptr} (hr : Reach E s) (ha : VC.Alive s.o v) (h : elems s v = some L) :
    Objs s v L := by
  obtain ⟨σ, hi⟩ := hr.inv
  obtain ⟨x, hx⟩ := (VC.alive_iff hi.outer).1 ha
  have h1 : VC.Contents s.o v x.els := (VC.contents_iff hi.outer hx).2 rfl
  unfold elems at h
  rw [show VC.walk v s.o = _ from h1] at h
  cases h
  exact h1

theorem notElem {s : NS S} {q : Ptr} (hr : Reach E s)
    (h : ((List.range s.o.sp).all fun i => match elems s (.stk i) with | some L => !L.contains q | none => true) = true) :
    ¬ IsElem s q := by
  rintro ⟨v, qs, h1, h2, h3⟩
  obtain ⟨σ, hi⟩ := hr.inv
  obtain ⟨i, rfl, h4⟩ := h1
  have h5 : i < s.o.sp := by
    refine Classical.byContradiction fun hn => ?_
    obtain ⟨x, hx⟩ := (VC.alive_iff hi.outer).1 ⟨i, rfl, h4⟩
    have := hi.outer.top i (by omega)
    rw [hx] at this; cases this
  have h6 := List.all_eq_true.1 h i (List.mem_range.2 h5)
  have h7 : elems s (.stk i) = some qs := by
    unfold elems
    rw [show VC.walk _ s.o = _ from h2]
  rw [h7] at h6
  simp [h3] at h6

theorem gone {s : NS S} (hr : Reach E s) (h : ((List.range s.o.sp).all fun i => !(s.o.heap (.stk i)).isSome) = true) :
    ∀ v, ¬ VC.Alive s.o v := by
  rintro v ⟨i, rfl, h1⟩
  obtain ⟨σ, hi⟩ := hr.inv
  have h5 : i < s.o.sp := by
    refine Classical.byContradiction fun hn => ?_
    obtain ⟨x, hx⟩ := (VC.alive_iff hi.outer).1 ⟨i, rfl, h1⟩
    have := hi.outer.top i (by omega)
    rw [hx] at this; cases this
  have h7 := List.all_eq_true.1 h i (List.mem_range.2 h5)
  cases e : s.o.heap (.stk i) with
  | none => exact h1 e
  | some x => rw [e] at h7; cases h7

theorem live {s : NS S} {q : Ptr} (h : (E.val s.i q).isSome = true) : E.val s.i q ≠ none := by
  intro e; rw [e] at h; cases h

theorem values {s : NS S} {v : Ptr} {qs : List Ptr} {L : List A} (h : Objs s v qs) (e : qs.map (E.val s.i) = L.map some) :
    Values E s v L := ⟨qs, h, e⟩

/-! ### Vectors of boxes -/

/-- The client has boxes with the values 7 and 8; five copies will succeed. -/
def s0 : NS Boxes := ⟨VC.start env, ⟨fun p => if p = .stk 0 then some 7 else if p = .stk 1 then some 8 else none, 2, 5⟩⟩

def v : Ptr := .stk 0
def u : Ptr := .stk 1

/-- Two vectors. -/
def s1 : NS Boxes := go boxOps (.create 0) s0
def s2 : NS Boxes := go boxOps (.create 0) s1
/-- The box with 7 is copied into the first vector. -/
def s3 : NS Boxes := go boxOps (.pushBack v (.obj (.stk 0))) s2
/-- The box with 8 is moved into it; the block grows. -/
def s4 : NS Boxes := go boxOps (.pushMove v (.stk 1)) s3
/-- The elements are copied to the other vector. -/
def s5 : NS Boxes := go boxOps (.copy u v) s4
/-- The copies run out: the error is reported and nothing changes. -/
def s6 : NS Boxes := go boxOps (.reserve v 10) s5

theorem r0 : Reach Elem.box s0 := .start (by
  intro n hn
  show (if _ then _ else if _ then _ else _) = _
  rw [if_neg, if_neg]
  · simp only [Ptr.stk.injEq]
    have hn : 2 ≤ n := hn
    omega
  · simp only [Ptr.stk.injEq]
    have hn : 2 ≤ n := hn
    omega)

theorem r1 : Reach Elem.box s1 := step r0 ⟨trivial, fun _ h => h.elim⟩ (by decide +kernel)
theorem r2 : Reach Elem.box s2 := step r1 ⟨trivial, fun _ h => h.elim⟩ (by decide +kernel)

/-- A box of the client can be copied into a vector. -/
theorem v2 : Valid Elem.box s2 (.pushBack v (.obj (.stk 0))) :=
  ⟨⟨alive (by decide +kernel), trivial, .inl trivial⟩, by
    rintro q rfl; exact ⟨live (by decide +kernel), notElem r2 (by decide +kernel)⟩⟩
theorem r3 : Reach Elem.box s3 := step r2 v2 (by decide +kernel)

/-- A box of the client can be moved into a vector. -/
theorem v3 : Valid Elem.box s3 (.pushMove v (.stk 1)) :=
  ⟨⟨alive (by decide +kernel), trivial, .inl trivial⟩, by
    rintro q rfl; exact ⟨live (by decide +kernel), notElem r3 (by decide +kernel)⟩⟩
theorem run3 : ∃ r, Runs (exec boxOps (.pushMove v (.stk 1))) (ready s3) r s4 := runs (by decide +kernel)
theorem r4 : Reach Elem.box s4 := step r3 v3 (by decide +kernel)

/-- A vector can be copied. -/
theorem v4 : Valid Elem.box s4 (.copy u v) := ⟨⟨alive (by decide +kernel), alive (by decide +kernel)⟩, fun _ h => h.elim⟩
theorem r5 : Reach Elem.box s5 := step r4 v4 (by decide +kernel)

/-- The capacity can be increased. -/
theorem v5 : Valid Elem.box s5 (.reserve v 10) :=
  ⟨⟨alive (by decide +kernel), by unfold VC.Countable; decide⟩, fun _ h => h.elim⟩
theorem run5 : ∃ r, Runs (exec boxOps (.reserve v 10)) (ready s5) r s6 := runs (by decide +kernel)
theorem r6 : Reach Elem.box s6 := step r5 v5 (by decide +kernel)

theorem o5 : Objs s5 v [.stk 3, .stk 4] := objs r5 (alive (by decide +kernel)) (by decide +kernel)
theorem o5u : Objs s5 u [.stk 5, .stk 6] := objs r5 (alive (by decide +kernel)) (by decide +kernel)
theorem o6 : Objs s6 v [.stk 3, .stk 4] := objs r6 (alive (by decide +kernel)) (by decide +kernel)
theorem vals5 : Values Elem.box s5 v [7, 8] := values o5 (by decide +kernel)
theorem vals5u : Values Elem.box s5 u [7, 8] := values o5u (by decide +kernel)
theorem vals6 : Values Elem.box s6 v [7, 8] := values o6 (by decide +kernel)

/-- The vectors are destroyed. -/
def s7 : NS Boxes := go boxOps (.destroy u) s6
def s8 : NS Boxes := go boxOps (.destroy v) s7

theorem r7 : Reach Elem.box s7 := step r6 ⟨alive (by decide +kernel), fun _ h => h.elim⟩ (by decide +kernel)
theorem r8 : Reach Elem.box s8 := step r7 ⟨alive (by decide +kernel), fun _ h => h.elim⟩ (by decide +kernel)

theorem gone8 : ∀ v, ¬ VC.Alive s8.o v := gone r8 (by decide +kernel)

theorem isElem5 : IsElem s5 (.stk 3) := ⟨v, _, alive (by decide +kernel), o5, by simp⟩

/-- The client changes the value of an element. -/
theorem set {s : NS Boxes} {q : Ptr} (hr : Reach Elem.box s) (hq : IsElem s q) (x : Nat) :
    Elem.box.inv { s.i with box := upd s.i.box q (some x) } ∧
    ∀ p, IsElem s p → Elem.box.val { s.i with box := upd s.i.box q (some x) } p ≠ none := by
  obtain ⟨σ, h⟩ := hr.inv
  have hl : ∀ p, IsElem s p → s.i.box p ≠ none := by
    intro p hp
    obtain ⟨t, y, h1, h2⟩ := h.owned.1 (h.isElem.1 hp)
    exact h.live _ _ _ h1 h2
  constructor
  · intro n hn
    have hn : s.i.next ≤ n := hn
    show upd s.i.box q (some x) (.stk n) = none
    rw [upd_other]
    · exact h.inv n hn
    · rintro rfl
      exact hl _ hq (h.inv n hn)
  · intro p hp
    show upd s.i.box q (some x) p ≠ none
    rw [upd_apply]
    split
    · simp
    · exact hl p hp

end Demo
end Nestl.VO
