import Verif.LinkedList.Alias
import Verif.LinkedList.Props
set_option autoImplicit false
/-
C93: list functions accept references to elements, also to elements of the list they modify.
-/
namespace Nestl.LC
open Nestl.LL
variable {V : Type} {w w' : W V} {s t p : Ptr} {v : V} {L : List (Ptr × V)}

/-- Calls with a value argument that is a reference to an element of a list. -/
inductive RCall
  | insert (s pos : Ptr)                 -- `s.insert_nothrow(err, pos, *p)`, `s.emplace_nothrow(err, pos, *p)`
  | insertN (s pos : Ptr) (n : Nat)      -- `s.insert_nothrow(err, pos, n, *p)`
  | pushBack (s : Ptr)                   -- `s.push_back_nothrow(err, *p)`, `s.emplace_back_nothrow(err, *p)`
  | pushFront (s : Ptr)                  -- `s.push_front_nothrow(err, *p)`, `s.emplace_front_nothrow(err, *p)`
  | assignN (s : Ptr) (n : Nat)          -- `s.assign_nothrow(err, n, *p)`

/-- The same call with a value of the client's own. -/
def RCall.value (v : V) : RCall → Call V
  | .insert s pos => .insert s pos v
  | .insertN s pos n => .insertN s pos n v
  | .pushBack s => .pushBack s v
  | .pushFront s => .pushFront s v
  | .assignN s n => .assignN s n v

/-- The program executed by a call with a reference to the element `p`: list.hpp:714-731, 901-968, 997-1050. -/
def execRef (p : Ptr) : RCall → M (W V) Res
  | .insert s pos => do pure (.pos (← emplaceRef s pos p))
  | .insertN s pos n => do LL.insertNRef s pos p n; pure .unit
  | .pushBack s => do LL.pushBackRef s p; pure .unit
  | .pushFront s => do LL.pushFrontRef s p; pure .unit
  | .assignN s n => do LL.assignNRef s n p; pure .unit

theorem agree_exec (hp : ∀ i, p ≠ .stk i) (c : RCall) : Agree (Holds p v) (execRef p c) (exec (c.value v)) := by
  cases c with
  | insert s pos => exact Agree.after (Agree.emplace _ _)
  | insertN s pos n => exact Agree.after (Agree.insertN _ _ _)
  | pushBack s => exact Agree.after (Agree.pushBack _)
  | pushFront s => exact Agree.after (Agree.pushFront _)
  | assignN s n => exact Agree.after (Agree.assignN hp _ _)

theorem Reach.holds (hr : Reach w) (ht : Alive w t) (hc : Contents w t L) (hp : (p, v) ∈ L) :
    (∀ i, p ≠ .stk i) ∧ Holds p v (ready w) := by
  obtain ⟨σ, h, _⟩ := hr.inv
  obtain ⟨ls, hs⟩ := (alive_iff h).1 ht
  obtain rfl := (contents_iff h hs).1 hc
  obtain ⟨e, he, h1⟩ := List.mem_map.1 hp
  cases h1
  obtain ⟨⟨a, ha⟩, hd⟩ := h.st.el t ls hs e he
  refine ⟨by intro i; rw [ha]; simp, by rw [ha]; simp, ?_⟩
  unfold dat at hd
  cases hc : w.heap e.p with
  | none => rw [hc] at hd; cases hd
  | some c =>
    rw [hc] at hd
    simp only [Option.map_some, Option.some.injEq, Prod.mk.injEq] at hd
    exact ⟨c, hc, hd.1⟩

/-- C93: a call of a list function with a reference to an element `p` of any list (also of the list that it modifies) ends
normally and does exactly what the same call with a copy of the value of that element does; in particular the former elements,
which `assign_nothrow` replaces, are not read after their destruction. -/
theorem list_reference_argument (hr : Reach w) (ht : Alive w t) (hc : Contents w t L) (hp : (p, v) ∈ L) {c : RCall}
    (hv : Valid w (c.value v)) :
    (∃ r w', Runs (execRef p c) (ready w) r w') ∧
      ∀ r w', Runs (execRef p c) (ready w) r w' ↔ Runs (exec (c.value v)) (ready w) r w' := by
  obtain ⟨h1, h2⟩ := hr.holds ht hc hp
  have ha := agree_exec (v := v) h1 c
  obtain ⟨r, w', h⟩ := list_calls_safe hr hv
  exact ⟨⟨r, w', (ha.runs h2).2 h⟩, fun r w' => ha.runs h2⟩

/-- `RHist env h w`: `w` is reached from the start by calls some of which got references to elements; `h` is the history in which
those calls appear with the value that the element had at the call. -/
inductive RHist (env : Env (LNode V)) : List (Entry V) → W V → Prop
  | start : RHist env [] (start env)
  | call {h : List (Entry V)} {w w' : W V} {c : Call V} {r : Res} : RHist env h w → Valid w c →
      Runs (exec c) (ready w) r w' → RHist env (⟨c, r, w'.err.isSome⟩ :: h) w'
  | ref {h : List (Entry V)} {w w' : W V} {t p : Ptr} {v : V} {L : List (Ptr × V)} {c : RCall} {r : Res} : RHist env h w →
      Alive w t → Contents w t L → (p, v) ∈ L → Valid w (c.value v) → Runs (execRef p c) (ready w) r w' →
      RHist env (⟨c.value v, r, w'.err.isSome⟩ :: h) w'

theorem Hist.rhist {env : Env (LNode V)} {h : List (Entry V)} (hh : Hist env h w) : RHist env h w := by
  induction hh with
  | start => exact .start
  | call _ hv hr ih => exact .call ih hv hr

/-- C93: histories in which list functions get references to elements behave as the mathematical lists do when they get the
values. -/
theorem list_reference_history {env : Env (LNode V)} {h : List (Entry V)} (hh : RHist env h w) :
    Hist env h w ∧ ∃ A, SpecRun h A ∧ (∀ s, Alive w s ↔ A s ≠ none) ∧
      ∀ s a L, A s = some (a, L) → Contents w s L ∧ HasAlloc w s a := by
  have h1 : Hist env h w := by
    induction hh with
    | start => exact .start
    | call _ hv hr ih => exact .call ih hv hr
    | ref _ ht hc hp hv hr ih =>
      exact .call ih hv (((list_reference_argument ⟨_, _, ih⟩ ht hc hp hv).2 _ _).1 hr)
  exact ⟨h1, list_history_refinement h1⟩

/-- `s.push_back_nothrow(err, s.front())` and `s.assign_nothrow(err, 5, *--s.end())`. -/
example : ∃ env h, ∃ (w : W Nat) (s p q r : Ptr), RHist env h w ∧ Alive w s ∧ Contents w s [(p, 3), (q, 1), (r, 2)] ∧
    Valid w ((RCall.pushBack s).value 3) ∧ Valid w ((RCall.assignN s 5).value 2) := by
  obtain ⟨w, s, t, u, p, q, r, x, y, z, ⟨env, h, hh⟩, _, _, _, _, ha, _, _, hc, _, _, hd, _⟩ := demo
  exact ⟨env, h, w, s, p, q, r, hh.rhist, ha, hc, ha, ha, .inl hd⟩

end Nestl.LC
