import Verif.RBTree.Told
import Verif.LinkedList.Told
import Verif.Vector.Told
import Verif.Full.HintProps
import Verif.Set.Props
import Verif.LinkedList.Props
import Verif.Vector.Props
set_option autoImplicit false
/-
C85: error reports are complete, sound and name their cause.

Specification: `Report B w w' e` (`Verif/Told.lean`) says what happened to the allocation requests and element constructions
made between `w` and `w'`, depending on the error `e` that was reported.
-/
namespace Nestl

section
variable {N : Type} {B : Prop} {w w' : World N} {e : Option Err}

/-- The allocator does not hand out the same address twice. -/
def Distinct (env : Env N) : Prop := ∀ i j a, env.addr i = some a → env.addr j = some a → i = j

/-- Everything in dynamic memory was handed out by the allocator. -/
def Handed (w : World N) : Prop := ∀ a, w.heap (.dyn a) ≠ none → ∃ k, k < w.nAlloc ∧ w.env.addr k = some a

theorem Denied.none (hd : Distinct w.env) (hp : Handed w) {k : Nat} (hk : w.nAlloc ≤ k) (h : Denied w k) :
    w.env.addr k = none := by
  cases ha : w.env.addr k with
  | none => rfl
  | some a =>
    exfalso
    rcases h a ha with h1 | ⟨j, h1, h2, h3⟩
    · obtain ⟨j, h2, h3⟩ := hp a h1
      have := hd _ _ _ h3 ha
      omega
    · have := hd _ _ _ h3 ha
      omega

/-- No error is reported exactly if nothing was refused. -/
theorem Report.none_iff (h : Report False w w' e) (hd : Distinct w.env) (hp : Handed w) :
    e = none ↔ Served w w'.nAlloc ∧ Built w w'.nCtor := by
  cases h with
  | success h1 h2 => exact ⟨fun _ => ⟨h1, h2⟩, fun _ => rfl⟩
  | badAlloc k h1 h2 h3 h4 h5 =>
    refine ⟨fun h => (by cases h), fun h => ?_⟩
    rcases h5 with h5 | h5
    · exact absurd (h5.none hd hp h1) (h.1 k h1 (by omega))
    · exact h5.elim
  | ctorFailed k h1 h2 h3 h4 h5 =>
    refine ⟨fun h => (by cases h), fun h => ?_⟩
    have := h.2 k h1 (by omega)
    rw [h5] at this; cases this

/-- A failed construction is reported exactly if some construction failed, whatever the allocator does. -/
theorem Report.ctor_iff (h : Report B w w' e) : e = some .ctorFailed ↔ ¬ Built w w'.nCtor := by
  cases h with
  | success h1 h2 => exact ⟨fun h => (by cases h), fun h => absurd h2 h⟩
  | badAlloc k h1 h2 h3 h4 h5 => exact ⟨fun h => (by cases h), fun h => absurd h4 h⟩
  | ctorFailed k h1 h2 h3 h4 h5 =>
    refine ⟨fun _ h => ?_, fun _ => rfl⟩
    have := h k h1 (by omega)
    rw [h5] at this; cases this

theorem Report.ready {x : Option Err} (h : Report B { w with err := x } w' e) : Report B w w' e := by
  cases h with
  | success h1 h2 => exact .success h1 h2
  | badAlloc k h1 h2 h3 h4 h5 => exact .badAlloc k h1 h2 h3 h4 h5
  | ctorFailed k h1 h2 h3 h4 h5 => exact .ctorFailed k h1 h2 h3 h4 h5

/-- Only these errors are reported. -/
theorem Report.reasons (h : Report B w w' e) : e = none ∨ e = some .badAlloc ∨ e = some .ctorFailed := by
  cases h <;> simp

/-- An environment that refuses nothing causes no error. -/
theorem Report.good (h : Report False w w' e) (hg : Good w) : e = none := by
  have hd : Distinct w.env := fun i j a h1 h2 => hg.inj i j (h1.trans h2.symm)
  refine (h.none_iff hd hg.past).2 ⟨fun k _ _ => ?_, fun k _ _ => hg.ctor k⟩
  obtain ⟨a, ha⟩ := hg.some k
  rw [ha]; exact Option.some_ne_none _

theorem Outcome.handed (h : Outcome B w w') (hp : Handed w) : Handed w' := by
  intro a ha
  rw [h.env]
  have := h.allocs
  rcases h.heap a ha with h1 | ⟨j, h1, h2, h3⟩
  · obtain ⟨k, h2, h3⟩ := hp a h1
    exact ⟨k, by omega, h3⟩
  · exact ⟨j, h2, h3⟩

end

namespace Full
open Nestl.RB Nestl.Set Nestl.Multi
variable {K : Type} {lt : K → K → Bool} {w w' : W K} {c : FCall K} {r : FRes K}

/-- C85 (trees): every call reports what was refused, and nothing else; after a refusal it requests nothing more.  This holds
for every comparator and every state. -/
theorem tree_report (h : Runs (fexec lt c) (ready w) r w') : Report False w w' w'.err :=
  (Told.fexec lt c _ _ _ h rfl).report.ready

theorem FHist.handed {env : Env (TNode K)} {h : List (FEntry K)} (hh : FHist lt env h w) : Handed w := by
  induction hh with
  | start => exact fun a ha => absurd rfl ha
  | call _ _ hr ih => exact (Told.fexec (B := False) lt _ _ _ _ hr rfl).handed ih

/-- C85 (trees): if addresses are not reused, a call that is made correctly returns, and it reports an error exactly if one of
its allocation requests or element constructions was refused. -/
theorem tree_error_iff (hr : FReach lt w) (hv : FValid lt w c) (hd : Distinct w.env) :
    ∃ r w', Runs (fexec lt c) (ready w) r w' ∧ (w'.err = none ↔ Served w w'.nAlloc ∧ Built w w'.nCtor) := by
  obtain ⟨r, w', h1, -, -⟩ := hr.step hv
  obtain ⟨env, h, hh⟩ := hr
  exact ⟨r, w', h1, (tree_report h1).none_iff hd hh.handed⟩

/-- C85 (trees): in an environment that refuses nothing no call fails. -/
theorem tree_no_error (hr : FReach lt w) (hv : FValid lt w c) (hg : Good w) :
    ∃ r w', Runs (fexec lt c) (ready w) r w' ∧ w'.err = none := by
  obtain ⟨r, w', h1, -, -⟩ := hr.step hv
  exact ⟨r, w', h1, (tree_report h1).good hg⟩

/-- The set {2} without memory for a second element: inserting 3 is reported to fail. -/
example : ∃ (w w' : W Nat) (r : FRes Nat), Runs (fexec natLt (.multi (.base (.insert (.stk 0) 3)))) (ready w) r w' ∧
    w'.err ≠ none ∧ Report False w w' w'.err := by
  obtain ⟨w, p, hr, ha, hc, href, -⟩ := demo_refused
  obtain ⟨q, w', h1, h2⟩ := set_insert_absent (k := 3) hr natLt_swo ha hc (by
    intro x hx
    have : x = (p, 2) := by simpa using hx
    subst this
    simp [Equiv, natLt])
  have h3 : Runs (fexec natLt (.multi (.base (.insert (.stk 0) 3)))) (ready w)
      (.multi ⟨.ins q true, 0⟩) w' := by
    have : wp (fexec natLt (.multi (.base (.insert (.stk 0) 3)))) (ready w)
        fun r w2 => r = .multi ⟨.ins q true, 0⟩ ∧ w2 = w' := by
      unfold fexec mexec index iterArg mrun
      simp only [wp_bind, wp_pure]
      exact wp_iff_runs.2 ⟨_, _, h1, rfl, rfl⟩
    obtain ⟨_, _, h, rfl, rfl⟩ := this.runs
    exact h
  refine ⟨w, w', _, h3, ?_, tree_report h3⟩
  rcases h2 with ⟨h2, -⟩ | ⟨-, h2, -⟩
  · exact absurd href h2
  · exact h2

example : ∃ w, FReach rps w ∧ Good w ∧ Distinct w.env ∧ FValid rps w (.unique .emplace (.stk 0) 3) := by
  obtain ⟨w, p, h1, h2, h3, h4⟩ := one_reach rps 0
  exact ⟨w, h1, h2, fun i j a h5 h6 => h2.inj i j (h5.trans h6.symm), h3, trivial⟩

end Full

namespace LC
open Nestl.LL
variable {V : Type} {w w' : W V} {c : Call V} {r : Res}

/-- C85 (lists): every call reports what was refused, and nothing else; after a refusal it requests nothing more.  This holds
in every state. -/
theorem list_report (h : Runs (exec c) (ready w) r w') : Report False w w' w'.err :=
  (Told.exec c _ _ _ h rfl).report.ready

theorem Hist.handed {env : Env (LNode V)} {h : List (Entry V)} (hh : Hist env h w) : Handed w := by
  induction hh with
  | start => exact fun a ha => absurd rfl ha
  | call _ _ hr ih => exact (Told.exec (B := False) _ _ _ _ hr rfl).handed ih

/-- C85 (lists): if addresses are not reused, a call that is made correctly returns, and it reports an error exactly if one of
its allocation requests or element constructions was refused. -/
theorem list_error_iff (hr : Reach w) (hv : Valid w c) (hd : Distinct w.env) :
    ∃ r w', Runs (exec c) (ready w) r w' ∧ (w'.err = none ↔ Served w w'.nAlloc ∧ Built w w'.nCtor) := by
  obtain ⟨env, h, hh⟩ := hr
  obtain ⟨A, -, hs⟩ := hh.sim
  obtain ⟨r, w', h1, -⟩ := (hs.call hv).runs
  exact ⟨r, w', h1, (list_report h1).none_iff hd hh.handed⟩

example : ∃ (w : W Nat) (s t : Ptr), Reach w ∧ Good w ∧ Distinct w.env ∧ Valid w (.copy s t) := by
  obtain ⟨w, s, t, u, p, q, r, x, y, z, h1, h2, h3, h4, h5, h6, h7, h8, h9, h10, h11, h12, -⟩ := demo
  exact ⟨w, s, t, h1, h2, fun i j a h5 h6 => h2.inj i j (h5.trans h6.symm), h6, h7, .inl h12, h3⟩

/-- The list [4] without memory for a second element: `push_back_nothrow` is reported to fail. -/
example : ∃ (w w' : W Nat) (s : Ptr), Runs (exec (.pushBack s 5)) (ready w) .unit w' ∧ w'.err ≠ none ∧
    Report False w w' w'.err := by
  obtain ⟨w, s, p, h1, h2, h3, h4⟩ := demo_refused
  obtain ⟨w', h5, h6, -⟩ := list_push_back_atomic (v := 5) h1 h2 h3
  exact ⟨w, w', s, h5, h6.2 h4, list_report h5⟩

end LC

namespace VC
open Nestl.Vec
variable {V : Type} [ElemSize V] {w w' : W V} {c : Call V} {r : Res}

/-- C85 (vectors): every call reports what was refused, and nothing else; after a refusal it requests nothing more.  This holds
in every state.  Besides the environment, the size of a request can be a reason to refuse memory. -/
theorem vector_report (h : Runs (exec c) (ready w) r w') : Report (TooBig V) w w' w'.err :=
  (Told.exec c _ _ _ h rfl).report.ready

/-- C85 (vectors): a call reports that a construction failed exactly if one failed. -/
theorem vector_ctor_error_iff (h : Runs (exec c) (ready w) r w') : w'.err = some .ctorFailed ↔ ¬ Built w w'.nCtor :=
  (vector_report h).ctor_iff

/-- [2, 5] with room for a third element; an insertion at the front whose second construction fails. -/
example : ∃ (w w' : W Nat) (t : Ptr) (r : Res), Runs (exec (.insert t 0 (.val 7))) (ready w) r w' ∧
    w'.err = some .ctorFailed ∧ Report (TooBig Nat) w w' (some .ctorFailed) := by
  obtain ⟨w, t, hr, ha, hc, hk, al, h1, h2⟩ := demo_ctor (c := fun k => decide (k < 4)) rfl rfl rfl
  obtain ⟨r, w', h3, h4, -⟩ := vector_insert_failure_violated (i := 0) hr ha hc (by decide) ⟨_, _, hc, hk, by decide⟩
    (by rw [h1, h2]; rfl) (by rw [h1, h2]; rfl) 7
  have := vector_report h3
  rw [h4] at this
  exact ⟨w, w', t, r, h3, h4, this⟩

end VC
end Nestl
