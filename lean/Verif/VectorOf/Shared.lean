import Verif.VectorOf.Nest
import Verif.SharedPtr.Props4
set_option autoImplicit false
/-
C96: `shared_ptr` is an element class, so `vector<shared_ptr<T>>`, `vector<vector<shared_ptr<T>>>`, … are covered.
-/
namespace Nestl.VO
open Nestl.SP (At Val Hnd Hs Calm Moved Collect)
variable {V : Type}

/-! ### Model -/

/-- The caller passes a fresh error object. -/
def sClearErr : M (SP.W V) Unit := fun w => some (.ok ((), SP.ready w))

/-- The operations of `shared_ptr<T>` as an element class: shared_ptr.hpp:348-360, 362-371, 385-391, 393-400 (its constructors are
called by class_operations.hpp:32-37 and do not fail). -/
def sharedOps : ElemOps (SP.W V) where
  make := do sClearErr; SP.newShared
  copy q := do sClearErr; pure (.ok (← SP.copyShared (.var q)))
  move q := do sClearErr; SP.moveShared (.var q)
  drop q := do sClearErr; SP.dropShared q

/-! ### The contract -/

/-- The `shared_ptr` objects (other than data members of managed objects): what they point to. -/
def sharedVal (w : SP.W V) (q : Ptr) : Option Hnd :=
  match w.heap q with
  | some (.var .sh h) => some h
  | _ => none

/-- The `weak_ptr` objects. -/
def weakVal (w : SP.W V) (q : Ptr) : Option Hnd :=
  match w.heap q with
  | some (.var .wk h) => some h
  | _ => none

/-- Reachable, and managed objects have no `weak_ptr` members (see C55 for such objects). -/
def NoWeak (w : SP.W V) : Prop := SP.Reach w ∧ ∀ b i z, ¬ At w.heap .wk (.mem b i) z

variable {w w' : SP.W V}

theorem sharedVal_some {q : Ptr} {h : Hnd} : sharedVal w q = some h ↔ At w.heap .sh (.var q) h := by
  unfold sharedVal
  show _ ↔ w.heap q = _
  split
  · rename_i h' e; rw [e]; simp
  · rename_i e
    constructor
    · intro h; cases h
    · intro h; exact (e _ h).elim

theorem weakVal_some {q : Ptr} {h : Hnd} : weakVal w q = some h ↔ At w.heap .wk (.var q) h := by
  unfold weakVal
  show _ ↔ w.heap q = _
  split
  · rename_i h' e; rw [e]; simp
  · rename_i e
    constructor
    · intro h; cases h
    · intro h; exact (e _ h).elim

theorem opt_ext {α : Type} {f g : Ptr → Option α} (h : ∀ q a, f q = some a ↔ g q = some a) : f = g := by
  funext q
  apply Option.ext
  exact h q

/-- A valid call with the moves `A1` of handles. -/
theorem s_call {c : SP.Call V} (h : NoWeak w) (hv : SP.Valid w c) (hc : ∀ al v ks, c ≠ .makeShared al v ks) :
    ∃ r w' A1, Runs (SP.exec c) (SP.ready w) r w' ∧ SP.Reach w' ∧ (∀ p, r = some p → ∀ k z, ¬ At w.heap k (.var p) z) ∧
      Moved (At w.heap) c r A1 ∧ Collect A1 (Val w.heap) (At w'.heap) (Val w'.heap) := by
  obtain ⟨r, w', h1, h2, h3⟩ := SP.call_effect h.1 hv
  have : ∃ A1, Moved (At w.heap) c r A1 ∧ Collect A1 (Val w.heap) (At w'.heap) (Val w'.heap) := by
    cases c <;> first | exact (hc _ _ _ rfl).elim | exact h3.2.2
  obtain ⟨A1, h4, h5⟩ := this
  exact ⟨r, w', A1, h1, h2, h3.1, h4, h5⟩

/-- The handles in variables after a call. -/
theorem Collect.vars {A1 A' : Hs} {B B' : Ptr → V → Prop} (h : Collect A1 B A' B') (k : SP.Kind) (q : Ptr) (z : Hnd) :
    A' k (.var q) z ↔ A1 k (.var q) z := by
  rw [h.at_]
  constructor
  · exact fun h => h.1
  · exact fun h => ⟨h, fun b i e => by cases e⟩

theorem s_clearErr {α : Type} {f : Unit → M (SP.W V) α} {r : α} :
    Runs (sClearErr >>= f) w r w' ↔ Runs (f ()) (SP.ready w) r w' := by
  rw [runs_bind_iff]
  constructor
  · rintro ⟨_, _, h1, h2⟩; cases h1; exact h2
  · intro h; exact ⟨_, _, rfl, h⟩

theorem s_new {m : M (SP.W V) Ptr} {r : Option Ptr} (h : Runs (do pure (some (← m))) w r w') : ∃ d, r = some d ∧ Runs m w d w' := by
  obtain ⟨d, t, h1, h2⟩ := runs_bind_iff.1 h
  cases h2
  exact ⟨d, rfl, h1⟩

theorem s_unit {m : M (SP.W V) Unit} {r : Option Ptr} (h : Runs (do m; pure none) w r w') : r = none ∧ Runs m w () w' := by
  obtain ⟨d, t, h1, h2⟩ := runs_bind_iff.1 h
  cases h2
  exact ⟨rfl, h1⟩

theorem fresh_val {d : Ptr} (h : ∀ k z, ¬ At w.heap k (.var d) z) : sharedVal w d = none := by
  cases e : sharedVal w d with
  | none => rfl
  | some x => exact (h _ _ (sharedVal_some.1 e)).elim

theorem no_weak {A1 : Hs} {B B' : Ptr → V → Prop} (h : Collect A1 B (At w'.heap) B') (h1 : ∀ b i z, ¬ A1 .wk (.mem b i) z) :
    ∀ b i z, ¬ At w'.heap .wk (.mem b i) z := fun b i z hz => h1 b i z ((h.at_ _ _ _).1 hz).1

/-- Managed objects are as they were, except that some may have been destroyed. -/
def Fewer (G : Ptr → V → Prop) (w : SP.W V) : Prop := ∀ b v, Val w.heap b v → G b v

theorem fewer {G : Ptr → V → Prop} {A1 A' : Hs} (h : Fewer G w) (h1 : Collect A1 (Val w.heap) A' (Val w'.heap)) : Fewer G w' :=
  fun b v hb => h b v ((h1.val b v).1 hb).1

/-- The contract of `shared_ptr`: the value of a `shared_ptr` is what it points to.  All managed objects are in `G`. -/
def Elem.sharedIn (G : Ptr → V → Prop) : Elem (SP.W V) Hnd (Ptr → Option Hnd) where
  toElemOps := sharedOps
  inv w := NoWeak w ∧ Fewer G w
  val := sharedVal
  rest := weakVal
  blank := .nil
  make_ok := by
    rintro w ⟨h, hG⟩
    obtain ⟨r, w', A1, h1, h2, h3, h4, h5⟩ := s_call h (c := .newShared) trivial (by intros; intro e; cases e)
    obtain ⟨d, rfl, h6⟩ := s_new h1
    have h4 : A1 = _ := h4
    subst h4
    have hf := h3 d rfl
    refine wp_iff_runs.2 ⟨d, w', s_clearErr.2 h6, ⟨⟨h2, no_weak h5 ?_⟩, fewer hG h5⟩, ?_, fresh_val hf, ?_⟩
    · intro b i z hz; simp [Hs.put] at hz; exact h.2 _ _ _ hz
    · refine opt_ext fun q a => ?_
      rw [weakVal_some, weakVal_some, Collect.vars h5]
      by_cases e : q = d
      · subst e; simp [Hs.put, hf]
      · simp [Hs.put, e]
    · refine opt_ext fun q a => ?_
      rw [sharedVal_some, Collect.vars h5, upd_apply]
      by_cases e : q = d
      · subst e; simp [Hs.put, eq_comm]
      · simp [Hs.put, e, sharedVal_some]
  copy_ok := by
    rintro w q a ⟨h, hG⟩ hq
    rw [sharedVal_some] at hq
    obtain ⟨r, w', A1, h1, h2, h3, h4, h5⟩ := s_call h (c := .copyShared (.var q)) ⟨_, hq⟩ (by intros; intro e; cases e)
    obtain ⟨d, rfl, h6⟩ := s_new h1
    obtain ⟨x, hx, rfl⟩ := h4
    obtain ⟨-, rfl⟩ := hx.det hq
    have hf := h3 d rfl
    refine wp_iff_runs.2 ⟨.ok d, w', s_clearErr.2 (runs_bind_iff.2 ⟨_, _, h6, rfl⟩), ⟨⟨h2, no_weak h5 ?_⟩, fewer hG h5⟩, ?_, fresh_val hf, ?_⟩
    · intro b i z hz; simp [Hs.put] at hz; exact h.2 _ _ _ hz
    · refine opt_ext fun q a => ?_
      rw [weakVal_some, weakVal_some, Collect.vars h5]
      by_cases e : q = d
      · subst e; simp [Hs.put, hf]
      · simp [Hs.put, e]
    · refine opt_ext fun q a => ?_
      rw [sharedVal_some, Collect.vars h5, upd_apply]
      by_cases e : q = d
      · subst e; simp [Hs.put, eq_comm]
      · simp [Hs.put, e, sharedVal_some]
  move_ok := by
    rintro w q a ⟨h, hG⟩ hq
    rw [sharedVal_some] at hq
    obtain ⟨r, w', A1, h1, h2, h3, h4, h5⟩ := s_call h (c := .moveShared (.var q)) ⟨_, hq⟩ (by intros; intro e; cases e)
    obtain ⟨d, rfl, h6⟩ := s_new h1
    obtain ⟨x, hx, rfl⟩ := h4
    obtain ⟨-, rfl⟩ := hx.det hq
    have hf := h3 d rfl
    refine wp_iff_runs.2 ⟨d, w', s_clearErr.2 h6, ⟨⟨h2, no_weak h5 ?_⟩, fewer hG h5⟩, ?_, fresh_val hf, ?_⟩
    · intro b i z hz; simp [Hs.put] at hz; exact h.2 _ _ _ hz
    · refine opt_ext fun p a => ?_
      rw [weakVal_some, weakVal_some, Collect.vars h5]
      by_cases e : p = d
      · subst e; simp [Hs.put, hf]
      · by_cases e2 : p = q
        · subst e2
          simp only [Hs.put, SP.Loc.var.injEq, e, if_false, if_true]
          constructor
          · rintro ⟨h, -⟩; cases h
          · intro h; cases (hx.det h).1
        · simp [Hs.put, e, e2]
    · refine opt_ext fun p a => ?_
      rw [sharedVal_some, Collect.vars h5, upd_apply, upd_apply]
      by_cases e : p = d
      · subst e; simp [Hs.put, eq_comm]
      · by_cases e2 : p = q
        · subst e2; simp only [Hs.put, SP.Loc.var.injEq, e, if_false, if_true]; simp [eq_comm]
        · simp [Hs.put, e, e2, sharedVal_some]
  drop_ok := by
    rintro w q ⟨h, hG⟩ hq
    obtain ⟨a, hq⟩ := Option.ne_none_iff_exists'.1 hq
    rw [sharedVal_some] at hq
    have hcalm : Calm (Hs.del (At w.heap) (.var q)) := by
      intro b x i z _ _ hz
      exact (h.2 _ _ _ hz.2).elim
    obtain ⟨r, w', A1, h1, h2, h3, h4, h5⟩ := s_call h (c := .dropShared q) ⟨⟨_, hq⟩, hcalm⟩ (by intros; intro e; cases e)
    obtain ⟨rfl, h6⟩ := s_unit h1
    have h4 : A1 = _ := h4
    subst h4
    refine wp_iff_runs.2 ⟨(), w', s_clearErr.2 h6, ⟨⟨h2, no_weak h5 ?_⟩, fewer hG h5⟩, ?_, ?_⟩
    · intro b i z hz; exact h.2 _ _ _ hz.2
    · refine opt_ext fun p a => ?_
      rw [weakVal_some, weakVal_some, Collect.vars h5]
      by_cases e : p = q
      · subst e
        simp only [Hs.del, ne_eq, not_true_eq_false, false_and, false_iff]
        intro h; cases (hq.det h).1
      · simp [Hs.del, e]
    · refine opt_ext fun p a => ?_
      rw [sharedVal_some, Collect.vars h5, upd_apply]
      by_cases e : p = q
      · subst e; simp [Hs.del]
      · simp [Hs.del, e, sharedVal_some]

/-- The contract of `shared_ptr`, without restriction on the managed objects. -/
def Elem.shared : Elem (SP.W V) Hnd (Ptr → Option Hnd) := Elem.sharedIn fun _ _ => True

end Nestl.VO
