import Verif.Errors.Model
set_option autoImplicit false
/-
C107: what error objects tell.
-/
namespace Nestl.Errors

/-! ### Specification -/

/-- Specification: the error objects of this model, `Option Err` (Verif/Base.lean). -/
abbrev ASt := Var → Option Err

/-- Specification: a program with such error objects. -/
def Prog.runA {α : Type} : Prog α → ASt → α × ASt
  | .ret a, s => (a, s)
  | .fresh v k, s => k.runA (setv s v none)
  | .copy v t k, s => k.runA (setv s v (s t))
  | .length v k, s => k.runA (setv s v (some .lengthError))
  | .alloc v k, s => k.runA (setv s v (some .badAlloc))
  | .test v k, s => (k (s v).isSome).runA s

/-- Specification: the exception that is thrown for an error; `x` is the one thrown by a constructor. -/
def Tells (L : Lib) : Err → Exc → Prop
  | .badAlloc, x => x = .badAlloc ∨ x = L.spare ∧ ∃ n, L.full n = true
  | .lengthError, x => x = .lengthError ∨ x = L.spare ∧ ∃ n, L.full n = true
  | .ctorFailed, _ => True

/-- Specification: the error codes. -/
def Codes (C : Errno) : Err → Int → Prop
  | .badAlloc, n => n = C.ENOMEM
  | .lengthError, n => n = C.ERANGE
  | .ctorFailed, n => n ≠ 0

/-- Specification: the objects of the class `exception_ptr_error` tell the same as those of this model. -/
def ShowsP (L : Lib) (s : PSt) (a : ASt) : Prop := ∀ v,
  match a v with
  | none => s.vars v = none
  | some e => ∃ i x, s.vars v = some i ∧ s.objs[i]? = some x ∧ Tells L e x

/-- Specification: the same for the class `errc_based_error`. -/
def ShowsC (C : Errno) (s : CSt) (a : ASt) : Prop := ∀ v,
  match a v with
  | none => s v = 0
  | some e => s v ≠ 0 ∧ Codes C e (s v)

/-- The operation calls `std::make_exception_ptr`. -/
def Op.makes : Op → Bool
  | .length _ | .alloc _ | .from_ _ _ => true
  | _ => false

/-- What the `n`-th call of `std::make_exception_ptr` with `x` yields. -/
def Lib.made (L : Lib) (n : Nat) (x : Exc) : Exc := if L.full n then L.spare else x

/-- Specification: the exception that the variable `v` stands for after the operations `ops`, of which the last one comes first. -/
def expected (L : Lib) : List Op → Var → Option Exc
  | [], _ => none
  | .fresh u :: h, v => if v = u then none else expected L h v
  | .copy u t :: h, v => if v = u then expected L h t else expected L h v
  | .length u :: h, v => if v = u then some (L.made (h.countP Op.makes) .lengthError) else expected L h v
  | .alloc u :: h, v => if v = u then some (L.made (h.countP Op.makes) .badAlloc) else expected L h v
  | .from_ u x :: h, v => if v = u then some (L.made (h.countP Op.makes) x) else expected L h v
  | .caught u x :: h, v => if v = u then some x else expected L h v

/-! ### Lemmas -/

theorem setv_same {β : Type} (f : Var → β) (v : Var) (x : β) : setv f v x v = x := if_pos rfl
theorem setv_other {β : Type} (f : Var → β) {u v : Var} (x : β) (h : u ≠ v) : setv f v x u = f u := if_neg h

theorem get_append {l : List Exc} {i : Nat} {x : Exc} (y : Exc) (h : l[i]? = some x) : (l ++ [y])[i]? = some x := by
  rw [List.getElem?_append_left (List.getElem?_eq_some_iff.1 h).1]
  exact h

section
variable {L : Lib} {C : Errno} {s : PSt} {c : CSt} {a : ASt} {v t : Var}

theorem ShowsP.fresh (h : ShowsP L s a) : ShowsP L (pFresh v s) (setv a v none) := by
  intro u
  by_cases e : u = v
  · subst e; rw [setv_same]; exact setv_same _ _ _
  · rw [setv_other _ _ e]
    show match a u with | none => setv _ _ _ u = none | some e => ∃ i x, setv _ _ _ u = some i ∧ _
    rw [setv_other _ _ e]; exact h u

theorem ShowsP.copy (h : ShowsP L s a) : ShowsP L (pCopy v t s) (setv a v (a t)) := by
  intro u
  show match setv a v (a t) u with | none => setv _ _ _ u = none | some e => ∃ i x, setv _ _ _ u = some i ∧ _
  by_cases e : u = v
  · subst e; rw [setv_same, setv_same]; exact h t
  · rw [setv_other _ _ e, setv_other _ _ e]; exact h u

theorem ShowsP.build (h : ShowsP L s a) {x : Exc} {e : Err} (he : Tells L e (L.made s.made x)) :
    ShowsP L (fromException L v x s) (setv a v (some e)) := by
  intro u
  show match setv a v (some e) u with
    | none => setv s.vars v (some s.objs.length) u = none
    | some e => ∃ i x', setv s.vars v (some s.objs.length) u = some i ∧ (s.objs ++ [L.made s.made x])[i]? = some x' ∧ Tells L e x'
  by_cases k : u = v
  · subst k; rw [setv_same]
    exact ⟨_, _, setv_same _ _ _, by simp, he⟩
  · rw [setv_other _ _ k]
    rw [show setv s.vars v (some s.objs.length) u = s.vars u from setv_other _ _ k]
    have := h u
    cases h1 : a u with
    | none => rw [h1] at this; exact this
    | some e =>
      rw [h1] at this
      obtain ⟨i, x, b1, b2, b3⟩ := this
      exact ⟨i, x, b1, get_append _ b2, b3⟩

theorem tells_made {e : Err} {x : Exc} (n : Nat) (h : Tells L e x) (hs : L.full n = true → Tells L e L.spare) : Tells L e (L.made n x) := by
  unfold Lib.made
  split
  · rename_i k; exact hs k
  · exact h

theorem ShowsP.test (h : ShowsP L s a) : pTest v s = (a v).isSome := by
  have := h v
  unfold pTest
  cases h1 : a v with
  | none => rw [h1] at this; rw [show s.vars v = none from this]; rfl
  | some e => rw [h1] at this; obtain ⟨i, x, b1, -⟩ := this; rw [b1]; rfl

theorem ShowsC.set (h : ShowsC C c a) {n : Int} {e : Option Err} (he : match e with | none => n = 0 | some e => n ≠ 0 ∧ Codes C e n) :
    ShowsC C (setv c v n) (setv a v e) := by
  intro u
  by_cases k : u = v
  · subst k; rw [setv_same, setv_same]; exact he
  · rw [setv_other _ _ k, setv_other _ _ k]; exact h u

theorem ShowsC.test (h : ShowsC C c a) : cTest v c = (a v).isSome := by
  have := h v
  unfold cTest
  cases h1 : a v with
  | none => rw [h1] at this; rw [show c v = 0 from this]; rfl
  | some e => rw [h1] at this; simpa using this.1

end

/-! ### Theorems -/

/-- C107: a program whose error objects are of the class `exception_ptr_error` does the same as with the error objects of this model: all
tests of error objects agree, and at the end every error object is set if and only if it is set in the model, and points to an exception
of the class that was reported - or, if there was no memory for the exception, to the substitute that the standard library provides. -/
theorem errors_ptr {α : Type} (L : Lib) (p : Prog α) {s : PSt} {a : ASt} (h : ShowsP L s a) :
    (p.runP L s).1 = (p.runA a).1 ∧ ShowsP L (p.runP L s).2 (p.runA a).2 := by
  induction p generalizing s a with
  | ret x => exact ⟨rfl, h⟩
  | fresh v k ih => exact ih h.fresh
  | copy v t k ih => exact ih h.copy
  | length v k ih => exact ih (h.build (tells_made (e := .lengthError) _ (.inl rfl) fun k => .inr ⟨rfl, _, k⟩))
  | alloc v k ih => exact ih (h.build (tells_made (e := .badAlloc) _ (.inl rfl) fun k => .inr ⟨rfl, _, k⟩))
  | test v k ih =>
    show ((k (pTest v s)).runP L s).1 = ((k (a v).isSome).runA a).1 ∧ _
    rw [← h.test]
    obtain ⟨h1, h2⟩ := ih (pTest v s) h
    refine ⟨h1, ?_⟩
    show ShowsP L ((k (pTest v s)).runP L s).2 ((k (a v).isSome).runA a).2
    rw [← h.test]
    exact h2

namespace Demo

/-- No memory for the second exception. -/
def lib : Lib := ⟨fun n => n == 1, .badAlloc⟩

/-- Values as on Linux. -/
def errno : Errno := ⟨22, 12, 34, by decide, by decide⟩

/-- A copy of an error object is made, the original is replaced by another one and then by a new one; the results of tests. -/
def prog : Prog (Bool × Bool × Bool) := .fresh 0 (.alloc 0 (.copy 1 0 (.test 1 fun x => .length 0 (.test 0 fun y => .fresh 0 (.test 0 fun z => .ret (x, y, z))))))

end Demo

example : ShowsP Demo.lib .init fun _ => none := fun _ => rfl
example : (Demo.prog.runP Demo.lib .init).1 = (true, true, false) ∧ (Demo.prog.runA fun _ => none).2 1 = some .badAlloc := by decide

/-- C107: the same for the class `errc_based_error`: the values are those of `nestl::errc`. -/
theorem errors_code {α : Type} (C : Errno) (p : Prog α) {s : CSt} {a : ASt} (h : ShowsC C s a) :
    (p.runC C s).1 = (p.runA a).1 ∧ ShowsC C (p.runC C s).2 (p.runA a).2 := by
  have hp := C.pos
  induction p generalizing s a with
  | ret x => exact ⟨rfl, h⟩
  | fresh v k ih => exact ih (h.set rfl)
  | copy v t k ih => exact ih (h.set (h t))
  | length v k ih => exact ih (h.set (e := some .lengthError) ⟨by omega, rfl⟩)
  | alloc v k ih => exact ih (h.set (e := some .badAlloc) ⟨by omega, rfl⟩)
  | test v k ih =>
    show ((k (cTest v s)).runC C s).1 = ((k (a v).isSome).runA a).1 ∧ _
    rw [← h.test]
    obtain ⟨h1, h2⟩ := ih (cTest v s) h
    refine ⟨h1, ?_⟩
    show ShowsC C ((k (cTest v s)).runC C s).2 ((k (a v).isSome).runA a).2
    rw [← h.test]
    exact h2

example : ShowsC Demo.errno (fun _ => 0) fun _ => none := fun _ => rfl
example : (Demo.prog.runC Demo.errno fun _ => 0).1 = (true, true, false) := by decide

/-- C107: in particular a program does the same with and without exceptions. -/
theorem errors_agree {α : Type} (L : Lib) (C : Errno) (p : Prog α) : (p.runP L .init).1 = (p.runC C fun _ => 0).1 :=
  (errors_ptr L p (s := .init) (a := fun _ => none) fun _ => rfl).1.trans
    (errors_code C p (s := fun _ => 0) (a := fun _ => none) fun _ => rfl).1.symm

example : (Demo.prog.runP Demo.lib .init).1 = (true, true, false) := by decide

/-- C107: error codes tell the errors apart. -/
theorem errors_code_value {α : Type} (C : Errno) (p : Prog α) (v : Var) :
    let c := cValue v (p.runC C fun _ => 0).2
    let e := (p.runA fun _ => none).2 v
    (c = 0 ↔ e = none) ∧ (c = C.ENOMEM ↔ e = some .badAlloc) ∧ (c = C.ERANGE ↔ e = some .lengthError) := by
  have h := (errors_code C p (s := fun _ => 0) (a := fun _ => none) fun _ => rfl).2 v
  have h' : (p.runA fun _ => none).2 v ≠ some .ctorFailed := by
    have : ∀ (a : ASt), (∀ v, a v ≠ some .ctorFailed) → ∀ v, (p.runA a).2 v ≠ some .ctorFailed := by
      clear h
      induction p with
      | ret x => exact fun a h => h
      | fresh u k ih =>
        refine fun a h => ih _ fun x => ?_
        unfold setv; split <;> simp_all
      | copy u t k ih =>
        refine fun a h => ih _ fun x => ?_
        unfold setv; split <;> simp_all
      | length u k ih =>
        refine fun a h => ih _ fun x => ?_
        unfold setv; split <;> simp_all
      | alloc u k ih =>
        refine fun a h => ih _ fun x => ?_
        unfold setv; split <;> simp_all
      | test u k ih => exact fun a h => ih _ a h
    exact this _ (fun _ k => by cases k) v
  obtain ⟨p1, p2, p3⟩ := C.pos
  obtain ⟨d1, d2, d3⟩ := C.diff
  have hc : cValue v (p.runC C fun _ => 0).2 = (p.runC C fun _ => 0).2 v := rfl
  simp only [hc]
  generalize (p.runC C fun _ => 0).2 v = c at *
  generalize (p.runA fun _ => none).2 v = e at *
  match e, h, h' with
  | none, h, _ => simp only at h; subst h; simp; omega
  | some .badAlloc, h, _ => simp only [Codes] at h; obtain ⟨h0, rfl⟩ := h; simp; omega
  | some .lengthError, h, _ => simp only [Codes] at h; obtain ⟨h0, rfl⟩ := h; simp; omega
  | some .ctorFailed, _, h' => exact absurd rfl h'

example : cValue 1 (Demo.prog.runC Demo.errno fun _ => 0).2 = 12 := by decide

/-- C107: after any operations on error objects of the class `exception_ptr_error`, an error object is set if and only if it stands for an
exception; `throw_exception` throws exactly this exception, and changes no error object; for an error object that is not set it is
undefined behaviour. -/
theorem errors_throw (L : Lib) (ops : List Op) (v : Var) :
    let s := runOps L ops .init
    pTest v s = (expected L ops.reverse v).isSome ∧
      match expected L ops.reverse v with
      | some x => Runs (throwException v) s x s
      | none => Faults (throwException v) s .nullDeref := by
  have key : ∀ h : List Op, let s := runOps L h.reverse .init
      s.made = h.countP Op.makes ∧ ∀ v, (s.vars v).isSome = (expected L h v).isSome ∧
        ∀ x, expected L h v = some x → ∃ i, s.vars v = some i ∧ s.objs[i]? = some x := by
    intro h
    induction h with
    | nil => exact ⟨rfl, fun v => ⟨rfl, fun x k => by cases k⟩⟩
    | cons o h ih =>
      have e : runOps L (o :: h).reverse .init = o.run L (runOps L h.reverse .init) := by
        unfold runOps; rw [List.reverse_cons, List.foldl_append]; rfl
      simp only [e]
      generalize runOps L h.reverse .init = s at *
      obtain ⟨i1, i2⟩ := ih
      have build : ∀ (n : Nat) (u : Var) (y : Exc), let s' : PSt := ⟨s.objs ++ [y], n, setv s.vars u (some s.objs.length)⟩
          ∀ v, (s'.vars v).isSome = (if v = u then some y else expected L h v).isSome ∧
            ∀ x, (if v = u then some y else expected L h v) = some x → ∃ i, s'.vars v = some i ∧ s'.objs[i]? = some x := by
        intro n u y s' v
        show (setv s.vars u (some s.objs.length) v).isSome = _ ∧ ∀ x, _ → ∃ i, setv s.vars u (some s.objs.length) v = some i ∧ (s.objs ++ [y])[i]? = some x
        by_cases k : v = u
        · subst k
          rw [setv_same, if_pos rfl]
          exact ⟨rfl, fun x hx => ⟨_, rfl, by simpa using hx⟩⟩
        · rw [setv_other _ _ k, if_neg k]
          refine ⟨(i2 v).1, fun x hx => ?_⟩
          obtain ⟨i, b1, b2⟩ := (i2 v).2 x hx
          exact ⟨i, b1, get_append _ b2⟩
      cases o with
      | fresh u =>
        refine ⟨i1, fun v => ?_⟩
        show (setv s.vars u none v).isSome = (if v = u then none else expected L h v).isSome ∧
          ∀ x, (if v = u then none else expected L h v) = some x → ∃ i, setv s.vars u none v = some i ∧ s.objs[i]? = some x
        by_cases k : v = u
        · subst k
          rw [setv_same, if_pos rfl]
          exact ⟨rfl, fun x hx => by cases hx⟩
        · rw [setv_other _ _ k, if_neg k]; exact i2 v
      | copy u t =>
        refine ⟨i1, fun v => ?_⟩
        show (setv s.vars u (s.vars t) v).isSome = (if v = u then expected L h t else expected L h v).isSome ∧
          ∀ x, (if v = u then expected L h t else expected L h v) = some x → ∃ i, setv s.vars u (s.vars t) v = some i ∧ s.objs[i]? = some x
        by_cases k : v = u
        · subst k
          rw [setv_same, if_pos rfl]; exact i2 t
        · rw [setv_other _ _ k, if_neg k]; exact i2 v
      | length u =>
        refine ⟨by rw [List.countP_cons_of_pos rfl, ← i1]; rfl, fun v => ?_⟩
        unfold expected
        rw [← i1]
        exact build (s.made + 1) u (L.made s.made .lengthError) v
      | alloc u =>
        refine ⟨by rw [List.countP_cons_of_pos rfl, ← i1]; rfl, fun v => ?_⟩
        unfold expected
        rw [← i1]
        exact build (s.made + 1) u (L.made s.made .badAlloc) v
      | from_ u x =>
        refine ⟨by rw [List.countP_cons_of_pos rfl, ← i1]; rfl, fun v => ?_⟩
        unfold expected
        rw [← i1]
        exact build (s.made + 1) u (L.made s.made x) v
      | caught u x =>
        refine ⟨by rw [List.countP_cons_of_neg (by intro k; cases k), ← i1]; rfl, fun v => ?_⟩
        exact build s.made u x v
  have := (key ops.reverse).2 v
  rw [List.reverse_reverse] at this
  obtain ⟨h1, h2⟩ := this
  intro s
  refine ⟨?_, ?_⟩
  · rw [← h1]
    unfold pTest
    cases (runOps L ops .init).vars v <;> rfl
  · split
    · rename_i x hx
      obtain ⟨i, b1, b2⟩ := h2 x hx
      unfold Runs throwException
      rw [show s.vars v = some i from b1]
      show (match s.objs[i]? with | some x => some (Except.ok (x, s)) | none => _) = _
      rw [show s.objs[i]? = some x from b2]
    · rename_i hx
      rw [hx] at h1
      unfold Faults throwException
      rw [show s.vars v = none from Option.not_isSome_iff_eq_none.1 (by rw [h1]; simp)]

/-- A constructor throws, the error object is copied and then used again; a length error for which there is no memory. -/
example : expected Demo.lib [.length 3, .length 2, .fresh 0, .copy 1 0, .caught 0 (.user 5)] 1 = some (.user 5) ∧
    expected Demo.lib [.length 3, .length 2, .fresh 0, .copy 1 0, .caught 0 (.user 5)] 0 = none ∧
    expected Demo.lib [.length 3, .length 2, .fresh 0, .copy 1 0, .caught 0 (.user 5)] 2 = some .lengthError ∧
    expected Demo.lib [.length 3, .length 2, .fresh 0, .copy 1 0, .caught 0 (.user 5)] 3 = some .badAlloc := by decide

/-- C107: an error object stays set whatever errors are reported to it; only a new error object, or the copy of one that is not set,
resets it. -/
theorem errors_sticky (L : Lib) (ops : List Op) (o : Op) (v : Var) (h : pTest v (runOps L ops .init) = true)
    (h' : pTest v (o.run L (runOps L ops .init)) = false) :
    o = .fresh v ∨ ∃ t, o = .copy v t ∧ pTest t (runOps L ops .init) = false := by
  generalize runOps L ops .init = s at *
  have hs : ∀ (u : Var) (x : Nat), pTest v ⟨s.objs, s.made, setv s.vars u (some x)⟩ = true := by
    intro u x
    unfold pTest
    show (setv s.vars u (some x) v != none) = true
    unfold setv
    split
    · rfl
    · exact h
  cases o with
  | fresh u =>
    by_cases k : v = u
    · subst k; exact .inl rfl
    · have : pTest v (Op.run L (.fresh u) s) = pTest v s := by
        show (setv s.vars u none v != none) = _
        rw [setv_other _ _ k]; rfl
      rw [this, h] at h'; cases h'
  | copy u t =>
    by_cases k : v = u
    · subst k
      refine .inr ⟨t, rfl, ?_⟩
      have : pTest v (Op.run L (.copy v t) s) = pTest t s := by
        show (setv s.vars v (s.vars t) v != none) = _
        rw [setv_same]; rfl
      rw [← this]; exact h'
    · have : pTest v (Op.run L (.copy u t) s) = pTest v s := by
        show (setv s.vars u (s.vars t) v != none) = _
        rw [setv_other _ _ k]; rfl
      rw [this, h] at h'; cases h'
  | length u => exact absurd (h'.symm.trans (hs u _)) (by decide)
  | alloc u => exact absurd (h'.symm.trans (hs u _)) (by decide)
  | from_ u x => exact absurd (h'.symm.trans (hs u _)) (by decide)
  | caught u x => exact absurd (h'.symm.trans (hs u _)) (by decide)

example : pTest 0 (runOps Demo.lib [.caught 0 (.user 5)] .init) = true ∧
    pTest 0 (Op.run Demo.lib (.copy 0 1) (runOps Demo.lib [.caught 0 (.user 5)] .init)) = false := by decide

end Nestl.Errors
