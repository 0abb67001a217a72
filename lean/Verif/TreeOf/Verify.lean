import Verif.TreeOf.Props
set_option autoImplicit false
/-
C124: the self check of trees of objects of any class.
-/
namespace Nestl.TO
open Nestl.VO (Elem ElemOps)
open Nestl.NO
open Nestl.Set (Alive)
open Lean.Order
variable {S A X : Type} {E : Elem S A X}

/-! ### Model -/

section
variable (less : Ptr → Ptr → M S Bool)

/-- `C && compare(_S_key(x), _S_key(y))` for a child pointer `c`: rbt.hpp:2244, 2248. -/
def misordered (c x y : Ptr) : M (ST S) Bool := do
  if c ≠ .null then compare less (← keyOf x) (← keyOf y) else pure false

/-- One step of the loop of `__rb_verify`: rbt.hpp:2232-2256. -/
def verifyNode (hdr x : Ptr) (len : Nat) : M (ST S) Bool := do
  let n ← node x
  let leftRed ← onO (RB.redChild n.left)
  let rightRed ← onO (RB.redChild n.right)
  if n.color = .red ∧ (leftRed = true ∨ rightRed = true) then pure false else do
  let badLeft ← misordered less n.left x n.left
  if badLeft then pure false else do
  let badRight ← misordered less n.right n.right x
  if badRight then pure false else do
  if n.left = .null ∧ n.right = .null then
    let c ← onO (RB.blackCount x (← node hdr).parent)
    pure (decide (c = len))
  else pure true

/-- The loop of `__rb_verify`: rbt.hpp:2230-2257. -/
def verifyFrom (hdr it : Ptr) (len : Nat) : M (ST S) Bool := do
  if it = hdr then pure true else
    if (← verifyNode less hdr it len) then
      let nx ← onO (RB.increment it)
      verifyFrom hdr nx len
    else pure false
partial_fixpoint

/-- `__rb_verify`: rbt.hpp:2218-2269. -/
def rbVerify (hdr : Ptr) : M (ST S) Bool := do
  let h ← node hdr
  if h.count = 0 ∨ h.left = hdr then
    pure (decide (h.count = 0 ∧ h.left = hdr ∧ h.right = hdr))
  else
    let len ← onO (RB.blackCount h.left h.parent)
    if (← verifyFrom less hdr h.left len) then
      if h.left ≠ (← onO (RB.sMinimum h.parent)) then pure false else
      if h.right ≠ (← onO (RB.sMaximum h.parent)) then pure false else pure true
    else pure false

end

/-! ### Proofs -/

theorem n_redChild (x : Ptr) : Both (RB.redChild x) A fun _ => True :=
  .ite (fun _ => .rd fun _ _ => .pure trivial) fun _ => .pure trivial

theorem n_blackCount (x r : Ptr) : Both (RB.blackCount x r) A fun _ => True := by
  revert x
  refine RB.blackCount.fixpoint_induct (K := A) r (motive := fun n => ∀ x, NSim (RB.blackCount x r : M (RB.W Ptr) Nat) (n x) fun _ => True) ?_ ?_
  · exact NSim.admissible1 _ _
  · intro g ih x
    rw [RB.blackCount]
    exact NSim.rd fun _ _ => .ite (fun _ => .pure trivial) fun _ => .bind (ih _) fun _ _ => .pure trivial

section
variable {P : ST S → Prop} {less : Ptr → Ptr → M S Bool} {lt : A → A → Bool} (hc : Compares E less lt) (hP : Calm E P)
include hc hP

theorem q_misordered (c x y : Ptr) : QSim E P (misordered less c x y) (RB.misordered lt c x y) fun _ => P :=
  .ite (fun _ => q_cmpE0 hc hP) fun _ => .pure _ fun _ h => h

theorem q_verifyNode (hdr x : Ptr) (len : Nat) : QSim E P (verifyNode less hdr x len) (RB.verifyNode lt hdr x len) fun _ => P := by
  have hS := hP.stable
  refine .rd fun _ _ => .bind ((n_redChild _).quiet' hS) fun _ => .bind ((n_redChild _).quiet' hS) fun _ => .ite (fun _ => .pure _ fun _ h => h) fun _ => ?_
  refine .bind (q_misordered hc hP _ _ _) fun _ => .ite (fun _ => .pure _ fun _ h => h) fun _ => ?_
  refine .bind (q_misordered hc hP _ _ _) fun _ => .ite (fun _ => .pure _ fun _ h => h) fun _ => ?_
  exact .ite (fun _ => .rd fun _ _ => .bind ((n_blackCount _ _).quiet' hS) fun _ => .pure _ fun _ h => h) fun _ => .pure _ fun _ h => h

theorem q_verifyFrom (hdr it : Ptr) (len : Nat) : QSim E P (verifyFrom less hdr it len) (RB.verifyFrom lt hdr it len) fun _ => P := by
  revert it
  refine RB.verifyFrom.fixpoint_induct (K := A) lt hdr len
    (motive := fun n => ∀ it, QSim E P (verifyFrom less hdr it len) (n it) fun _ => P) ?_ ?_
  · exact QSim.admissible1 _ _ _
  · intro g ih it
    rw [verifyFrom]
    exact .ite (fun _ => .pure _ fun _ h => h) fun _ => .bind (q_verifyNode hc hP _ _ _) fun _ =>
      .ite (fun _ => .bind ((n_increment it).quiet' hP.stable) fun _ => ih _) fun _ => .pure _ fun _ h => h

theorem q_rbVerify (hdr : Ptr) : QSim E P (rbVerify less hdr) (RB.rbVerify lt hdr) fun _ => P := by
  have hS := hP.stable
  refine .rd fun _ _ => .ite (fun _ => .pure _ fun _ h => h) fun _ => .bind ((n_blackCount _ _).quiet' hS) fun _ =>
    .bind (q_verifyFrom hc hP _ _ _) fun _ => .ite (fun _ => ?_) fun _ => .pure _ fun _ h => h
  refine .bind ((n_sMinimum _).quiet' hS) fun _ => .ite (fun _ => .pure _ fun _ h => h) fun _ => ?_
  exact .bind ((n_sMaximum _).quiet' hS) fun _ => .ite (fun _ => .pure _ fun _ h => h) fun _ => .pure _ fun _ h => h

end

variable {s : ST S} {t : Ptr} {less : Ptr → Ptr → M S Bool} {lt : A → A → Bool} {L : List (Ptr × A)}

/-- C124: the self check accepts every tree of objects that any history of calls can produce, whatever failed on the way, if its elements
are in the order of the comparator it is given (as `treeOf_ordered` says they are when all calls use one strict weak order); it changes
nothing. -/
theorem treeOf_self_check_accepts (hr : Reach E s) (hc : Compares E less lt) (ha : Alive s.o t) (hL : Values E s t L)
    (hsort : L.Pairwise fun a b => lt b.2 a.2 = false) : ∃ s', Runs (rbVerify less t) s true s' ∧ Unchanged E s s' := by
  obtain ⟨a, u, ht, rfl⟩ := hr.inv.valueTree ha hL
  obtain ⟨b, s', h1, rfl, h3⟩ := hr.inv.query (Q := fun b => b = true) (q_rbVerify hc Frozen.calm t) (RB.wp_rbVerify ht.linked fun b m _ hb =>
    ⟨hb.2 (fun p _ => ht.rb.choose_spec.sound hsort p), m, rfl⟩)
  exact ⟨s', h1, h3⟩

/-- C124: with a comparator that orders every two elements the other way round it rejects every tree of at least two elements, and
changes nothing. -/
theorem treeOf_self_check_rejects (hr : Reach E s) (hc : Compares E less lt) (ha : Alive s.o t) (hL : Values E s t L)
    (h2 : 2 ≤ L.length) (hrev : L.Pairwise (fun a b => lt b.2 a.2 = true)) : ∃ s', Runs (rbVerify less t) s false s' ∧ Unchanged E s s' := by
  obtain ⟨a, u, ht, rfl⟩ := hr.inv.valueTree ha hL
  obtain ⟨b, s', h1, rfl, h3⟩ := hr.inv.query (Q := fun b => b = false) (q_rbVerify hc Frozen.calm t) (RB.wp_rbVerify ht.linked fun b m _ hb => by
    refine ⟨?_, m, rfl⟩
    cases b with
    | false => rfl
    | true => exact absurd (hb.1 rfl) (RB.reversed_not_local hrev h2))
  exact ⟨s', h1, h3⟩

/-- The tree with the values 7 and 8: accepted with its own comparator. -/
example : ∃ s', Runs (rbVerify Demo.ord.less Demo.v) Demo.s5 true s' ∧ Unchanged Elem.box Demo.s5 s' :=
  treeOf_self_check_accepts Demo.r5 Demo.ord_ok (Demo.alive (by decide +kernel)) Demo.vals5 (by simp [Demo.ord])

/-- The same tree, rejected with the reverse comparator. -/
example : ∃ s', Runs (rbVerify (fun a b => Demo.ord.less b a) Demo.v) Demo.s5 false s' ∧ Unchanged Elem.box Demo.s5 s' :=
  treeOf_self_check_rejects (lt := fun a b => Demo.ord.lt b a) Demo.r5 (fun s a b x y h1 h2 h3 => Demo.ord_ok s b a y x h1 h3 h2)
    (Demo.alive (by decide +kernel)) Demo.vals5 (by simp) (by simp [Demo.ord])

end Nestl.TO
