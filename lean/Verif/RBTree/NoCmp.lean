import Verif.RBTree.ModelExtra
set_option autoImplicit false
/-
Programs that call no comparator: their runs do not depend on the number of comparator calls made before.
-/
namespace Nestl
open Lean.Order

section
variable {N α β : Type}

/-- Forget the number of comparator calls made so far and start from `n`. -/
def World.setCmp (w : World N) (n : Nat) : World N := { w with nCmp := n }

@[simp] theorem World.setCmp_heap (w : World N) (n) : (w.setCmp n).heap = w.heap := rfl
@[simp] theorem World.setCmp_err (w : World N) (n) : (w.setCmp n).err = w.err := rfl
@[simp] theorem World.setCmp_addCmp (w : World N) (n m) : (w.addCmp m).setCmp n = w.setCmp n := rfl
@[simp] theorem World.setCmp_setCmp (w : World N) (n m) : (w.setCmp m).setCmp n = w.setCmp n := rfl
@[simp] theorem World.setCmp_self (w : World N) : w.setCmp w.nCmp = w := rfl
theorem World.addCmp_eq_setCmp (w : World N) (n) : w.addCmp n = w.setCmp (w.nCmp + n) := rfl

/-- Every run of `m` is also a run of `m'`, whatever the number of comparator calls made before, and makes no
comparator call. -/
def SimC (m m' : M (World N) α) : Prop :=
  ∀ w a w', Runs m w a w' → w'.nCmp = w.nCmp ∧ ∀ n, Runs m' (w.setCmp n) a (w'.setCmp n)

/-- `m` calls no comparator. -/
abbrev NoCmp (m : M (World N) α) : Prop := SimC m m

theorem SimC.pure (a : α) : SimC (pure a : M (World N) α) (pure a) := by
  intro w a w' h; cases h; exact ⟨rfl, fun _ => rfl⟩

theorem SimC.fault (f : Fault) (m : M (World N) α) : SimC (fault f) m := by
  intro w a w' h; cases h

theorem SimC.bind {m m' : M (World N) α} {k k' : α → M (World N) β} (h : SimC m m') (hk : ∀ a, SimC (k a) (k' a)) :
    SimC (m >>= k) (m' >>= k') := by
  intro w b w2 hr
  have hw : wp (m >>= k) w fun b' w' => b' = b ∧ w' = w2 := wp_iff_runs.2 ⟨b, w2, hr, rfl, rfl⟩
  rw [wp_bind] at hw
  obtain ⟨a, w1, h1, h2⟩ := hw.runs
  obtain ⟨b', w', h3, rfl, rfl⟩ := h2.runs
  obtain ⟨a1, a2⟩ := h _ _ _ h1
  obtain ⟨b1, b2⟩ := hk a _ _ _ h3
  refine ⟨b1.trans a1, fun n => ?_⟩
  have : wp (m' >>= k') (w.setCmp n) fun x s => x = b' ∧ s = w'.setCmp n := by
    rw [wp_bind]
    exact wp_iff_runs.2 ⟨a, _, a2 n, wp_iff_runs.2 ⟨b', _, b2 n, rfl, rfl⟩⟩
  obtain ⟨x, s, h4, rfl, rfl⟩ := this.runs
  exact h4

theorem SimC.ite {c : Prop} {inst : Decidable c} {m n m' n' : M (World N) α} (hm : SimC m m') (hn : SimC n n') :
    SimC (@_root_.ite _ c inst m n) (@_root_.ite _ c inst m' n') := by split <;> assumption

theorem SimC.rd (p : Ptr) : SimC (rd p : M (World N) N) (rd p) := by
  intro w a w' h
  unfold Runs Nestl.rd at h ⊢
  split at h
  · cases h
  · rename_i h0
    split at h
    · rename_i c hc
      cases h
      refine ⟨rfl, fun n => ?_⟩
      simp [h0, hc]
    · cases h

theorem SimC.modCell (p : Ptr) (f : N → N) : SimC (modCell p f) (modCell p f) := by
  intro w a w' h
  unfold Runs Nestl.modCell at h ⊢
  split at h
  · cases h
  · rename_i h0
    split at h
    · rename_i c hc
      cases h
      refine ⟨rfl, fun n => ?_⟩
      simp [h0, hc]; rfl
    · cases h

theorem SimC.hasErr : SimC (hasErr : M (World N) Bool) hasErr := by
  intro w a w' h; cases h; exact ⟨rfl, fun _ => rfl⟩

theorem SimC.assertM (b : Bool) : SimC (assertM b : M (World N) Unit) (assertM b) := by
  cases b
  · exact SimC.fault _ _
  · exact SimC.pure _

theorem SimC.tryCtor : SimC (tryCtor : M (World N) Bool) tryCtor := by
  intro w a w' h
  unfold Runs Nestl.tryCtor at h ⊢
  by_cases hc : w.env.ctor w.nCtor = true
  · simp only [hc, if_true] at h
    cases h
    exact ⟨rfl, fun n => by simp [World.setCmp, hc]⟩
  · simp only [hc] at h
    cases h
    exact ⟨rfl, fun n => by simp [World.setCmp, hc]⟩

theorem SimC.allocCell (f : N → N) : SimC (allocCell f) (allocCell f) := by
  intro w a w' h
  unfold Runs Nestl.allocCell at h ⊢
  cases hc : w.env.addr w.nAlloc with
  | none =>
    simp only [hc] at h
    cases h
    exact ⟨rfl, fun n => by simp [World.setCmp, hc]⟩
  | some a =>
    cases hd : w.heap (.dyn a) with
    | none =>
      simp only [hc, hd] at h
      cases h
      exact ⟨rfl, fun n => by simp [World.setCmp, hc, hd, World.setHeap]⟩
    | some c =>
      simp only [hc, hd] at h
      cases h
      exact ⟨rfl, fun n => by simp [World.setCmp, hc, hd]⟩

theorem SimC.freeCell (p : Ptr) (ok : N → Except Fault Unit) : SimC (freeCell p ok) (freeCell p ok) := by
  intro w a w' h
  unfold Runs Nestl.freeCell at h ⊢
  cases p with
  | null => cases h; exact ⟨rfl, fun _ => rfl⟩
  | stk i => cases h
  | dyn i =>
    simp only at h ⊢
    cases hd : w.heap (.dyn i) with
    | none => simp only [hd] at h; cases h
    | some c =>
      simp only [hd] at h
      cases ho : ok c with
      | error f => simp only [ho] at h; cases h
      | ok u =>
        simp only [ho] at h
        cases h
        refine ⟨rfl, fun n => ?_⟩
        simp only [World.setCmp_heap, hd, ho]; rfl

theorem SimC.admissible (m' : M (World N) α) : admissible (fun m : M (World N) α => SimC m m') := by
  have h1 : ∀ w : World N, Lean.Order.admissible (fun r : Option (Except Fault (α × World N)) =>
      ∀ a w', r = some (.ok (a, w')) → w'.nCmp = w.nCmp ∧ ∀ n, Runs m' (w.setCmp n) a (w'.setCmp n)) :=
    fun w => admissible_flatOrder _ (by intro a w' h; cases h)
  exact admissible_pi_apply _ h1

end

/-- Follows the structure of a program. -/
macro "nocmp" : tactic => `(tactic|
  repeat' first
    | with_reducible assumption
    | with_reducible exact Nestl.SimC.pure _
    | with_reducible exact Nestl.SimC.fault _ _
    | with_reducible exact Nestl.SimC.rd _
    | with_reducible exact Nestl.SimC.modCell _ _
    | with_reducible exact Nestl.SimC.assertM _
    | with_reducible exact Nestl.SimC.hasErr
    | with_reducible exact Nestl.SimC.tryCtor
    | with_reducible exact Nestl.SimC.allocCell _
    | with_reducible exact Nestl.SimC.freeCell _ _
    | with_reducible apply Nestl.SimC.bind
    | with_reducible apply Nestl.SimC.ite
    | with_reducible (split <;> skip)
    | intro _)

namespace RB
variable {K : Type}

theorem NoCmp.rotateLeft (hdr x : Ptr) : NoCmp (rotateLeft hdr x : M (W K) Unit) := by
  unfold NoCmp RB.rotateLeft relinkL reparent setLeft setRight setParent; nocmp
theorem NoCmp.rotateRight (hdr x : Ptr) : NoCmp (rotateRight hdr x : M (W K) Unit) := by
  unfold NoCmp RB.rotateRight relinkR reparent setLeft setRight setParent; nocmp
theorem NoCmp.isRed (x : Ptr) : NoCmp (isRed x : M (W K) Bool) := by
  unfold NoCmp RB.isRed; nocmp
theorem NoCmp.createNode (hdr : Ptr) (v : K) : NoCmp (createNode hdr v) := by
  unfold NoCmp RB.createNode constructVal putNode; nocmp
theorem NoCmp.destroyNode (hdr p : Ptr) : NoCmp (destroyNode hdr p : M (W K) Unit) := by
  unfold NoCmp RB.destroyNode destroyVal putNode; nocmp
theorem NoCmp.insLink (b : Bool) (x p hdr : Ptr) : NoCmp (insLink b x p hdr : M (W K) Unit) := by
  unfold NoCmp RB.insLink setLeft setRight setParent setColor; nocmp

theorem NoCmp.insFix (hdr x : Ptr) : NoCmp (insFix hdr x : M (W K) Unit) := by
  have := RB.insFix.fixpoint_induct (K := K) hdr
    (fun m => ∀ x, SimC (m x) (RB.insFix hdr x))
    (admissible_pi_apply _ fun _ => SimC.admissible _)
  refine this ?_ x
  intro f ih x
  rw [RB.insFix]
  unfold setColor
  repeat' first
    | with_reducible exact ih _
    | with_reducible exact NoCmp.rotateLeft _ _
    | with_reducible exact NoCmp.rotateRight _ _
    | with_reducible exact NoCmp.isRed _
    | with_reducible exact Nestl.SimC.pure _
    | with_reducible exact Nestl.SimC.rd _
    | with_reducible exact Nestl.SimC.modCell _ _
    | with_reducible apply Nestl.SimC.bind
    | with_reducible apply Nestl.SimC.ite
    | intro _

theorem NoCmp.insertAndRebalance (b : Bool) (x p hdr : Ptr) : NoCmp (insertAndRebalance b x p hdr : M (W K) Unit) :=
  .bind (NoCmp.insLink _ _ _ _) fun _ => .bind (NoCmp.insFix _ _) fun _ => .bind (.rd _) fun _ => .modCell _ _

end RB
end Nestl
