import Verif.TreeOf.ModelDepth
import Verif.TreeOf.Step
import Verif.TreeOf.Build
set_option autoImplicit false
set_option maxHeartbeats 1000000
/-
With a bounded call stack, trees of objects do what trees of values do.
-/
namespace Nestl.TO
open Nestl.VO (Elem ElemOps)
open Nestl.NO
open Nestl.RB (TNode)
open Lean.Order
variable {S A X α β : Type} {E : Elem S A X} {P : ST S → Prop} {Q : α → ST S → Prop} {u : (Ptr → Option A) × X}

theorem QSim.overflow {m : M (ST S) α} : QSim E P m (fault .stackOverflow : M (RB.W A) α) Q := by
  intro s w _ _ r w' h
  cases h

section
variable (hP : Loose E P)
include hP

theorem q_mEraseD (hdr : Ptr) (d : Nat) (x : Ptr) : QSim E P (mEraseD E.toElemOps hdr d x) (RB.mEraseD hdr d x : M (RB.W A) Unit) fun _ => P := by
  induction d generalizing x with
  | zero => exact QSim.overflow
  | succ d ih =>
    unfold mEraseD RB.mEraseD
    revert x
    refine RB.mEraseW.fixpoint_induct (K := A) (RB.mEraseD hdr d) hdr
      (motive := fun n => ∀ x, QSim E P (mEraseW E.toElemOps (mEraseD E.toElemOps hdr d) hdr x) (n x) fun _ => P) ?_ ?_
    · exact QSim.admissible1 _ _ _
    · intro g hg x
      rw [mEraseW]
      exact .ite (fun _ => .rd fun _ _ => .bind (ih _) fun _ => .rd fun _ _ => .bind (q_destroyNode hP _ _) fun _ => hg _) fun _ =>
        .pure _ fun _ h => h

theorem q_clearD (d : Nat) (hdr : Ptr) : QSim E P (clearD E.toElemOps d hdr) (RB.clearD d hdr : M (RB.W A) Unit) fun _ => P :=
  .rd fun _ _ => .bind (q_mEraseD hP _ _ _) fun _ => (n_resetLinks hdr).quiet' hP.grows.stable

theorem q_eraseRangeD (d : Nat) (hdr f l : Ptr) :
    QSim E P (eraseRangeD E.toElemOps d hdr f l) (RB.eraseRangeD d hdr f l : M (RB.W A) Ptr) fun _ => P :=
  .bind ((n_begin hdr).quiet' hP.grows.stable) fun _ => .ite (fun _ => .bind (q_clearD hP _ _) fun _ => .pure _ fun _ h => h) fun _ =>
    .bind (q_eraseRangeLoop hP _ _ _) fun _ => .pure _ fun _ h => h

theorem q_destroyTreeD (d k : Nat) :
    QSim E P (destroyTreeD E.toElemOps d (.stk k)) (RB.destroyTreeD d (.stk k) : M (RB.W A) Unit) fun _ => P :=
  .rd fun _ _ => .bind (q_mEraseD hP _ _ _) fun _ => (NSim.dropObj k).quiet' hP.grows.stable

theorem q_moveAssignD (d : Nat) (b : Bool) (t s : Ptr) :
    QSim E P (moveAssignD E.toElemOps d b t s) (RB.moveAssignD d b t s : M (RB.W A) Bool) fun _ => P := by
  have hS := hP.grows.stable
  refine .rd fun _ _ => .rd fun _ _ => .ite (fun _ => .bind (q_clearD hP _ _) fun _ => .rd fun _ _ => ?_) fun _ => .pure _ fun _ h => h
  exact .ite (fun _ => .bind ((n_moveData _ _).quiet' hS) fun _ => .bind ((n_allocOnMove _ _ _).quiet' hS) fun _ => .pure _ fun _ h => h)
    fun _ => .bind ((n_allocOnMove _ _ _).quiet' hS) fun _ => .pure _ fun _ h => h

end

theorem q_eraseKeyD {less : Ptr → Ptr → M S Bool} {lt : A → A → Bool} {k : Ptr} {v : A} (hc : Compares E less lt) (hP : Loose E P) (d : Nat)
    (hdr : Ptr) : QSim E (fun s => P s ∧ Knows E k v s) (eraseKeyD less E.toElemOps d hdr k) (RB.eraseKeyD lt d hdr v) fun _ => P := by
  refine .bind (q_equalRange hc (hP.grows.and Knows.grows).calm (fun _ h => h.2) hdr) ?_
  rintro ⟨f, l⟩
  have hS := hP.grows.stable
  exact QSim.weaken (P := P) (.bind ((n_size hdr).quiet' hS) fun _ => .bind (q_eraseRangeD hP _ _ _ _) fun _ =>
    .bind ((n_size hdr).quiet' hS) fun _ => .pure _ fun _ h => h) (fun _ h => h.1) fun _ _ h => h

theorem q_eraseKeysD {less : Ptr → Ptr → M S Bool} {lt : A → A → Bool} (hc : Compares E less lt) (d : Nat) (hdr : Ptr) (ks : List Ptr)
    (vs : List A) (h : ks.map u.1 = vs.map some) :
    QSim E (Keep E u) (eraseKeysD less E.toElemOps d hdr ks) (RB.eraseKeysD lt d hdr vs) fun _ => Keep E u := by
  induction ks generalizing vs with
  | nil =>
    cases vs with
    | nil => exact .pure _ fun _ h => h
    | cons => cases h
  | cons k ks ih =>
    cases vs with
    | nil => cases h
    | cons v vs =>
      simp only [List.map_cons, List.cons.injEq] at h
      exact .bind ((q_eraseKeyD hc Keep.loose d hdr).weaken (fun _ hk => ⟨hk, Keep.knows h.1 hk⟩) fun _ _ h => h) fun _ => ih vs h.2

/-! ### Copying -/

section
variable (hP : Loose E P)
include hP

/-- Giving up a copy. -/
theorem s_giveUpD (hdr : Ptr) (d : Nat) (top : Ptr) : NO.Sim E P (do mEraseD E.toElemOps hdr d top; pure Ptr.null)
    (do RB.mEraseD hdr d top; pure Ptr.null : M (RB.W A) Ptr) fun _ => P :=
  .bind (q_mEraseD hP hdr d top).sim fun _ => .pure _ fun _ h => h

theorem s_mCopyD (hdr : Ptr) (d : Nat) (x p : Ptr) : NO.Sim E (fun s => P s ∧ NoErr s) (mCopyD E.toElemOps hdr d x p)
    (RB.mCopyD hdr d x p : M (RB.W A) Ptr) fun _ => P := by
  have hS := hP.grows.stable
  have hN : Stable fun s => P s ∧ NoErr s := hS.and NoErr.stable
  induction d generalizing x p with
  | zero =>
    intro s w _ _ hA
    obtain ⟨r, w', h⟩ := hA (allTrue w) fun k hk => by simp [allTrue, hk]
    cases h
  | succ d ih =>
    have hf : ∀ x p, LSim E (fun s => P s ∧ NoErr s) (mCopyD E.toElemOps hdr d x p) (RB.mCopyD hdr d x p : M (RB.W A) Ptr)
        (RB.mCopyD hdr d x p) fun _ => P := fun x p => .of_sim (ih x p)
    have hg : ∀ t p x, LSim E (fun s => P s ∧ NoErr s)
        (mCopyLoopW E.toElemOps (mCopyD E.toElemOps hdr d) (mEraseD E.toElemOps hdr d) hdr t p x)
        (RB.mCopyLoopW (RB.mCopyD hdr d) (RB.mEraseD hdr d) hdr t p x : M (RB.W A) Ptr)
        (RB.mCopyLoopW (RB.mCopyD hdr d) (RB.mEraseD hdr d) hdr t p x) fun _ => P := by
      intro t
      have key := RB.mCopyLoopW.fixpoint_induct (K := A) (RB.mCopyD hdr d) (RB.mEraseD hdr d) hdr t
        (motive := fun n => ∀ p x, LSim E (fun s => P s ∧ NoErr s)
          (mCopyLoopW E.toElemOps (mCopyD E.toElemOps hdr d) (mEraseD E.toElemOps hdr d) hdr t p x) (n p x)
          (RB.mCopyLoopW (RB.mCopyD hdr d) (RB.mEraseD hdr d) hdr t p x) fun _ => P)
        (admissible_pi_apply _ fun _ => admissible_pi_apply _ fun _ => LSim.admissible _ _ _ _) ?_
      · exact key
      · intro g hg p x
        rw [mCopyLoopW, RB.mCopyLoopW]
        refine .ite (fun _ => .bind (((s_cloneNode hP hdr x).weaken (fun _ h => h.1) fun _ _ h => h)) (fun _ => ?_) fun y => ?_) fun _ =>
          .of_sim (.pure _ fun _ h => h.1)
        · exact s_onError (s_giveUpD hP _ _ _)
        · refine l_noError (.bind' ((n_setLeft p y).sim hN) (fun _ _ h => h.2) fun _ =>
            .bind' ((n_setParent y p).sim hN) (fun _ _ h => h.2) fun _ => .rd fun _ _ => .ite (fun _ => ?_) fun _ => ?_)
          · refine .rd fun _ _ => .call (hf _ _) (.refl _) (fun r => ?_) fun r => ?_
            · exact .bind ((n_setRight y r).sim (hS.and fun s o _ h2 h0 h => h0 (h2.symm.trans h))) fun _ => s_onError (s_giveUpD hP _ _ _)
            · exact .bind' ((n_setRight y r).sim hN) (fun _ _ h => h.2) fun _ => l_noError (.rd fun _ _ => hg _ _)
          · exact .rd fun _ _ => hg _ _
    refine LSim.sim ?_
    unfold mCopyD RB.mCopyD
    refine .bind (((s_cloneNode hP hdr x).weaken (fun _ h => h.1) fun _ _ h => h)) (fun _ => ?_) fun top => ?_
    · exact s_onError (.pure _ fun _ h => h)
    · refine l_noError (.bind' ((n_setParent top p).sim hN) (fun _ _ h => h.2) fun _ => ?_)
      unfold copyRightW RB.copyRightW
      refine .rd fun _ _ => .ite (fun _ => ?_) fun _ => ?_
      · refine .rd fun _ _ => .call (hf _ _) (.refl _) (fun r => ?_) fun r => ?_
        · exact .bind ((n_setRight top r).sim (hS.and fun s o _ h2 h0 h => h0 (h2.symm.trans h))) fun _ => s_onError (s_giveUpD hP _ _ _)
        · exact .bind' ((n_setRight top r).sim hN) (fun _ _ h => h.2) fun _ => l_noError (.rd fun _ _ => hg _ _ _)
      · exact .rd fun _ _ => hg _ _ _

theorem s_copyNothrowD (d : Nat) (b : Bool) (hdr src : Ptr) :
    NO.Sim E P (copyNothrowD E.toElemOps d b hdr src) (RB.copyNothrowD d b hdr src : M (RB.W A) Unit) fun _ => P := by
  have hS := hP.grows.stable
  refine .ite (fun _ => .bind (q_clearD hP d hdr).sim fun _ => .bind ((n_allocOnCopy b hdr src).sim hS) fun _ => .bind .failed fun _ =>
    .ite (fun _ => .pure _ fun _ h => h.1) fun _ => ?_) fun _ => .pure _ fun _ h => h
  refine .weaken (P := P) (.bind (Sim.tryCtor hP.grows) fun _ => .bind .failed fun b => .ite (fun _ => .pure _ fun _ h => h.1) fun hb => ?_)
    (fun _ h => h.1) fun _ _ h => h
  refine .weaken (P := fun s => P s ∧ NoErr s) (.rd fun _ _ => .ite (fun _ => .rd fun _ _ => .bind (s_mCopyD hP _ _ _ _) fun _ =>
    .bind .failed fun _ => .ite (fun _ => .pure _ fun _ h => h.1) fun _ => ?_) fun _ => .pure _ fun _ h => h.1)
    (fun _ h => ⟨h.1, isSome_false (by rw [h.2]; exact hb)⟩) fun _ _ h => h
  exact ((n_adopt hdr src _).sim hS).weaken (fun _ h => h.1) fun _ _ h => h

end

/-! ### A bounded stack changes nothing else -/

/-- What `m` does without a fault, `n` does. -/
def Within (m n : M (ST S) α) : Prop := ∀ s r s', Runs m s r s' → Runs n s r s'

theorem Within.refl (m : M (ST S) α) : Within m m := fun _ _ _ h => h

theorem Within.bind {m n : M (ST S) α} {f g : α → M (ST S) β} (h : Within m n) (hf : ∀ a, Within (f a) (g a)) :
    Within (m >>= f) (n >>= g) := by
  intro s r s' hr
  obtain ⟨a, s1, h1, h2⟩ := VO.runs_bind_iff.1 hr
  exact VO.runs_bind_iff.2 ⟨a, s1, h _ _ _ h1, hf _ _ _ _ h2⟩

theorem Within.ite {c : Prop} {i : Decidable c} {m m' n n' : M (ST S) α} (h : Within m m') (h' : Within n n') :
    Within (@_root_.ite _ c i m n) (@_root_.ite _ c i m' n') := by
  split
  · exact h
  · exact h'

theorem Within.admissible (n : M (ST S) α) : Lean.Order.admissible (fun m : M (ST S) α => Within m n) := by
  have h1 : ∀ s : ST S, Lean.Order.admissible (fun r : Option (Except Fault (α × ST S)) => ∀ a s', r = some (.ok (a, s')) → Runs n s a s') :=
    fun s => admissible_flatOrder _ (by intro a s' h; cases h)
  exact admissible_pi_apply _ h1

theorem within_mEraseD (F : ElemOps S) (hdr : Ptr) (d : Nat) (x : Ptr) : Within (mEraseD F hdr d x) (mErase F hdr x) := by
  induction d generalizing x with
  | zero => intro s r s' h; cases h
  | succ d ih =>
    unfold mEraseD
    revert x
    refine mEraseW.fixpoint_induct F (mEraseD F hdr d) hdr (motive := fun n => ∀ x, Within (n x) (mErase F hdr x))
      (admissible_pi_apply _ fun _ => Within.admissible _) ?_
    intro g hg x
    rw [mErase]
    exact .ite (.bind (.refl _) fun _ => .bind (ih _) fun _ => .bind (.refl _) fun _ => .bind (.refl _) fun _ => hg _) (.refl _)

theorem within_mCopyD (F : ElemOps S) (hdr : Ptr) (d : Nat) (x p : Ptr) : Within (mCopyD F hdr d x p) (mCopy F hdr x p) := by
  induction d generalizing x p with
  | zero => intro s r s' h; cases h
  | succ d ih =>
    have he : ∀ t, Within (mEraseD F hdr d t) (mErase F hdr t) := within_mEraseD F hdr d
    have hl : ∀ t p x, Within (mCopyLoopW F (mCopyD F hdr d) (mEraseD F hdr d) hdr t p x) (mCopyLoop F hdr t p x) := by
      intro t
      refine mCopyLoopW.fixpoint_induct F (mCopyD F hdr d) (mEraseD F hdr d) hdr t
        (motive := fun n => ∀ p x, Within (n p x) (mCopyLoop F hdr t p x))
        (admissible_pi_apply _ fun _ => admissible_pi_apply _ fun _ => Within.admissible _) ?_
      intro g hg p x
      rw [mCopyLoop]
      refine .ite (.bind (.refl _) fun y => .bind (.refl _) fun b => .ite (.bind (he _) fun _ => .refl _) ?_) (.refl _)
      refine .bind (.refl _) fun _ => .bind (.refl _) fun _ => .bind (.refl _) fun _ => .ite ?_ ?_
      · exact .bind (.refl _) fun _ => .bind (ih _ _) fun _ => .bind (.refl _) fun _ => .bind (.refl _) fun _ =>
          .ite (.bind (he _) fun _ => .refl _) (.bind (.refl _) fun _ => hg _ _)
      · exact .bind (.refl _) fun _ => hg _ _
    rw [mCopyD, mCopy]
    refine .bind (.refl _) fun top => .bind (.refl _) fun _ => .ite (.refl _) (.bind (.refl _) fun _ => ?_)
    unfold copyRightW
    refine .bind (.refl _) fun _ => .ite ?_ ?_
    · exact .bind (.refl _) fun _ => .bind (ih _ _) fun _ => .bind (.refl _) fun _ => .bind (.refl _) fun _ =>
        .ite (.bind (he _) fun _ => .refl _) (.bind (.refl _) fun _ => hl _ _ _)
    · exact .bind (.refl _) fun _ => hl _ _ _

theorem within_clearD (F : ElemOps S) (d : Nat) (hdr : Ptr) : Within (clearD F d hdr) (clear F hdr) :=
  .bind (.refl _) fun _ => .bind (within_mEraseD _ _ _ _) fun _ => .refl _

theorem within_eraseRangeD (F : ElemOps S) (d : Nat) (hdr f l : Ptr) : Within (eraseRangeD F d hdr f l) (eraseRange F hdr f l) :=
  .bind (.refl _) fun _ => .ite (.bind (within_clearD _ _ _) fun _ => .refl _) (.refl _)

theorem within_eraseKeyD (less : Ptr → Ptr → M S Bool) (F : ElemOps S) (d : Nat) (hdr k : Ptr) :
    Within (eraseKeyD less F d hdr k) (eraseKey less F hdr k) :=
  .bind (.refl _) fun _ => .bind (.refl _) fun _ => .bind (within_eraseRangeD _ _ _ _ _) fun _ => .refl _

theorem within_eraseKeysD (less : Ptr → Ptr → M S Bool) (F : ElemOps S) (d : Nat) (hdr : Ptr) (ks : List Ptr) :
    Within (eraseKeysD less F d hdr ks) (eraseKeys less F hdr ks) := by
  induction ks with
  | nil => exact .refl _
  | cons k ks ih => exact .bind (within_eraseKeyD _ _ _ _ _) fun _ => ih

theorem within_execD (F : ElemOps S) (d : Nat) (c : Call S A) : Within (execD F d c) (exec F c) := by
  cases c with
  | eraseKey ord v t => exact .bind (within_eraseKeyD _ _ _ _ _) fun _ => .refl _
  | eraseKeys ord v ts => exact .bind (within_eraseKeysD _ _ _ _ _) fun _ => .refl _
  | eraseRange v f l => exact .bind (within_eraseRangeD _ _ _ _ _) fun _ => .refl _
  | clear v => exact .bind (within_clearD _ _ _) fun _ => .refl _
  | copy prop t v =>
    refine .bind ?_ fun _ => .refl _
    refine .ite (.bind (within_clearD _ _ _) fun _ => .bind (.refl _) fun _ => .bind (.refl _) fun _ => .ite (.refl _) ?_) (.refl _)
    refine .bind (.refl _) fun _ => .bind (.refl _) fun _ => .ite (.refl _) (.bind (.refl _) fun _ => .ite ?_ (.refl _))
    exact .bind (.refl _) fun _ => .bind (within_mCopyD _ _ _ _ _) fun _ => .refl _
  | assign prop t v =>
    refine .bind ?_ fun _ => .refl _
    exact .bind (.refl _) fun _ => .bind (.refl _) fun _ => .ite (.bind (within_clearD _ _ _) fun _ => .refl _) (.refl _)
  | destroy v =>
    refine .bind ?_ fun _ => .refl _
    exact .bind (.refl _) fun _ => .bind (within_mEraseD _ _ _ _) fun _ => .refl _
  | _ => exact .refl _

end Nestl.TO
