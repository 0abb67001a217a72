import Verif.TreeOf.Links
import Verif.NodeOf.More
set_option autoImplicit false
/-
The functions of trees of objects do what the functions of trees of values do: destruction and lookup.
-/
namespace Nestl.TO
open Nestl.VO (Elem ElemOps)
open Nestl.NO
open Nestl.RB (TNode)
open Lean.Order
variable {S A X α : Type} {E : Elem S A X} {P : ST S → Prop} {Q : α → ST S → Prop} {u : (Ptr → Option A) × X}

theorem keyOf_eq {V : Type} (p : Ptr) : (RB.keyOf p : M (RB.W V) V) = theVal p := rfl

/-! ### Destruction -/

section
variable (hP : Loose E P)
include hP

theorem q_destroyNode (hdr p : Ptr) : QSim E P (destroyNode E.toElemOps hdr p) (RB.destroyNode hdr p : M (RB.W A) Unit) fun _ => P :=
  .bind (QSim.destroyElem hP p) fun _ => (n_putNode hdr p).quiet' hP.grows.stable

theorem q_eraseAux (hdr z : Ptr) : QSim E P (eraseAux E.toElemOps hdr z) (RB.eraseAux hdr z : M (RB.W A) Unit) fun _ => P :=
  .bind ((n_rebalanceForErase z hdr).quiet' hP.grows.stable) fun _ => .bind (q_destroyNode hP _ _) fun _ =>
    (n_setCount _ _).quiet' hP.grows.stable

theorem q_eraseIter (hdr z : Ptr) : QSim E P (eraseIter E.toElemOps hdr z) (RB.eraseIter hdr z : M (RB.W A) Ptr) fun _ => P :=
  .bind ((n_increment z).quiet' hP.grows.stable) fun _ => .bind (q_eraseAux hP _ _) fun _ => .pure _ fun _ h => h

theorem q_mErase (hdr x : Ptr) : QSim E P (mErase E.toElemOps hdr x) (RB.mErase hdr x : M (RB.W A) Unit) fun _ => P := by
  revert x
  refine RB.mErase.fixpoint_induct (K := A) hdr (motive := fun n => ∀ x, QSim E P (mErase E.toElemOps hdr x) (n x) fun _ => P) ?_ ?_
  · exact QSim.admissible1 _ _ _
  · intro g ih x
    rw [mErase]
    exact .ite (fun _ => .rd fun _ _ => .bind (ih _) fun _ => .rd fun _ _ => .bind (q_destroyNode hP _ _) fun _ => ih _) fun _ =>
      .pure _ fun _ h => h

theorem q_clear (hdr : Ptr) : QSim E P (clear E.toElemOps hdr) (RB.clear hdr : M (RB.W A) Unit) fun _ => P :=
  .rd fun _ _ => .bind (q_mErase hP _ _) fun _ => (n_resetLinks hdr).quiet' hP.grows.stable

theorem q_eraseRangeLoop (hdr f l : Ptr) : QSim E P (eraseRangeLoop E.toElemOps hdr f l) (RB.eraseRangeLoop hdr f l : M (RB.W A) Unit)
    fun _ => P := by
  revert f
  refine RB.eraseRangeLoop.fixpoint_induct (K := A) hdr l
    (motive := fun n => ∀ f, QSim E P (eraseRangeLoop E.toElemOps hdr f l) (n f) fun _ => P) ?_ ?_
  · exact QSim.admissible1 _ _ _
  · intro g ih f
    rw [eraseRangeLoop]
    exact .ite (fun _ => .bind ((n_increment f).quiet' hP.grows.stable) fun _ => .bind (q_eraseIter hP _ _) fun _ => ih _) fun _ =>
      .pure _ fun _ h => h

theorem q_eraseRange (hdr f l : Ptr) : QSim E P (eraseRange E.toElemOps hdr f l) (RB.eraseRange hdr f l : M (RB.W A) Ptr) fun _ => P :=
  .bind ((n_begin hdr).quiet' hP.grows.stable) fun _ => .ite (fun _ => .bind (q_clear hP _) fun _ => .pure _ fun _ h => h) fun _ =>
    .bind (q_eraseRangeLoop hP _ _ _) fun _ => .pure _ fun _ h => h

theorem q_destroyTree (k : Nat) : QSim E P (destroyTree E.toElemOps (.stk k)) (RB.destroyTree (.stk k) : M (RB.W A) Unit) fun _ => P :=
  .rd fun _ _ => .bind (q_mErase hP _ _) fun _ => (NSim.dropObj k).quiet' hP.grows.stable

theorem q_moveAssign (b : Bool) (d s : Ptr) : QSim E P (moveAssign E.toElemOps b d s) (RB.moveAssign b d s : M (RB.W A) Bool)
    fun _ => P := by
  have hS := hP.grows.stable
  refine .rd fun _ _ => .rd fun _ _ => .ite (fun _ => .bind (q_clear hP _) fun _ => .rd fun _ _ => ?_) fun _ => .pure _ fun _ h => h
  exact .ite (fun _ => .bind ((n_moveData _ _).quiet' hS) fun _ => .bind ((n_allocOnMove _ _ _).quiet' hS) fun _ => .pure _ fun _ h => h)
    fun _ => .bind ((n_allocOnMove _ _ _).quiet' hS) fun _ => .pure _ fun _ h => h

end

/-! ### Lookup -/

section
variable {less : Ptr → Ptr → M S Bool} {lt : A → A → Bool} {k : Ptr} {v : A}

section
variable (hc : Compares E less lt) (hP : Calm E P)
include hc hP

/-- Comparing a known object with the element of a node. -/
theorem q_cmpL (hk : ∀ s, P s → Knows E k v s) {x : Ptr} {f : Bool → M (ST S) α} {g : Bool → M (RB.W A) α} (h : ∀ b, QSim E P (f b) (g b) Q) :
    QSim E P (keyOf x >>= fun q => compare less k q >>= f) (RB.keyOf x >>= fun y => cmp lt v y >>= g) Q := by
  rw [keyOf_eq]
  exact QSim.elem fun q y => .bind ((QSim.compare hc hP).weaken (fun s h => ⟨h.1, hk s h.1, h.2.2⟩) fun _ _ h => h) h

/-- Comparing the element of a node with a known object. -/
theorem q_cmpR (hk : ∀ s, P s → Knows E k v s) {x : Ptr} {f : Bool → M (ST S) α} {g : Bool → M (RB.W A) α} (h : ∀ b, QSim E P (f b) (g b) Q) :
    QSim E P (keyOf x >>= fun q => compare less q k >>= f) (RB.keyOf x >>= fun y => cmp lt y v >>= g) Q := by
  rw [keyOf_eq]
  exact QSim.elem fun q y => .bind ((QSim.compare hc hP).weaken (fun s h => ⟨h.1, h.2.2, hk s h.1⟩) fun _ _ h => h) h

theorem q_cmpL0 (hk : ∀ s, P s → Knows E k v s) {x : Ptr} :
    QSim E P (keyOf x >>= fun q => compare less k q) (RB.keyOf x >>= fun y => cmp lt v y) fun _ => P := by
  rw [keyOf_eq]
  exact QSim.elem fun q y => (QSim.compare hc hP).weaken (fun s h => ⟨h.1, hk s h.1, h.2.2⟩) fun _ _ h => h

/-- Comparing the elements of two nodes. -/
theorem q_cmpE {x y : Ptr} {f : Bool → M (ST S) α} {g : Bool → M (RB.W A) α} (h : ∀ b, QSim E P (f b) (g b) Q) :
    QSim E P (keyOf x >>= fun q => keyOf y >>= fun q' => compare less q q' >>= f)
      (RB.keyOf x >>= fun a => RB.keyOf y >>= fun b => cmp lt a b >>= g) Q := by
  rw [keyOf_eq, keyOf_eq]
  exact QSim.elem fun q y => QSim.elem fun q' y' => .bind ((QSim.compare hc hP).weaken (fun s h => ⟨h.1.1, h.1.2.2, h.2.2⟩) fun _ _ h => h) h

theorem q_cmpE0 {x y : Ptr} :
    QSim E P (keyOf x >>= fun q => keyOf y >>= fun q' => compare less q q')
      (RB.keyOf x >>= fun a => RB.keyOf y >>= fun b => cmp lt a b) fun _ => P := by
  rw [keyOf_eq, keyOf_eq]
  exact QSim.elem fun q y => QSim.elem fun q' y' => (QSim.compare hc hP).weaken (fun s h => ⟨h.1.1, h.1.2.2, h.2.2⟩) fun _ _ h => h

end

variable (hc : Compares E less lt) (hP : Calm E P) (hk : ∀ s, P s → Knows E k v s)
include hc hP hk

theorem q_insDescend (x y : Ptr) (b : Bool) : QSim E P (insDescend less k x y b) (RB.insDescend lt v x y b) fun _ => P := by
  revert x y b
  refine RB.insDescend.fixpoint_induct (K := A) lt v
    (motive := fun n => ∀ x y b, QSim E P (insDescend less k x y b) (n x y b) fun _ => P) ?_ ?_
  · exact admissible_pi_apply _ fun x => admissible_pi_apply _ fun y => QSim.admissible1 _ _ _
  · intro g ih x y b
    rw [insDescend]
    exact .ite (fun _ => q_cmpL hc hP hk fun _ => .rd fun _ _ => ih _ _ _) fun _ => .pure _ fun _ h => h

theorem q_getInsertUniquePos (hdr : Ptr) : QSim E P (getInsertUniquePos less hdr k) (RB.getInsertUniquePos lt hdr v) fun _ => P := by
  refine .rd fun _ _ => .bind (q_insDescend hc hP hk _ _ _) ?_
  rintro ⟨y, b⟩
  refine .ite (fun _ => .rd fun _ _ => .ite (fun _ => .pure _ fun _ h => h) fun _ => .bind ((n_decrement y).quiet' hP.stable) fun _ => ?_) fun _ => ?_
  all_goals exact q_cmpR hc hP hk fun _ => .ite (fun _ => .pure _ fun _ h => h) fun _ => .pure _ fun _ h => h

theorem q_lowerBound (x y : Ptr) : QSim E P (lowerBound less k x y) (RB.lowerBound lt v x y) fun _ => P := by
  revert x y
  refine RB.lowerBound.fixpoint_induct (K := A) lt v
    (motive := fun n => ∀ x y, QSim E P (lowerBound less k x y) (n x y) fun _ => P) ?_ ?_
  · exact admissible_pi_apply _ fun x => QSim.admissible1 _ _ _
  · intro g ih x y
    rw [lowerBound]
    exact .ite (fun _ => q_cmpR hc hP hk fun _ => .ite (fun _ => .rd fun _ _ => ih _ _) fun _ => .rd fun _ _ => ih _ _) fun _ =>
      .pure _ fun _ h => h

theorem q_upperBound (x y : Ptr) : QSim E P (upperBound less k x y) (RB.upperBound lt v x y) fun _ => P := by
  revert x y
  refine RB.upperBound.fixpoint_induct (K := A) lt v
    (motive := fun n => ∀ x y, QSim E P (upperBound less k x y) (n x y) fun _ => P) ?_ ?_
  · exact admissible_pi_apply _ fun x => QSim.admissible1 _ _ _
  · intro g ih x y
    rw [upperBound]
    exact .ite (fun _ => q_cmpL hc hP hk fun _ => .ite (fun _ => .rd fun _ _ => ih _ _) fun _ => .rd fun _ _ => ih _ _) fun _ =>
      .pure _ fun _ h => h

theorem q_equalRangeLoop (x y : Ptr) : QSim E P (equalRangeLoop less k x y) (RB.equalRangeLoop lt v x y) fun _ => P := by
  revert x y
  refine RB.equalRangeLoop.fixpoint_induct (K := A) lt v
    (motive := fun n => ∀ x y, QSim E P (equalRangeLoop less k x y) (n x y) fun _ => P) ?_ ?_
  · exact admissible_pi_apply _ fun x => QSim.admissible1 _ _ _
  · intro g ih x y
    rw [equalRangeLoop]
    exact .ite (fun _ => q_cmpR hc hP hk fun _ => .ite (fun _ => .rd fun _ _ => ih _ _) fun _ => q_cmpL hc hP hk fun _ =>
      .ite (fun _ => .rd fun _ _ => ih _ _) fun _ => .rd fun _ _ => .bind (q_lowerBound hc hP hk _ _) fun _ => .rd fun _ _ =>
        .bind (q_upperBound hc hP hk _ _) fun _ => .pure _ fun _ h => h) fun _ => .pure _ fun _ h => h

theorem q_equalRange (hdr : Ptr) : QSim E P (equalRange less hdr k) (RB.equalRange lt hdr v) fun _ => P :=
  .rd fun _ _ => q_equalRangeLoop hc hP hk _ _

theorem q_find (hdr : Ptr) : QSim E P (find less hdr k) (RB.find lt hdr v) fun _ => P :=
  .rd fun _ _ => .bind (q_lowerBound hc hP hk _ _) fun _ => .ite (fun _ => .pure _ fun _ h => h) fun _ =>
    q_cmpL hc hP hk fun _ => .ite (fun _ => .pure _ fun _ h => h) fun _ => .pure _ fun _ h => h

theorem q_lowerBoundKey (hdr : Ptr) : QSim E P (lowerBoundKey less hdr k) (RB.lowerBoundKey lt hdr v) fun _ => P :=
  .rd fun _ _ => q_lowerBound hc hP hk _ _

theorem q_upperBoundKey (hdr : Ptr) : QSim E P (upperBoundKey less hdr k) (RB.upperBoundKey lt hdr v) fun _ => P :=
  .rd fun _ _ => q_upperBound hc hP hk _ _

theorem q_count (hdr : Ptr) : QSim E P (count less hdr k) (RB.count lt hdr v) fun _ => P := by
  refine .bind (q_equalRange hc hP hk hdr) ?_
  rintro ⟨f, l⟩
  exact (n_distance f l).quiet' hP.stable

theorem q_lowerDescend (x y : Ptr) : QSim E P (lowerDescend less k x y) (RB.lowerDescend lt v x y) fun _ => P := by
  revert x y
  refine RB.lowerDescend.fixpoint_induct (K := A) lt v
    (motive := fun n => ∀ x y, QSim E P (lowerDescend less k x y) (n x y) fun _ => P) ?_ ?_
  · exact admissible_pi_apply _ fun x => QSim.admissible1 _ _ _
  · intro g ih x y
    rw [lowerDescend]
    exact .ite (fun _ => q_cmpR hc hP hk fun _ => .rd fun _ _ => ih _ _) fun _ => .pure _ fun _ h => h

theorem q_getInsertHintUniquePos (hdr pos : Ptr) :
    QSim E P (getInsertHintUniquePos less hdr pos k) (RB.getInsertHintUniquePos lt hdr pos v) fun _ => P := by
  have hp : ∀ r : Ptr × Ptr, QSim E P (pure r) (pure r) fun _ => P := fun r => .pure r fun _ h => h
  have hu := q_getInsertUniquePos hc hP hk hdr
  refine .ite (fun _ => .bind ((n_size hdr).quiet' hP.stable) fun _ => .ite (fun _ => .rd fun _ _ => q_cmpR hc hP hk fun _ =>
    .ite (fun _ => .rd fun _ _ => hp _) fun _ => hu) fun _ => hu) fun _ => q_cmpL hc hP hk fun _ => .ite (fun _ => ?_) fun _ =>
      q_cmpR hc hP hk fun _ => .ite (fun _ => ?_) fun _ => hp _
  · exact .rd fun _ _ => .ite (fun _ => .rd fun _ _ => .rd fun _ _ => hp _) fun _ => .bind ((n_decrement pos).quiet' hP.stable) fun _ =>
      q_cmpR hc hP hk fun _ => .ite (fun _ => .rd fun _ _ => .ite (fun _ => hp _) fun _ => hp _) fun _ => hu
  · exact .rd fun _ _ => .ite (fun _ => .rd fun _ _ => hp _) fun _ => .bind ((n_increment pos).quiet' hP.stable) fun _ =>
      q_cmpL hc hP hk fun _ => .ite (fun _ => .rd fun _ _ => .ite (fun _ => hp _) fun _ => hp _) fun _ => hu

theorem q_getInsertEqualPos (hdr : Ptr) : QSim E P (getInsertEqualPos less hdr k) (RB.getInsertEqualPos lt hdr v) fun _ => P := by
  refine .rd fun _ _ => .bind (q_insDescend hc hP hk _ _ _) ?_
  rintro ⟨y, b⟩
  exact .pure _ fun _ h => h

theorem q_getInsertHintEqualPos (hdr pos : Ptr) :
    QSim E P (getInsertHintEqualPos less hdr pos k) (RB.getInsertHintEqualPos lt hdr pos v) fun _ => P := by
  have hp : ∀ r : Ptr × Ptr, QSim E P (pure r) (pure r) fun _ => P := fun r => .pure r fun _ h => h
  have hu := q_getInsertEqualPos hc hP hk hdr
  refine .ite (fun _ => .bind ((n_size hdr).quiet' hP.stable) fun _ => .ite (fun _ => .rd fun _ _ => q_cmpL hc hP hk fun _ =>
    .ite (fun _ => .rd fun _ _ => hp _) fun _ => hu) fun _ => hu) fun _ => q_cmpR hc hP hk fun _ => .ite (fun _ => ?_) fun _ => ?_
  · exact .rd fun _ _ => .ite (fun _ => .rd fun _ _ => .rd fun _ _ => hp _) fun _ => .bind ((n_decrement pos).quiet' hP.stable) fun _ =>
      q_cmpL hc hP hk fun _ => .ite (fun _ => .rd fun _ _ => .ite (fun _ => hp _) fun _ => hp _) fun _ => hu
  · exact .rd fun _ _ => .ite (fun _ => .rd fun _ _ => hp _) fun _ => .bind ((n_increment pos).quiet' hP.stable) fun _ =>
      q_cmpR hc hP hk fun _ => .ite (fun _ => .rd fun _ _ => .ite (fun _ => hp _) fun _ => hp _) fun _ => hp _

end

/-! ### Erasing keys -/

theorem q_eraseKey {less : Ptr → Ptr → M S Bool} {lt : A → A → Bool} {k : Ptr} {v : A} (hc : Compares E less lt) (hP : Loose E P) (hdr : Ptr) :
    QSim E (fun s => P s ∧ Knows E k v s) (eraseKey less E.toElemOps hdr k) (RB.eraseKey lt hdr v) fun _ => P := by
  refine .bind (q_equalRange hc (hP.grows.and Knows.grows).calm (fun _ h => h.2) hdr) ?_
  rintro ⟨f, l⟩
  have hS := hP.grows.stable
  exact QSim.weaken (P := P) (.bind ((n_size hdr).quiet' hS) fun _ => .bind (q_eraseRange hP _ _ _) fun _ => .bind ((n_size hdr).quiet' hS) fun _ =>
    .pure _ fun _ h => h) (fun _ h => h.1) fun _ _ h => h

/-- Objects outside of containers have the values that they have in `u`. -/
theorem Keep.knows {t : Ptr} {x : A} (ht : u.1 t = some x) {s : ST S} (h : Keep E u s) : Knows E t x s := by
  rw [← show outside E s = u from h] at ht
  unfold outside at ht
  simp only at ht
  split at ht
  · cases ht
  · exact ht

theorem q_eraseKeys {less : Ptr → Ptr → M S Bool} {lt : A → A → Bool} (hc : Compares E less lt) (hdr : Ptr) (ks : List Ptr) (vs : List A)
    (h : ks.map u.1 = vs.map some) :
    QSim E (Keep E u) (eraseKeys less E.toElemOps hdr ks) (RB.eraseKeys lt hdr vs) fun _ => Keep E u := by
  induction ks generalizing vs with
  | nil =>
    cases vs with
    | nil => exact .pure _ fun _ h => h
    | cons => cases h
  | cons k ks ih =>
    cases vs with
    | nil => cases h
    | cons v vs =>
      simp only [List.map_cons, List.cons.injEq] at h
      exact .bind ((q_eraseKey hc Keep.loose hdr).weaken (fun _ hk => ⟨hk, Keep.knows h.1 hk⟩) fun _ _ h => h) fun _ => ih vs h.2

/-! ### Comparison of trees -/

section
variable {eqv : Ptr → Ptr → M S Bool} {eq : A → A → Bool} (hc : Compares E eqv eq) (hP : Calm E P)
include hc hP

theorem q_equalFrom (f1 l1 f2 : Ptr) : QSim E P (equalFrom eqv f1 l1 f2) (RB.equalFrom eq f1 l1 f2) fun _ => P := by
  revert f1 f2
  refine RB.equalFrom.fixpoint_induct (K := A) eq l1
    (motive := fun n => ∀ f1 f2, QSim E P (equalFrom eqv f1 l1 f2) (n f1 f2) fun _ => P) ?_ ?_
  · exact admissible_pi_apply _ fun x => QSim.admissible1 _ _ _
  · intro g ih f1 f2
    rw [equalFrom]
    refine .ite (fun _ => .pure _ fun _ h => h) fun _ => QSim.elem fun q y => QSim.elem fun q' y' => ?_
    refine (QSim.ask (x := y) (y := y') hc hP ?_).weaken (fun s h => ⟨h.1.1, h.1.2.2, h.2.2⟩) fun _ _ h => h
    exact .ite (fun _ => .pure _ fun _ h => h) fun _ => .bind ((n_increment f1).quiet' hP.stable) fun _ =>
      .bind ((n_increment f2).quiet' hP.stable) fun _ => ih _ _

theorem q_treeEq (x y : Ptr) : QSim E P (treeEq eqv x y) (RB.treeEq eq x y) fun _ => P :=
  .bind ((n_size x).quiet' hP.stable) fun _ => .bind ((n_size y).quiet' hP.stable) fun _ => .ite (fun _ =>
    .bind ((n_begin x).quiet' hP.stable) fun _ => .bind ((n_end x).quiet' hP.stable) fun _ => .bind ((n_begin y).quiet' hP.stable) fun _ =>
      q_equalFrom hc hP _ _ _) fun _ => .pure _ fun _ h => h

theorem q_lexFrom (f1 l1 f2 l2 : Ptr) : QSim E P (lexFrom eqv f1 l1 f2 l2) (RB.lexFrom eq f1 l1 f2 l2) fun _ => P := by
  revert f1 f2
  refine RB.lexFrom.fixpoint_induct (K := A) eq l1 l2
    (motive := fun n => ∀ f1 f2, QSim E P (lexFrom eqv f1 l1 f2 l2) (n f1 f2) fun _ => P) ?_ ?_
  · exact admissible_pi_apply _ fun x => QSim.admissible1 _ _ _
  · intro g ih f1 f2
    rw [lexFrom]
    refine .ite (fun _ => QSim.elem fun q y => QSim.elem fun q' y' => ?_) fun _ => .pure _ fun _ h => h
    refine (QSim.ask (x := y) (y := y') hc hP ?_).weaken (fun s h => ⟨h.1.1, h.1.2.2, h.2.2⟩) fun _ _ h => h
    refine .ite (fun _ => .pure _ fun _ h => h) fun _ => QSim.elem fun q y => QSim.elem fun q' y' => ?_
    refine (QSim.ask (x := y) (y := y') hc hP ?_).weaken (fun s h => ⟨h.1.1, h.1.2.2, h.2.2⟩) fun _ _ h => h
    exact .ite (fun _ => .pure _ fun _ h => h) fun _ => .bind ((n_increment f1).quiet' hP.stable) fun _ =>
      .bind ((n_increment f2).quiet' hP.stable) fun _ => ih _ _

theorem q_treeLess (x y : Ptr) : QSim E P (treeLess eqv x y) (RB.treeLess eq x y) fun _ => P :=
  .bind ((n_begin x).quiet' hP.stable) fun _ => .bind ((n_end x).quiet' hP.stable) fun _ => .bind ((n_begin y).quiet' hP.stable) fun _ =>
    .bind ((n_end y).quiet' hP.stable) fun _ => q_lexFrom hc hP _ _ _ _

end

end Nestl.TO
