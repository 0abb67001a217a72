import Verif.ListOf.Links
set_option autoImplicit false
/-
The functions of lists of objects do what the functions of lists of values do.
-/
namespace Nestl.LO
open Nestl.VO (Elem ElemOps)
open Nestl.NO
open Nestl.LL (LNode)
open Lean.Order
variable {S A X α : Type} {E : Elem S A X} {P : ST S → Prop} {Q : α → ST S → Prop} {u : (Ptr → Option A) × X}

/-! ### Destruction -/

theorem q_destroyVal (hP : Loose E P) (p : Ptr) : QSim E P (destroyVal E.toElemOps p) (LL.destroyVal p : M (LL.W A) Unit) fun _ => P :=
  QSim.destroyElem hP p

theorem q_destroyLoop (hP : Loose E P) (s cur : Ptr) : QSim E P (destroyLoop E.toElemOps s cur) (LL.destroyLoop s cur : M (LL.W A) Unit)
    fun _ => P := by
  have hS := hP.grows.stable
  revert cur
  refine LL.destroyLoop.fixpoint_induct (V := A) s (motive := fun n => ∀ cur, QSim E P (destroyLoop E.toElemOps s cur) (n cur) fun _ => P) ?_ ?_
  · exact QSim.admissible1 _ _ _
  · intro g ih cur
    rw [destroyLoop]
    exact .ite (fun _ => .bind ((n_getNext cur).quiet' hS) fun _ => .bind (q_destroyVal hP _) fun _ =>
      .bind ((n_putNode _ _).quiet' hS) fun _ => ih _) fun _ => .pure _ fun _ h => h

theorem q_destroyContent (hP : Loose E P) (s : Ptr) : QSim E P (destroyContent E.toElemOps s) (LL.destroyContent s : M (LL.W A) Unit)
    fun _ => P := .bind ((n_getNext s).quiet' hP.grows.stable) fun _ => q_destroyLoop hP _ _

theorem q_destroyList (hP : Loose E P) (k : Nat) : QSim E P (destroyList E.toElemOps (.stk k)) (LL.destroyList (.stk k) : M (LL.W A) Unit)
    fun _ => P := .bind (q_destroyContent hP _) fun _ => (NSim.dropObj k).quiet' hP.grows.stable

theorem q_clear (hP : Loose E P) (s : Ptr) : QSim E P (clear E.toElemOps s) (LL.clear s : M (LL.W A) Unit) fun _ => P :=
  .bind (q_destroyContent hP _) fun _ => (n_initEmpty s).quiet' hP.grows.stable

theorem q_moveAssign (hP : Loose E P) (s t : Ptr) : QSim E P (moveAssign E.toElemOps s t) (LL.moveAssign s t : M (LL.W A) Unit)
    fun _ => P := by
  have hS := hP.grows.stable
  refine .bind ((n_moveCtor s).quiet hS) fun _ => .pre ?_
  rintro ⟨k, rfl⟩
  exact .bind ((n_swap _ _).quiet' hS) fun _ => q_destroyList hP k

theorem q_erase (hP : Loose E P) (s p : Ptr) : QSim E P (erase E.toElemOps s p) (LL.erase s p : M (LL.W A) Ptr) fun _ => P := by
  have hS := hP.grows.stable
  exact .bind ((n_checkNode _).quiet' hS) fun _ => .bind ((n_getNext _).quiet' hS) fun _ => .bind ((n_checkNode _).quiet' hS) fun _ =>
    .bind ((n_removeNode _).quiet' hS) fun _ => .bind (q_destroyVal hP _) fun _ => .bind ((n_putNode _ _).quiet' hS) fun _ =>
    .pure _ fun _ h => h

theorem q_eraseRange (hP : Loose E P) (s f l : Ptr) : QSim E P (eraseRange E.toElemOps s f l) (LL.eraseRange s f l : M (LL.W A) Ptr)
    fun _ => P := by
  have hS := hP.grows.stable
  revert f
  refine LL.eraseRange.fixpoint_induct (V := A) s l (motive := fun n => ∀ f, QSim E P (eraseRange E.toElemOps s f l) (n f) fun _ => P) ?_ ?_
  · exact QSim.admissible1 _ _ _
  · intro g ih f
    rw [eraseRange]
    exact .bind ((n_itEq _ _).quiet' hS) fun _ => .ite (fun _ => .pure _ fun _ h => h) fun _ => .bind (q_erase hP _ _) fun _ => ih _

theorem q_popBack (hP : Loose E P) (s : Ptr) : QSim E P (popBack E.toElemOps s) (LL.popBack s : M (LL.W A) Unit) fun _ => P :=
  .bind ((n_getPrev _).quiet' hP.grows.stable) fun _ => .bind ((n_checkNode _).quiet' hP.grows.stable) fun _ =>
    .bind (q_erase hP _ _) fun _ => .pure _ fun _ h => h

theorem q_popFront (hP : Loose E P) (s : Ptr) : QSim E P (popFront E.toElemOps s) (LL.popFront s : M (LL.W A) Unit) fun _ => P :=
  .bind ((n_begin _).quiet' hP.grows.stable) fun _ => .bind (q_erase hP _ _) fun _ => .pure _ fun _ h => h

/-! ### Construction -/

theorem createNode_eq (s : Ptr) (v : A) : LL.createNode s v = (do
    let a ← LC.getAlloc s
    let n ← allocCell fun junk => { junk with val := none, owner := a }
    if (← hasErr) then pure .null else do
    ctorAt n v
    if (← hasErr) then
      LL.putNode s n
      pure .null
    else pure n : M (LL.W A) Ptr) := by
  unfold LL.createNode LC.getAlloc
  rw [bind_assoc]
  refine congrArg _ (funext fun c => ?_)
  simp only [pure_bind]
  refine congrArg _ (funext fun n => congrArg _ (funext fun b => ?_))
  cases b
  · simp only [Bool.false_eq_true, if_false, ctorAt, bind_assoc]
    refine congrArg _ (funext fun b => ?_)
    cases b
    · rfl
    · simp only [if_true, beginVal, bind_assoc]
      refine congrArg _ (funext fun d => ?_)
      show _ = (match d.val with | some _ => _ | none => _) >>= _
      cases d.val <;> rfl
  · rfl

/-- After an attempt to construct an element. -/
def Tried (P P1 : ST S → Prop) (s : ST S) : Prop := P s ∧ ¬ NoErr s ∨ P1 s

theorem Tried.stable {P1 : ST S → Prop} (hP : Stable P) (hP1 : Stable P1) : Stable (Tried P P1) := by
  rintro s o h1 h2 (⟨h3, h4⟩ | h3)
  · exact .inl ⟨hP s o h1 h2 h3, fun h => h4 (h2.symm.trans h)⟩
  · exact .inr (hP1 s o h1 h2 h3)

/-- Constructions with the argument `a` are constructions with the value `v`. -/
def Ctor (E : Elem S A X) (P : ST S → Prop) (a : Arg) (v : A) (P1 : ST S → Prop) : Prop :=
  ∀ d, Sim E (fun s => P s ∧ NoErr s) (construct E.toElemOps (.dyn d) a) (ctorAt (.dyn d) v : M (LL.W A) Unit) fun _ => P1

theorem Ctor.copy {a : Arg} {v : A} (hP : Grows E P) (ha : ∀ s, P s → ArgRel E a v s) : Ctor E P a v P :=
  fun _ => (Sim.construct hP).weaken (fun _ h => ⟨h.1, ha _ h.1⟩) fun _ _ h => h

theorem Ctor.move {t : Ptr} {x : A} (ht : u.1 t = some x) :
    Ctor E (Keep E u) (.mov t) x fun s => Keep E (movedOut E u t) s ∧ NoErr s := fun _ => Sim.construct_move ht

section
variable {P1 : ST S → Prop} {a : Arg} {v : A} (hP : Grows E P) (hP1 : Stable P1) (hc : Ctor E P a v P1)
include hP hP1 hc

theorem s_createNode (s : Ptr) : Sim E P (createNode E.toElemOps s a) (LL.createNode s v) fun _ => Tried P P1 := by
  rw [createNode_eq]
  have hT := Tried.stable hP.stable hP1
  refine .bind ((n_getAlloc s).sim hP.stable) fun a => .bind (Sim.allocCell hP (fun _ => rfl) fun _ _ => rfl) fun n =>
    .bind .failed fun b => .ite (fun hb => .pure _ fun s h => ?_) fun hb => ?_
  · refine .inl ⟨h.1.1, fun he => ?_⟩
    have h2 := h.2
    rw [show s.o.err = none from he, hb] at h2
    cases h2
  · refine Sim.weaken (P := fun s => (P s ∧ NoErr s) ∧ ∃ d, n = .dyn d) (.pre ?_) (fun s h => ?_) fun _ _ h => h
    · rintro ⟨d, rfl⟩
      refine .bind (hc d) fun _ => .bind .failed fun b => .ite (fun _ => ?_) fun _ => .pure _ fun _ h => .inr h.1
      exact .bind (((n_putNode s (.dyn d)).sim hP1).weaken (fun _ h => h.1) fun _ _ h => h) fun _ => .pure _ fun _ h => .inr h
    · have he : NoErr s := by
        have h2 := h.2
        unfold NoErr
        cases e : s.o.err with
        | none => rfl
        | some x => rw [e] at h2; exact (hb h2.symm).elim
      exact ⟨⟨h.1.1, he⟩, h.1.2 he⟩

theorem s_emplace (s pos : Ptr) : Sim E P (emplace E.toElemOps s pos a) (LL.emplace s pos v) fun _ => Tried P P1 := by
  have hT := Tried.stable hP.stable hP1
  refine .bind (s_createNode hP hP1 hc s) fun n => .bind .failed fun b => .ite (fun _ => ?_) fun _ => ?_
  · exact ((n_end s).sim hT).weaken (fun _ h => h.1) fun _ _ h => h
  · refine Sim.weaken (P := Tried P P1) ?_ (fun _ h => h.1) fun _ _ h => h
    exact .bind ((n_initEmpty _).sim hT) fun _ => .bind ((n_checkNode _).sim hT) fun _ => .bind ((n_inject _ _).sim hT) fun _ =>
      .bind ((n_checkNode _).sim hT) fun _ => .pure _ fun _ h => h

theorem s_pushBack (s : Ptr) : Sim E P (pushBack E.toElemOps s a) (LL.pushBack s v) fun _ => Tried P P1 :=
  .bind ((n_end s).sim hP.stable) fun _ => .bind (s_emplace hP hP1 hc _ _) fun _ => .pure _ fun _ h => h

theorem s_pushFront (s : Ptr) : Sim E P (pushFront E.toElemOps s a) (LL.pushFront s v) fun _ => Tried P P1 :=
  .bind ((n_begin s).sim hP.stable) fun _ => .bind (s_emplace hP hP1 hc _ _) fun _ => .pure _ fun _ h => h

end

section
variable {a : Arg} {v : A} (hP : Grows E P) (ha : ∀ s, P s → ArgRel E a v s)
include hP ha

theorem c_emplace (s pos : Ptr) : Sim E P (emplace E.toElemOps s pos a) (LL.emplace s pos v) fun _ => P :=
  (s_emplace hP hP.stable (.copy hP ha) s pos).weaken (fun _ h => h) fun _ _ h => h.elim And.left id

theorem c_pushBack (s : Ptr) : Sim E P (pushBack E.toElemOps s a) (LL.pushBack s v) fun _ => P :=
  (s_pushBack hP hP.stable (.copy hP ha) s).weaken (fun _ h => h) fun _ _ h => h.elim And.left id

theorem c_pushFront (s : Ptr) : Sim E P (pushFront E.toElemOps s a) (LL.pushFront s v) fun _ => P :=
  (s_pushFront hP hP.stable (.copy hP ha) s).weaken (fun _ h => h) fun _ _ h => h.elim And.left id

theorem c_insertN (s pos : Ptr) (n : Nat) : Sim E P (insertN E.toElemOps s pos a n) (LL.insertN s pos v n) fun _ => P := by
  induction n generalizing pos with
  | zero => exact .pure _ fun _ h => h
  | succ n ih =>
    exact .bind (c_emplace hP ha _ _) fun _ => .bind .failed fun _ => .ite (fun _ => .pure _ fun _ h => h.1) fun _ =>
      (ih _).weaken (fun _ h => h.1) fun _ _ h => h

theorem c_assignLoop (s : Ptr) (n : Nat) : Sim E P (assignLoop E.toElemOps s a n) (LL.assignLoop s v n) fun _ => P := by
  induction n with
  | zero => exact .pure _ fun _ h => h
  | succ n ih =>
    exact .bind (c_pushBack hP ha _) fun _ => .bind .failed fun _ => .ite (fun _ => .pure _ fun _ h => h.1) fun _ =>
      ih.weaken (fun _ h => h.1) fun _ _ h => h

theorem c_assignN {P0 : ST S → Prop} (h0 : Loose E P0) (hp : ∀ s, P s → P0 s) (s : Ptr) (n : Nat) :
    Sim E P (assignN E.toElemOps s n a) (LL.assignN s n v) fun _ => P0 := by
  refine .bind ((n_newList _).quiet hP.stable).sim fun _ => .pre ?_
  rintro ⟨k, rfl⟩
  exact .bind ((n_swap _ _).sim hP.stable) fun _ => .bind (c_assignLoop hP ha s n) fun _ =>
    (q_destroyList h0 k).sim.weaken hp fun _ _ h => h

end

/-- The objects `ts` have the values `vs`. -/
def KnowsAll (E : Elem S A X) (ts : List Ptr) (vs : List A) (s : ST S) : Prop := ts.map (E.val s.i) = vs.map some

theorem KnowsAll.cons {t : Ptr} {ts : List Ptr} {v : A} {vs : List A} {s : ST S} : KnowsAll E (t :: ts) (v :: vs) s ↔
    Knows E t v s ∧ KnowsAll E ts vs s := by simp [KnowsAll, Knows]

theorem KnowsAll.grows {ts : List Ptr} {vs : List A} : Grows E (KnowsAll E ts vs) := by
  intro s s' h1 h2 h3
  induction ts generalizing vs with
  | nil => exact h3
  | cons t ts ih =>
    cases vs with
    | nil => cases h3
    | cons v vs =>
      rw [KnowsAll.cons] at h3 ⊢
      exact ⟨h2 _ _ h3.1, ih h3.2⟩

theorem c_insertRange {P0 : ST S → Prop} (h0 : Loose E P0) (s pos : Ptr) (ts : List Ptr) (vs : List A) :
    Sim E (fun s => P0 s ∧ KnowsAll E ts vs s) (insertRange E.toElemOps s pos ts) (LL.insertRange s pos vs) fun _ => P0 := by
  induction ts generalizing pos vs with
  | nil =>
    cases vs with
    | nil => exact .pure _ fun _ h => h.1
    | cons v vs => intro s w _ h; cases h.2
  | cons t ts ih =>
    cases vs with
    | nil => intro s w _ h; cases h.2
    | cons v vs =>
      refine .bind (c_emplace (a := .obj t) (v := v) (h0.grows.and KnowsAll.grows) (fun _ h => (KnowsAll.cons.1 h.2).1) s pos) fun _ =>
        .bind .failed fun _ => .ite (fun _ => .pure _ fun _ h => h.1.1) fun _ =>
        (ih _ vs).weaken (fun _ h => ⟨h.1.1, (KnowsAll.cons.1 h.1.2).2⟩) fun _ _ h => h

theorem c_assignValsLoop {P0 : ST S → Prop} (h0 : Loose E P0) (s : Ptr) (ts : List Ptr) (vs : List A) :
    Sim E (fun s => P0 s ∧ KnowsAll E ts vs s) (assignValsLoop E.toElemOps s ts) (LL.assignValsLoop s vs) fun _ => P0 := by
  induction ts generalizing vs with
  | nil =>
    cases vs with
    | nil => exact .pure _ fun _ h => h.1
    | cons v vs => intro s w _ h; cases h.2
  | cons t ts ih =>
    cases vs with
    | nil => intro s w _ h; cases h.2
    | cons v vs =>
      refine .bind (c_pushBack (a := .obj t) (v := v) (h0.grows.and KnowsAll.grows) (fun _ h => (KnowsAll.cons.1 h.2).1) s) fun _ =>
        .bind .failed fun _ => .ite (fun _ => .pure _ fun _ h => h.1.1) fun _ =>
        (ih vs).weaken (fun _ h => ⟨h.1.1, (KnowsAll.cons.1 h.1.2).2⟩) fun _ _ h => h

theorem c_assignVals {P0 : ST S → Prop} (h0 : Loose E P0) (s : Ptr) (ts : List Ptr) (vs : List A) :
    Sim E (fun s => P0 s ∧ KnowsAll E ts vs s) (assignVals E.toElemOps s ts) (LL.assignVals s vs) fun _ => P0 := by
  have hS := (h0.grows.and (KnowsAll.grows (ts := ts) (vs := vs))).stable
  refine .bind ((n_newList _).quiet hS).sim fun _ => .pre ?_
  rintro ⟨k, rfl⟩
  exact .bind ((n_swap _ _).sim hS) fun _ => .bind (c_assignValsLoop h0 s ts vs) fun _ => (q_destroyList h0 k).sim

theorem deref_eq {V : Type} (p : Ptr) : (LL.deref p : M (LL.W V) V) = LL.checkNode p >>= fun _ => theVal p := rfl

theorem onO_deref (p : Ptr) : (onO (LL.deref p) : M (ST S) Ptr) = onO (LL.checkNode p) >>= fun _ => onO (theVal p) :=
  onO_bind

theorem c_assignItLoop {P0 : ST S → Prop} (h0 : Loose E P0) (s f l : Ptr) :
    Sim E (fun s => P0 s ∧ NoErr s) (assignItLoop E.toElemOps s f l) (LL.assignItLoop s f l : M (LL.W A) Unit) fun _ => P0 := by
  have hS : Stable fun s => P0 s ∧ NoErr s := h0.grows.stable.and NoErr.stable
  have key : ∀ f, LSim E (fun s => P0 s ∧ NoErr s) (assignItLoop E.toElemOps s f l) (LL.assignItLoop s f l : M (LL.W A) Unit)
      (LL.assignItLoop s f l) fun _ => P0 := by
    refine LL.assignItLoop.fixpoint_induct (V := A) s l (motive := fun n => ∀ f, LSim E (fun s => P0 s ∧ NoErr s)
      (assignItLoop E.toElemOps s f l) (n f) (LL.assignItLoop s f l) fun _ => P0) ?_ ?_
    · exact admissible_pi_apply _ fun f => LSim.admissible _ _ _ _
    · intro g ih f
      rw [assignItLoop, LL.assignItLoop]
      refine .bind' ((n_itEq _ _).sim hS) (fun _ _ h => h.2) fun _ => .ite (fun _ => .of_sim (.pure _ fun _ h => h.1)) fun _ => ?_
      rw [onO_deref, deref_eq, bind_assoc, bind_assoc, bind_assoc]
      refine .bind' ((n_checkNode _).sim hS) (fun _ _ h => h.2) fun _ => .elem fun q v => ?_
      refine LSim.weaken (P := fun s => P0 s ∧ Knows E q v s) ?_ (fun _ h => ⟨h.1.1, h.2.2⟩) fun _ _ h => h
      refine .bind (c_pushBack (a := .obj q) (v := v) (h0.grows.and Knows.grows) (fun _ h => h.2) s) ?_ fun _ => ?_
      · intro _
        refine .bind .failed fun b => .ite (fun _ => .pure _ fun _ h => h.1.1.1) fun hb => ?_
        intro s w _ h
        have h2 := h.2
        refine (h.1.2 ?_).elim
        unfold NoErr
        cases e : s.o.err with
        | none => rfl
        | some x => rw [e] at h2; exact (hb h2.symm).elim
      · refine .bind' ((Sim.failed (P := fun s => P0 s ∧ NoErr s)).weaken (fun _ h => ⟨h.1.1, h.2⟩) fun _ _ h => h) (fun _ _ h => h.1.2) fun _ =>
          .ite (fun _ => .of_sim (.pure _ fun _ h => h.1.1)) fun _ => .bind' (((n_incr _).sim hS).weaken (fun _ h => h.1) fun _ _ h => h) (fun _ _ h => h.2) fun _ => ih _
  exact (key f).sim

theorem c_assignIt {P0 : ST S → Prop} (h0 : Loose E P0) (s f l : Ptr) :
    Sim E (fun s => P0 s ∧ NoErr s) (assignIt E.toElemOps s f l) (LL.assignIt s f l : M (LL.W A) Unit) fun _ => P0 := by
  have hS : Stable fun s => P0 s ∧ NoErr s := h0.grows.stable.and NoErr.stable
  refine .bind ((n_newList _).quiet hS).sim fun _ => .pre ?_
  rintro ⟨k, rfl⟩
  exact .bind ((n_swap _ _).sim hS) fun _ => .bind (c_assignItLoop h0 s f l) fun _ => (q_destroyList h0 k).sim

theorem c_copyNothrow {P0 : ST S → Prop} (h0 : Loose E P0) (s t : Ptr) :
    Sim E (fun s => P0 s ∧ NoErr s) (copyNothrow E.toElemOps s t) (LL.copyNothrow s t : M (LL.W A) Unit) fun _ => P0 := by
  have hS : Stable fun s => P0 s ∧ NoErr s := h0.grows.stable.and NoErr.stable
  exact .bind ((n_begin _).sim hS) fun _ => .bind ((n_end _).sim hS) fun _ => c_assignIt h0 _ _ _

/-! ### Comparison of elements -/

theorem QSim.deref {p : Ptr} {k : Ptr → M (ST S) α} {l : A → M (LL.W A) α} (hP : Stable P)
    (h : ∀ q v, QSim E (fun s => P s ∧ Knows E q v s) (k q) (l v) Q) : QSim E P (onO (LL.deref p) >>= k) (LL.deref p >>= l) Q := by
  rw [onO_deref, deref_eq, bind_assoc, bind_assoc]
  exact .bind ((n_checkNode _).quiet' hP) fun _ => .elem fun q v => (h q v).weaken (fun _ h => ⟨h.1, h.2.2⟩) fun _ _ h => h

section
variable {less : Ptr → Ptr → M S Bool} {lt : A → A → Bool} (hc : Compares E less lt) (hP : Calm E P)
include hc hP

theorem q_mergeLoop (f1 l1 f2 l2 : Ptr) : QSim E P (mergeLoop less f1 l1 f2 l2) (LL.mergeLoop lt f1 l1 f2 l2) fun _ => P := by
  have hS := hP.stable
  revert f1 f2
  refine LL.mergeLoop.fixpoint_induct (V := A) lt l1 l2 (motive := fun n => ∀ f1 f2, QSim E P (mergeLoop less f1 l1 f2 l2) (n f1 f2) fun _ => P) ?_ ?_
  · exact admissible_pi_apply _ fun f1 => admissible_pi_apply _ fun f2 => QSim.admissible _ _ _
  · intro g ih f1 f2
    rw [mergeLoop]
    refine .bind ((n_itEq _ _).quiet' hS) fun _ => .ite (fun _ => .pure _ fun _ h => h) fun _ =>
      .bind ((n_itEq _ _).quiet' hS) fun _ => .ite (fun _ => .pure _ fun _ h => h) fun _ => QSim.deref hS fun b y =>
      QSim.deref (hP.and Knows.grows.calm).stable fun a x => ?_
    refine .bind ((QSim.compare (a := b) (b := a) hc hP).weaken (fun _ h => ⟨h.1.1, h.1.2, h.2⟩) fun _ _ h => h) fun _ =>
      .ite (fun _ => ?_) fun _ => ?_
    · exact .bind ((n_incr _).quiet' hS) fun _ => .bind ((n_transfer _ _ _).quiet' hS) fun _ => ih _ _
    · exact .bind ((n_incr _).quiet' hS) fun _ => ih _ _

theorem q_merge (s t : Ptr) : QSim E P (merge less s t) (LL.merge lt s t) fun _ => P := by
  have hS := hP.stable
  exact .bind (.assertM _) fun _ => .bind ((n_begin _).quiet' hS) fun _ => .bind ((n_end _).quiet' hS) fun _ =>
    .bind ((n_begin _).quiet' hS) fun _ => .bind ((n_end _).quiet' hS) fun _ => .bind (q_mergeLoop hc hP _ _ _ _) fun _ =>
    .bind ((n_itEq _ _).quiet' hS) fun _ => .ite (fun _ => .pure _ fun _ h => h) fun _ => (n_transfer _ _ _).quiet' hS

theorem q_sortCarry (carry : Ptr) (tmp : List Ptr) (fill i : Nat) :
    QSim E P (sortCarry less carry tmp fill i) (LL.sortCarry lt carry tmp fill i) fun _ => P := by
  have hS := hP.stable
  revert i
  refine LL.sortCarry.fixpoint_induct (V := A) lt carry tmp fill (motive := fun n => ∀ i, QSim E P (sortCarry less carry tmp fill i) (n i) fun _ => P) ?_ ?_
  · exact QSim.admissible1 _ _ _
  · intro g ih i
    rw [sortCarry]
    exact .ite (fun _ => .bind ((n_arrAt _ _).quiet' hS) fun _ => .bind ((n_empty _).quiet' hS) fun _ =>
      .ite (fun _ => .pure _ fun _ h => h) fun _ => .bind (q_merge hc hP _ _) fun _ => .bind ((n_swap _ _).quiet' hS) fun _ => ih _)
      fun _ => .pure _ fun _ h => h

theorem q_sortLoop (s carry : Ptr) (tmp : List Ptr) (fill : Nat) :
    QSim E P (sortLoop less s carry tmp fill) (LL.sortLoop lt s carry tmp fill) fun _ => P := by
  have hS := hP.stable
  revert fill
  refine LL.sortLoop.fixpoint_induct (V := A) lt s carry tmp (motive := fun n => ∀ fill, QSim E P (sortLoop less s carry tmp fill) (n fill) fun _ => P) ?_ ?_
  · exact QSim.admissible1 _ _ _
  · intro g ih fill
    rw [sortLoop]
    simp only [onO_bind, bind_assoc]
    exact .bind ((n_begin _).quiet' hS) fun _ => .bind ((n_begin _).quiet' hS) fun _ => .bind ((n_spliceOne _ _).quiet' hS) fun _ =>
      .bind (q_sortCarry hc hP _ _ _ _) fun _ => .bind ((n_arrAt _ _).quiet' hS) fun _ => .bind ((n_swap _ _).quiet' hS) fun _ =>
      .bind ((n_empty _).quiet' hS) fun _ => .ite (fun _ => .pure _ fun _ h => h) fun _ => ih _

theorem q_sortMerge (tmp : List Ptr) (fill i : Nat) : QSim E P (sortMerge less tmp fill i) (LL.sortMerge lt tmp fill i) fun _ => P := by
  have hS := hP.stable
  revert i
  refine LL.sortMerge.fixpoint_induct (V := A) lt tmp fill (motive := fun n => ∀ i, QSim E P (sortMerge less tmp fill i) (n i) fun _ => P) ?_ ?_
  · exact QSim.admissible1 _ _ _
  · intro g ih i
    rw [sortMerge]
    exact .ite (fun _ => .bind ((n_arrAt _ _).quiet' hS) fun _ => .bind ((n_arrAt _ _).quiet' hS) fun _ =>
      .bind (q_merge hc hP _ _) fun _ => ih _) fun _ => .pure _ fun _ h => h

end

theorem q_destroyLists (hP : Loose E P) (ps : List Ptr) (hps : ∀ p ∈ ps, ∃ k, p = .stk k) :
    QSim E P (destroyLists E.toElemOps ps) (LL.destroyLists ps : M (LL.W A) Unit) fun _ => P := by
  induction ps with
  | nil => exact .pure _ fun _ h => h
  | cons p ps ih =>
    obtain ⟨k, rfl⟩ := hps p (by simp)
    exact .bind (ih fun p hp => hps p (by simp [hp])) fun _ => q_destroyList hP k

theorem q_sort {less : Ptr → Ptr → M S Bool} {lt : A → A → Bool} (hc : Compares E less lt) (hP : Loose E P) (s : Ptr) :
    QSim E P (sort E.toElemOps less s) (LL.sort lt s) fun _ => P := by
  have hG := hP.grows.calm
  have hS := hG.stable
  unfold sort LL.sort
  simp only [onO_bind, bind_assoc]
  refine .bind ((n_getNext _).quiet' hS) fun _ => .ite (fun _ => .bind ((n_getNext _).quiet' hS) fun _ =>
    .bind ((n_getNext _).quiet' hS) fun _ => .ite (fun _ => ?_) fun _ => .pure _ fun _ h => h) fun _ => .pure _ fun _ h => h
  refine .bind ((n_newList _).quiet hS) fun _ => .pre ?_
  rintro ⟨k, rfl⟩
  refine .bind ((n_newLists _).quiet hS) fun tmp => .pre fun ht => ?_
  exact .bind (q_sortLoop hc hG _ _ _ _) fun _ => .bind (q_sortMerge hc hG _ _ _) fun _ => .bind ((n_arrAt _ _).quiet' hS) fun _ =>
    .bind ((n_swap _ _).quiet' hS) fun _ => .bind (q_destroyLists hP tmp ht) fun _ => q_destroyList hP k

theorem q_eqLoop {eqv : Ptr → Ptr → M S Bool} {eq : A → A → Bool} (hc : Compares E eqv eq) (hP : Calm E P) (l e r : Ptr) :
    QSim E P (eqLoop eqv l e r) (LL.eqLoop eq l e r) fun _ => P := by
  have hS := hP.stable
  revert l r
  refine LL.eqLoop.fixpoint_induct (V := A) eq e (motive := fun n => ∀ l r, QSim E P (eqLoop eqv l e r) (n l r) fun _ => P) ?_ ?_
  · exact admissible_pi_apply _ fun f1 => admissible_pi_apply _ fun f2 => QSim.admissible _ _ _
  · intro g ih l r
    rw [eqLoop]
    refine .bind ((n_itEq _ _).quiet' hS) fun _ => .ite (fun _ => .pure _ fun _ h => h) fun _ => QSim.deref hS fun a x =>
      QSim.deref (hP.and Knows.grows.calm).stable fun b y => ?_
    refine (QSim.ask (a := a) (b := b) (x := x) (y := y) hc hP ?_).weaken (fun _ h => ⟨h.1.1, h.1.2, h.2⟩) fun _ _ h => h
    exact .ite (fun _ => .pure _ fun _ h => h) fun _ => .bind ((n_incr _).quiet' hS) fun _ => .bind ((n_incr _).quiet' hS) fun _ => ih _ _

theorem q_equal {eqv : Ptr → Ptr → M S Bool} {eq : A → A → Bool} (hc : Compares E eqv eq) (hP : Calm E P) (l r : Ptr) :
    QSim E P (equal eqv l r) (LL.equal eq l r) fun _ => P := by
  have hS := hP.stable
  exact .bind ((n_size _).quiet' hS) fun _ => .bind ((n_size _).quiet' hS) fun _ => .ite (fun _ => .pure _ fun _ h => h) fun _ =>
    .bind ((n_begin _).quiet' hS) fun _ => .bind ((n_end _).quiet' hS) fun _ => .bind ((n_begin _).quiet' hS) fun _ =>
    q_eqLoop hc hP _ _ _

end Nestl.LO
