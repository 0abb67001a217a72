import Verif.TreeOf.Funs
set_option autoImplicit false
set_option maxHeartbeats 1000000
/-
The functions of trees of objects do what the functions of trees of values do: insertion and copying.
-/
namespace Nestl.TO
open Nestl.VO (Elem ElemOps)
open Nestl.NO
open Nestl.RB (TNode)
open Lean.Order
variable {S A X α : Type} {E : Elem S A X} {P P1 : ST S → Prop} {Q : α → ST S → Prop} {u : (Ptr → Option A) × X} {a : Arg} {v : A}

/-- After an attempt to construct an element. -/
def Tried (P P1 : ST S → Prop) (s : ST S) : Prop := P s ∧ ¬ NoErr s ∨ P1 s ∧ NoErr s

theorem Tried.stable (hP : Stable P) (hP1 : Stable P1) : Stable (Tried P P1) := by
  rintro s o h1 h2 (⟨h3, h4⟩ | ⟨h3, h4⟩)
  · exact .inl ⟨hP s o h1 h2 h3, fun h => h4 (h2.symm.trans h)⟩
  · exact .inr ⟨hP1 s o h1 h2 h3, h2.trans h4⟩

theorem Tried.err {s : ST S} (h : Tried P P1 s) (he : s.o.err.isSome = true) : P s ∧ ¬ NoErr s := by
  rcases h with h | h
  · exact h
  · rw [show s.o.err = none from h.2] at he; cases he

theorem isSome_false {s : ST S} (h : ¬ s.o.err.isSome = true) : NoErr s := by
  unfold NoErr
  cases e : s.o.err with
  | none => rfl
  | some x => rw [e] at h; exact (h rfl).elim

theorem Tried.ok {s : ST S} (h : Tried P P1 s) (he : ¬ s.o.err.isSome = true) : P1 s ∧ NoErr s := by
  rcases h with h | h
  · exact (h.2 (isSome_false he)).elim
  · exact h

/-- Programs that construct nothing report no errors. -/
theorem QSim.errs {m : M (ST S) α} {n : M (RB.W A) α} (h : QSim E P m n Q) :
    QSim E (fun s => P s ∧ NoErr s) m n fun r s => Q r s ∧ NoErr s := by
  intro s w hR ⟨h0, he⟩ r w' hr
  obtain ⟨s', h1, h2, h3, h4⟩ := h s w hR h0 r w' hr
  refine ⟨s', h1, h2, ⟨h3, isSome_false ?_⟩, h4⟩
  rw [← h2.err, h4.err, hR.err, show s.o.err = none from he]
  simp

/-- Constructions with the argument `a` are constructions with the value `v`. -/
def Ctor (E : Elem S A X) (P : ST S → Prop) (a : Arg) (v : A) (P1 : ST S → Prop) : Prop :=
  ∀ d, Sim E (fun s => P s ∧ NoErr s) (construct E.toElemOps (.dyn d) a) (ctorAt (.dyn d) v : M (RB.W A) Unit) fun _ => Tried P P1

theorem Ctor.copy (hP : Grows E P) (ha : ∀ s, P s → ArgRel E a v s) : Ctor E P a v P := by
  refine fun _ => (Sim.construct hP).weaken (fun _ h => ⟨h.1, ha _ h.1⟩) fun _ s h => ?_
  by_cases he : NoErr s
  · exact .inr ⟨h, he⟩
  · exact .inl ⟨h, he⟩

theorem Ctor.weaken {P1' : ST S → Prop} (h : Ctor E P a v P1) (hp : ∀ s, P1 s → P1' s) : Ctor E P a v P1' :=
  fun d => (h d).weaken (fun _ h => h) fun _ _ h => h.elim .inl fun h => .inr ⟨hp _ h.1, h.2⟩

theorem Ctor.move {t : Ptr} (ht : u.1 t = some v) : Ctor E (Keep E u) (.mov t) v (Keep E (movedOut E u t)) :=
  fun _ => (Sim.construct_move ht).weaken (fun _ h => h) fun _ _ h => .inr h

theorem createNode_eq (hdr : Ptr) (v : A) : RB.createNode hdr v = (do
    let a := (← rd hdr).owner
    let l ← allocCell fun junk => { junk with val := none, owner := a, count := 0 }
    if (← hasErr) then pure .null else do
    ctorAt l v
    if (← hasErr) then
      RB.putNode hdr l
      pure .null
    else pure l : M (RB.W A) Ptr) := by
  unfold RB.createNode
  refine congrArg _ (funext fun c => ?_)
  dsimp only
  refine congrArg _ (funext fun n => congrArg _ (funext fun b => ?_))
  cases b
  · simp only [Bool.false_eq_true, if_false]
    refine congrArg (· >>= _) ?_
    unfold RB.constructVal ctorAt
    refine congrArg _ (funext fun b => ?_)
    cases b
    · rfl
    · simp only [if_true, beginVal]
      refine congrArg _ (funext fun d => ?_)
      show _ = (match d.val with | some _ => _ | none => _)
      cases d.val <;> rfl
  · rfl

section
variable (hP : Grows E P) (hP1 : Stable P1) (hc : Ctor E P a v P1)
include hP hP1 hc

theorem s_createNode (hdr : Ptr) : Sim E P (createNode E.toElemOps hdr a) (RB.createNode hdr v) fun _ => Tried P P1 := by
  rw [createNode_eq]
  have hT := Tried.stable hP.stable hP1
  refine .rd fun _ _ => .bind (Sim.allocCell hP (fun _ => rfl) fun _ _ => rfl) fun n =>
    .bind .failed fun b => .ite (fun hb => .pure _ fun s h => ?_) fun hb => ?_
  · refine .inl ⟨h.1.1, fun he => ?_⟩
    have h2 := h.2
    rw [show s.o.err = none from he, hb] at h2
    cases h2
  · refine Sim.weaken (P := fun s => (P s ∧ NoErr s) ∧ ∃ d, n = .dyn d) (.pre ?_) (fun s h => ?_) fun _ _ h => h
    · rintro ⟨d, rfl⟩
      refine .bind (hc d) fun _ => .bind .failed fun b => .ite (fun _ => ?_) fun _ => .pure _ fun _ h => h.1
      exact .bind (((n_putNode hdr (.dyn d)).sim hT).weaken (fun _ h => h.1) fun _ _ h => h) fun _ => .pure _ fun _ h => h
    · have he : NoErr s := isSome_false (by rw [h.2]; exact hb)
      exact ⟨⟨h.1.1, he⟩, h.1.2 he⟩

/-- Creating a node, and then either giving up or going on with it. -/
theorem s_withNode (hdr : Ptr) {f : Ptr → M (ST S) α} {g : Ptr → M (RB.W A) α} {r : α} (h1 : ∀ s, P s → Q r s)
    (h2 : ∀ z, Sim E (fun s => P1 s ∧ NoErr s) (f z) (g z) Q) :
    Sim E P (do let z ← createNode E.toElemOps hdr a; if (← failed) then pure r else f z)
      (do let z ← RB.createNode hdr v; if (← hasErr) then pure r else g z) Q :=
  .bind (s_createNode hP hP1 hc hdr) fun z => .bind .failed fun b => .ite (fun hb => .pure _ fun s h => h1 s (h.1.err (h.2.trans hb)).1) fun hb =>
    (h2 z).weaken (fun _ h => h.1.ok (by rw [h.2]; exact hb)) fun _ _ h => h

end

theorem q_link (hP : Stable P) (b : Bool) (hdr p l : Ptr) : QSim E P (onO (linkNode b hdr p l)) (linkNode b hdr p l : M (RB.W A) Ptr)
    fun _ => P := (n_linkNode b hdr p l).quiet' hP

section
variable {less : Ptr → Ptr → M S Bool} {lt : A → A → Bool} (hl : Compares E less lt)
include hl

section
variable (hP : Grows E P) (hP1 : Stable P1) (hc : Ctor E P a v P1) (hk : ∀ s, P s → Knows E (theArg a) v s)
include hP hP1 hc hk

/-- After an insertion that failed or succeeded. -/
theorem s_insert_ (hdr x p : Ptr) : Sim E P (insert_ less E.toElemOps hdr x p a) (RB.insert_ lt hdr x p v) fun _ => Tried P P1 := by
  refine .bind (Q := fun _ => P) (.ite (fun _ => .pure _ fun _ h => h) fun _ => .ite (fun _ => .pure _ fun _ h => h) fun _ => ?_) fun b => ?_
  · exact (q_cmpL0 hl hP.calm hk).sim
  · refine .bind (s_createNode hP hP1 hc hdr) fun z => .bind .failed fun _ => .ite (fun hb => .pure _ fun s h => h.1) fun hb => ?_
    exact ((q_link (Tried.stable hP.stable hP1) _ _ _ _).sim).weaken (fun _ h => h.1) fun _ _ h => h

theorem s_insertUnique (hdr : Ptr) : Sim E P (insertUnique less E.toElemOps hdr a) (RB.insertUnique lt hdr v)
    fun r s => if r.2 = true then Tried P P1 s else P s := by
  refine .bind (q_getInsertUniquePos hl hP.calm hk hdr).sim ?_
  rintro ⟨x, p⟩
  exact .ite (fun _ => .bind (s_insert_ hl hP hP1 hc hk hdr x p) fun _ => .pure _ fun _ h => by simpa using h) fun _ =>
    .pure _ fun _ h => by simpa using h

theorem s_insertUniqueAt (hdr pos : Ptr) : Sim E P (insertUniqueAt less E.toElemOps hdr pos a) (RB.insertUniqueAt lt hdr pos v)
    fun _ s => P s ∨ Tried P P1 s := by
  refine .bind (q_getInsertHintUniquePos hl hP.calm hk hdr pos).sim ?_
  rintro ⟨x, p⟩
  exact .ite (fun _ => (s_insert_ hl hP hP1 hc hk hdr x p).weaken (fun _ h => h) fun _ _ h => .inr h) fun _ =>
    .pure _ fun _ h => .inl h

theorem s_insertLower (hdr p : Ptr) : Sim E P (insertLower less E.toElemOps hdr p a) (RB.insertLower lt hdr p v) fun _ => Tried P P1 := by
  refine .bind (Q := fun _ => P) (.ite (fun _ => .pure _ fun _ h => h) fun _ => ?_) fun b => ?_
  · exact (q_cmpR hl hP.calm hk fun _ => .pure _ fun _ h => h).sim
  · refine .bind (s_createNode hP hP1 hc hdr) fun z => .bind .failed fun _ => .ite (fun hb => .pure _ fun s h => h.1) fun hb => ?_
    exact ((q_link (Tried.stable hP.stable hP1) _ _ _ _).sim).weaken (fun _ h => h.1) fun _ _ h => h

theorem s_insertEqualLower (hdr : Ptr) : Sim E P (insertEqualLower less E.toElemOps hdr a) (RB.insertEqualLower lt hdr v)
    fun _ => Tried P P1 :=
  .rd fun _ _ => .bind (q_lowerDescend hl hP.calm hk _ _).sim fun _ => s_insertLower hl hP hP1 hc hk hdr _

end

/-! Emplacement: the node is made first. -/

section
variable (hP1 : Loose E P1)
include hP1

theorem q_insertNode (hdr x p z : Ptr) : QSim E P1 (insertNode less hdr x p z) (RB.insertNode lt hdr x p z) fun _ => P1 := by
  refine .bind (Q := fun _ => P1) (.ite (fun _ => .pure _ fun _ h => h) fun _ => .ite (fun _ => .pure _ fun _ h => h) fun _ => ?_) fun b => ?_
  · exact q_cmpE0 hl hP1.grows.calm
  · exact q_link hP1.grows.stable _ _ _ _

theorem q_insertLowerNode (hdr p z : Ptr) : QSim E P1 (insertLowerNode less hdr p z) (RB.insertLowerNode lt hdr p z) fun _ => P1 := by
  refine .bind (Q := fun _ => P1) (.ite (fun _ => .pure _ fun _ h => h) fun _ => ?_) fun b => ?_
  · exact q_cmpE hl hP1.grows.calm fun _ => .pure _ fun _ h => h
  · exact q_link hP1.grows.stable _ _ _ _

/-- Looking up the key of a node. -/
theorem q_ofNode {z : Ptr} {f : Ptr → M (ST S) α} {g : A → M (RB.W A) α} (h : ∀ q y, QSim E (fun s => P1 s ∧ Knows E q y s) (f q) (g y) Q) :
    QSim E P1 (keyOf z >>= f) (RB.keyOf z >>= g) Q := by
  rw [keyOf_eq]
  exact QSim.elem fun q y => (h q y).weaken (fun _ h => ⟨h.1, h.2.2⟩) fun _ _ h => h

theorem q_insertEqualLowerNode (hdr z : Ptr) : QSim E P1 (insertEqualLowerNode less hdr z) (RB.insertEqualLowerNode lt hdr z) fun _ => P1 := by
  refine q_ofNode hl hP1 fun q y => .rd fun _ _ => .bind (q_lowerDescend hl (hP1.grows.and Knows.grows).calm (fun _ h => h.2) _ _) fun _ => ?_
  exact (q_insertLowerNode hl hP1 _ _ _).weaken (fun _ h => h.1) fun _ _ h => h

variable (hP : Grows E P) (hc : Ctor E P a v P1)
include hP hc

theorem s_emplaceUnique (hdr : Ptr) : Sim E P (emplaceUnique less E.toElemOps hdr a) (RB.emplaceUnique lt hdr v) fun _ => Tried P P1 := by
  refine .bind (s_createNode hP hP1.grows.stable hc hdr) fun z => .bind .failed fun b => .ite (fun hb => .pure _ fun s h => h.1) fun hb => ?_
  refine Sim.weaken (P := fun s => P1 s ∧ NoErr s) (QSim.errs (Q := fun _ => P1) ?_).sim (fun _ h => h.1.ok (by rw [h.2]; exact hb)) fun _ _ h => .inr h
  refine q_ofNode hl hP1 fun q y => .bind (q_getInsertUniquePos hl (hP1.grows.and Knows.grows).calm (fun _ h => h.2) hdr) ?_
  rintro ⟨x, p⟩
  refine QSim.weaken (P := P1) (.ite (fun _ => ?_) fun _ => ?_) (fun _ h => h.1) fun _ _ h => h
  · exact .bind (q_insertNode hl hP1 _ _ _ _) fun _ => .pure _ fun _ h => h
  · exact .bind (q_destroyNode hP1 _ _) fun _ => .pure _ fun _ h => h

theorem s_emplaceHintUnique (hdr pos : Ptr) : Sim E P (emplaceHintUnique less E.toElemOps hdr pos a) (RB.emplaceHintUnique lt hdr pos v)
    fun _ => Tried P P1 := by
  refine .bind (s_createNode hP hP1.grows.stable hc hdr) fun z => .bind .failed fun b => .ite (fun hb => .pure _ fun s h => h.1) fun hb => ?_
  refine Sim.weaken (P := fun s => P1 s ∧ NoErr s) (QSim.errs (Q := fun _ => P1) ?_).sim (fun _ h => h.1.ok (by rw [h.2]; exact hb)) fun _ _ h => .inr h
  refine q_ofNode hl hP1 fun q y => .bind (q_getInsertHintUniquePos hl (hP1.grows.and Knows.grows).calm (fun _ h => h.2) hdr pos) ?_
  rintro ⟨x, p⟩
  refine QSim.weaken (P := P1) (.ite (fun _ => ?_) fun _ => ?_) (fun _ h => h.1) fun _ _ h => h
  · exact q_insertNode hl hP1 _ _ _ _
  · exact .bind (q_destroyNode hP1 _ _) fun _ => .pure _ fun _ h => h

theorem s_emplaceEqual (hdr : Ptr) : Sim E P (emplaceEqual less E.toElemOps hdr a) (RB.emplaceEqual lt hdr v) fun _ => Tried P P1 := by
  refine .bind (s_createNode hP hP1.grows.stable hc hdr) fun z => .bind .failed fun b => .ite (fun hb => .pure _ fun s h => h.1) fun hb => ?_
  refine Sim.weaken (P := fun s => P1 s ∧ NoErr s) (QSim.errs (Q := fun _ => P1) ?_).sim (fun _ h => h.1.ok (by rw [h.2]; exact hb)) fun _ _ h => .inr h
  refine q_ofNode hl hP1 fun q y => .bind (q_getInsertEqualPos hl (hP1.grows.and Knows.grows).calm (fun _ h => h.2) hdr) ?_
  rintro ⟨x, p⟩
  exact (q_insertNode hl hP1 _ _ _ _).weaken (fun _ h => h.1) fun _ _ h => h

theorem s_emplaceHintEqual (hdr pos : Ptr) : Sim E P (emplaceHintEqual less E.toElemOps hdr pos a) (RB.emplaceHintEqual lt hdr pos v)
    fun _ => Tried P P1 := by
  refine .bind (s_createNode hP hP1.grows.stable hc hdr) fun z => .bind .failed fun b => .ite (fun hb => .pure _ fun s h => h.1) fun hb => ?_
  refine Sim.weaken (P := fun s => P1 s ∧ NoErr s) (QSim.errs (Q := fun _ => P1) ?_).sim (fun _ h => h.1.ok (by rw [h.2]; exact hb)) fun _ _ h => .inr h
  refine q_ofNode hl hP1 fun q y => .bind (q_getInsertHintEqualPos hl (hP1.grows.and Knows.grows).calm (fun _ h => h.2) hdr pos) ?_
  rintro ⟨x, p⟩
  refine QSim.weaken (P := P1) (.ite (fun _ => ?_) fun _ => ?_) (fun _ h => h.1) fun _ _ h => h
  · exact q_insertNode hl hP1 _ _ _ _
  · exact q_insertEqualLowerNode hl hP1 _ _

end
end

/-! ### Copying -/

section
variable (hP : Loose E P)
include hP

theorem s_cloneNode (hdr x : Ptr) : Sim E P (cloneNode E.toElemOps hdr x) (RB.cloneNode hdr x : M (RB.W A) Ptr) fun _ => P := by
  unfold cloneNode RB.cloneNode keyOf
  rw [keyOf_eq, keyOf_eq]
  refine Sim.elem fun q y => ?_
  refine Sim.weaken (P := fun s => P s ∧ Knows E q y s) ?_ (fun _ h => ⟨h.1, h.2.2⟩) fun _ _ h => h
  have hG := hP.grows.and (Knows.grows (E := E) (t := q) (v := y))
  refine s_withNode (a := .obj q) (v := y) hG hP.grows.stable ((Ctor.copy (a := .obj q) (v := y) hG fun _ h => h.2).weaken fun _ h => h.1) hdr (fun _ h => h.1) fun z => ?_
  exact .weaken (P := P) (.rd fun _ _ => (n_cloneLinks z _).sim hP.grows.stable) (fun _ h => h.1) fun _ _ h => h

/-- Giving up a copy. -/
theorem s_giveUp (hdr top : Ptr) : Sim E P (do mErase E.toElemOps hdr top; pure Ptr.null) (do RB.mErase hdr top; pure Ptr.null : M (RB.W A) Ptr)
    fun _ => P := .bind (q_mErase hP hdr top).sim fun _ => .pure _ fun _ h => h

omit hP in
/-- A program that ends if there is an error. -/
theorem s_onError {k : M (ST S) α} {k' : M (ST S) α} {l l' : M (RB.W A) α} (h : Sim E P k l Q) :
    Sim E (fun s => P s ∧ ¬ NoErr s) (do if (← failed) then k else k') (do if (← hasErr) then l else l') Q :=
  .bind .failed fun b => .ite (fun _ => h.weaken (fun _ h => h.1.1) fun _ _ h => h) fun hb s w _ h =>
    (h.1.2 (isSome_false (by rw [h.2]; exact hb))).elim

omit hP in
/-- A program that goes on if there is no error. -/
theorem l_noError {k : M (ST S) α} {k' : M (ST S) α} {l l₁ l' l'₀ : M (RB.W A) α}
    (h : LSim E (fun s => P s ∧ NoErr s) k' l' l'₀ Q) :
    LSim E (fun s => P s ∧ NoErr s) (do if (← failed) then k else k') (do if (← hasErr) then l else l') (do if (← hasErr) then l₁ else l'₀) Q := by
  refine .bind' .failed (fun _ _ h => h.1.2) fun b => .ite (fun hb s w _ h => ?_) fun _ => h.weaken (fun _ h => h.1) fun _ _ h => h
  have h2 := h.2
  rw [show s.o.err = none from h.1.2, hb] at h2
  cases h2

omit hP in
/-- A recursive copy, and what follows if it failed. -/
theorem a_ite {l l₁ l₀ l'₀ : M (RB.W A) α} (h1 : Approx l l₁) (h2 : Approx l₀ l'₀) :
    Approx (do if (← hasErr) then l else l₀) (do if (← hasErr) then l₁ else l'₀) :=
  .bind (.refl _) fun _ => .ite (fun _ => h1) fun _ => h2

theorem l_mCopy (hdr x p : Ptr) : LSim E (fun s => P s ∧ NoErr s) (mCopy E.toElemOps hdr x p) (RB.mCopy hdr x p : M (RB.W A) Ptr)
    (RB.mCopy hdr x p) fun _ => P := by
  have hS := hP.grows.stable
  have hN : Stable fun s => P s ∧ NoErr s := hS.and NoErr.stable
  have key := RB.mCopy.fixpoint_induct (K := A) hdr
    (fun n => (∀ x p, LSim E (fun s => P s ∧ NoErr s) (mCopy E.toElemOps hdr x p) (n x p) (RB.mCopy hdr x p) fun _ => P) ∧
      ∀ x p, Approx (n x p) (RB.mCopy hdr x p))
    (fun n => (∀ t p x, LSim E (fun s => P s ∧ NoErr s) (mCopyLoop E.toElemOps hdr t p x) (n t p x) (RB.mCopyLoop hdr t p x) fun _ => P) ∧
      ∀ t p x, Approx (n t p x) (RB.mCopyLoop hdr t p x)) ?_ ?_ ?_ ?_
  · exact key.1 x p
  · exact admissible_and _ _ (admissible_pi_apply _ fun _ => admissible_pi_apply _ fun _ => LSim.admissible _ _ _ _)
      (admissible_pi_apply _ fun _ => admissible_pi_apply _ fun _ => Approx.admissible _)
  · exact admissible_and _ _ (admissible_pi_apply _ fun _ => admissible_pi_apply _ fun _ => admissible_pi_apply _ fun _ => LSim.admissible _ _ _ _)
      (admissible_pi_apply _ fun _ => admissible_pi_apply _ fun _ => admissible_pi_apply _ fun _ => Approx.admissible _)
  · rintro f g ⟨hf, af⟩ ⟨hg, ag⟩
    refine ⟨fun x p => ?_, fun x p => ?_⟩
    · rw [mCopy, RB.mCopy]
      refine .bind (((s_cloneNode hP hdr x).weaken (fun _ h => h.1) fun _ _ h => h)) (fun _ => ?_) fun top => ?_
      · exact s_onError (.pure _ fun _ h => h)
      · refine l_noError (.bind' ((n_setParent top p).sim hN) (fun _ _ h => h.2) fun _ => .rd fun _ _ => .ite (fun _ => ?_) fun _ => ?_)
        · refine .rd fun _ _ => .call (hf _ _) (af _ _) (fun r => ?_) fun r => ?_
          · exact .bind ((n_setRight top r).sim (hS.and fun s o _ h2 h0 h => h0 (h2.symm.trans h))) fun _ => s_onError (s_giveUp hP _ _)
          · exact .bind' ((n_setRight top r).sim hN) (fun _ _ h => h.2) fun _ => l_noError (.rd fun _ _ => hg _ _ _)
        · exact .rd fun _ _ => hg _ _ _
    · rw [RB.mCopy]
      exact .bind (.refl _) fun _ => a_ite (.refl _) (.bind (.refl _) fun _ => .bind (.refl _) fun _ => .ite (fun _ =>
        .bind (.refl _) fun _ => .bind (af _ _) fun _ => .bind (.refl _) fun _ => a_ite (.refl _) (.bind (.refl _) fun _ => ag _ _ _))
        fun _ => .bind (.refl _) fun _ => ag _ _ _)
  · rintro f g ⟨hf, af⟩ ⟨hg, ag⟩
    refine ⟨fun t p x => ?_, fun t p x => ?_⟩
    · rw [mCopyLoop, RB.mCopyLoop]
      refine .ite (fun _ => .bind (((s_cloneNode hP hdr x).weaken (fun _ h => h.1) fun _ _ h => h)) (fun _ => ?_) fun y => ?_) fun _ =>
        .of_sim (.pure _ fun _ h => h.1)
      · exact s_onError (s_giveUp hP _ _)
      · refine l_noError (.bind' ((n_setLeft p y).sim hN) (fun _ _ h => h.2) fun _ =>
          .bind' ((n_setParent y p).sim hN) (fun _ _ h => h.2) fun _ => .rd fun _ _ => .ite (fun _ => ?_) fun _ => ?_)
        · refine .rd fun _ _ => .call (hf _ _) (af _ _) (fun r => ?_) fun r => ?_
          · exact .bind ((n_setRight y r).sim (hS.and fun s o _ h2 h0 h => h0 (h2.symm.trans h))) fun _ => s_onError (s_giveUp hP _ _)
          · exact .bind' ((n_setRight y r).sim hN) (fun _ _ h => h.2) fun _ => l_noError (.rd fun _ _ => hg _ _ _)
        · exact .rd fun _ _ => hg _ _ _
    · rw [RB.mCopyLoop]
      exact .ite (fun _ => .bind (.refl _) fun _ => a_ite (.refl _) (.bind (.refl _) fun _ => .bind (.refl _) fun _ => .bind (.refl _) fun _ =>
        .ite (fun _ => .bind (.refl _) fun _ => .bind (af _ _) fun _ => .bind (.refl _) fun _ => a_ite (.refl _) (.bind (.refl _) fun _ => ag _ _ _))
        fun _ => .bind (.refl _) fun _ => ag _ _ _)) fun _ => .refl _

theorem s_mCopy (hdr x p : Ptr) : Sim E (fun s => P s ∧ NoErr s) (mCopy E.toElemOps hdr x p) (RB.mCopy hdr x p : M (RB.W A) Ptr) fun _ => P :=
  (l_mCopy hP hdr x p).sim

theorem s_copyNothrow (b : Bool) (hdr src : Ptr) :
    Sim E P (copyNothrow E.toElemOps b hdr src) (RB.copyNothrow b hdr src : M (RB.W A) Unit) fun _ => P := by
  have hS := hP.grows.stable
  refine .ite (fun _ => .bind (q_clear hP hdr).sim fun _ => .bind ((n_allocOnCopy b hdr src).sim hS) fun _ => .bind .failed fun _ =>
    .ite (fun _ => .pure _ fun _ h => h.1) fun _ => ?_) fun _ => .pure _ fun _ h => h
  refine .weaken (P := P) (.bind (Sim.tryCtor hP.grows) fun _ => .bind .failed fun b => .ite (fun _ => .pure _ fun _ h => h.1) fun hb => ?_)
    (fun _ h => h.1) fun _ _ h => h
  refine .weaken (P := fun s => P s ∧ NoErr s) (.rd fun _ _ => .ite (fun _ => .rd fun _ _ => .bind (s_mCopy hP _ _ _) fun _ => .bind .failed fun _ =>
    .ite (fun _ => .pure _ fun _ h => h.1) fun _ => ?_) fun _ => .pure _ fun _ h => h.1) (fun _ h => ⟨h.1, isSome_false (by rw [h.2]; exact hb)⟩) fun _ _ h => h
  exact ((n_adopt hdr src _).sim hS).weaken (fun _ h => h.1) fun _ _ h => h

end

end Nestl.TO
