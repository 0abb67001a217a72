import Verif.Own.Client
set_option autoImplicit false
/-
The effect of the calls on trees with a comparator each (helper lemmas).
-/
namespace Nestl.Own
open Nestl.RB Nestl.Set Nestl.Multi Nestl.Full
variable {K : Type}

section
variable {α : Type} {x : OW K} {w : W K} {C : Ptr → Less K}

theorem wp_lift {m : M (W K) α} {Q : α → OW K → Prop} : wp (lift m) x Q ↔ wp m x.w fun a w' => Q a ⟨w', x.cmp⟩ := by
  unfold wp lift
  cases h : m x.w with
  | none => simp
  | some r =>
    cases r with
    | error f => simp
    | ok p => simp

@[simp] theorem wp_getCmp {s : Ptr} {Q : Less K → OW K → Prop} : wp (getCmp s) x Q ↔ Q (x.cmp s) x := Iff.rfl

@[simp] theorem wp_setCmp {s : Ptr} {c : Less K} {Q : Unit → OW K → Prop} :
    wp (setCmp s c) x Q ↔ Q () ⟨x.w, put x.cmp s c⟩ := Iff.rfl

theorem wp_iff_of_eq {σ : Type} {m : M σ α} {s s' : σ} {a : α} (h : m s = some (.ok (a, s'))) {Q : α → σ → Prop} :
    wp m s Q ↔ Q a s' := by
  unfold wp; rw [h]

/-- The programs with stored comparators do the same to the memory as those without. -/
theorem osim {dflt : Less K} {c : FCall K} {Q : FRes K → W K → Prop} (h : wp (fexec (used dflt x.cmp c) c) x.w Q) :
    wp (oexec dflt (.on c)) x fun r x' => Q r x'.w ∧ CmpStep dflt x.cmp (.on c) r x'.w.err.isSome x'.cmp := by
  have same : ∀ {lt : Less K}, wp (fexec lt c) x.w Q → (∀ r b, CmpStep dflt x.cmp (.on c) r b x.cmp) →
      wp (lift (fexec lt c)) x fun r x' => Q r x'.w ∧ CmpStep dflt x.cmp (.on c) r x'.w.err.isSome x'.cmp := by
    intro lt h1 h2
    rw [wp_lift]
    exact wp_mono h1 fun r w' hq => ⟨hq, h2 _ _⟩
  cases c with
  | multi c =>
    cases c with
    | equal m s k =>
      simp only [oexec, FCall.keyed, MCall.keyed, wp_bind, wp_getCmp]
      exact same h fun _ _ => rfl
    | base c =>
      cases c with
      | create a =>
        simp only [fexec, mexec, Multi.index, iterArg, mrun, exec, newTree, wp_bind, wp_pure, wp_newObj] at h
        simp only [oexec, newTreeO, newTree, wp_bind, wp_lift, wp_setCmp, wp_pure, wp_newObj]
        exact ⟨h, rfl⟩
      | copy prop d s =>
        simp only [fexec, mexec, Multi.index, iterArg, mrun, exec, copyNothrow, wp_bind, wp_pure] at h
        simp only [oexec, copyNothrowO, wp_bind, wp_pure]
        by_cases e : d = s
        · subst e
          simp only [ne_eq, not_true_eq_false, if_false, wp_pure] at h ⊢
          refine ⟨h, .inl ?_⟩
          exact (put_self _ _).symm
        · simp only [ne_eq, e, not_false_eq_true, if_true, wp_bind, wp_lift] at h ⊢
          refine wp_mono h fun _ w1 h => ?_
          refine wp_mono h fun _ w2 h => ?_
          simp only [wp_hasErr] at h ⊢
          cases he : w2.err with
          | some er =>
            simp only [he, Option.isSome_some, if_true, wp_pure] at h ⊢
            exact ⟨h, .inr ⟨rfl, rfl⟩⟩
          | none =>
            simp only [he, Option.isSome_none, Bool.false_eq_true, if_false, wp_bind, wp_lift] at h ⊢
            cases hc : w2.env.ctor w2.nCtor with
            | false =>
              have e1 : (tryCtor w2 : _) = some (.ok (false, { w2 with nCtor := w2.nCtor + 1, err := some .ctorFailed })) := by
                simp [tryCtor, hc]
              rw [wp_iff_of_eq e1] at h ⊢
              simp only [wp_hasErr, Option.isSome_some, if_true, wp_pure, Bool.false_eq_true, if_false, wp_lift] at h ⊢
              exact ⟨h, .inr ⟨rfl, rfl⟩⟩
            | true =>
              have e1 : (tryCtor w2 : _) = some (.ok (true, { w2 with nCtor := w2.nCtor + 1 })) := by
                simp [tryCtor, hc]
              rw [wp_iff_of_eq e1] at h ⊢
              simp only [wp_hasErr, he, Option.isSome_none, Bool.false_eq_true, if_true, if_false, wp_pure, wp_lift, wp_bind,
                wp_getCmp, wp_setCmp] at h ⊢
              have h : wp (copyTree d s) { w2 with nCtor := w2.nCtor + 1, err := none } fun _ w' => Q (.multi ⟨.unit, 0⟩) w' := by
                simp only [copyTree, wp_bind]
                exact h
              exact wp_mono h fun _ w' hq => ⟨hq, .inl rfl⟩
      | move s =>
        simp only [fexec, mexec, Multi.index, iterArg, mrun, exec, moveCtor, wp_bind, wp_pure] at h
        simp only [oexec, moveCtorO, newTreeO, wp_bind, wp_pure, wp_lift, wp_getCmp, wp_setCmp]
        refine wp_mono h fun a w1 h => ?_
        refine wp_mono h fun hdr w2 h => ?_
        refine wp_mono h fun n w3 h => ?_
        split at h
        · next e =>
          rw [if_pos e]
          simp only [wp_bind, wp_pure] at h
          refine wp_mono h fun _ w4 h => ?_
          exact ⟨h, rfl⟩
        · next e =>
          rw [if_neg e]
          exact ⟨h, rfl⟩
      | insert s k =>
        simp only [oexec, FCall.keyed, MCall.keyed, Call.keyed, wp_bind, wp_getCmp]
        exact same h fun _ _ => rfl
      | eraseKey s k =>
        simp only [oexec, FCall.keyed, MCall.keyed, Call.keyed, wp_bind, wp_getCmp]
        exact same h fun _ _ => rfl
      | find s k =>
        simp only [oexec, FCall.keyed, MCall.keyed, Call.keyed, wp_bind, wp_getCmp]
        exact same h fun _ _ => rfl
      | _ =>
        simp only [oexec, FCall.keyed, MCall.keyed, Call.keyed]
        exact same h fun _ _ => rfl
  | swap prop s t =>
    simp only [fexec, swapTrees, wp_bind, wp_pure] at h
    simp only [oexec, swapTreesO, wp_bind, wp_getCmp, wp_setCmp, wp_lift, wp_pure]
    have key : ∀ {w1 : W K}, (wp (swapCounts s t) w1 fun _ w2 => wp (allocOnSwap prop s t) w2 fun _ w3 => Q .unit w3) →
        wp (swapCounts s t) w1 fun _ w2 => wp (allocOnSwap prop s t) w2 fun _ w3 =>
          Q .unit w3 ∧ CmpStep dflt x.cmp (.on (.swap prop s t)) .unit w3.err.isSome (put (put x.cmp s (x.cmp t)) t (x.cmp s)) := by
      intro w1 h
      exact wp_mono h fun _ w2 h => wp_mono h fun _ w3 h => ⟨h, rfl⟩
    refine wp_mono h fun n w1 h => ?_
    split at h
    · next e =>
      rw [if_pos e]
      simp only [wp_bind] at h ⊢
      refine wp_mono h fun m w2 h => ?_
      split at h
      · next e2 =>
        rw [if_pos e2]
        simp only [wp_bind] at h ⊢
        exact wp_mono h fun _ w3 h => key h
      · next e2 =>
        rw [if_neg e2]
        simp only [wp_bind] at h
        exact key h
    · next e =>
      rw [if_neg e]
      simp only [wp_bind] at h ⊢
      refine wp_mono h fun m w2 h => ?_
      split at h
      · next e2 =>
        rw [if_pos e2]
        simp only [wp_bind] at h ⊢
        exact wp_mono h fun _ w3 h => key h
      · next e2 =>
        rw [if_neg e2]
        simp only [wp_bind] at h ⊢
        refine wp_mono h fun _ w3 h => ?_
        refine wp_mono h fun _ w4 h => ?_
        refine wp_mono h fun _ w5 h => ?_
        refine wp_mono h fun _ w6 h => ?_
        exact wp_mono h fun _ w7 h => key h
  | assign prop d s =>
    simp only [fexec, wp_bind] at h
    simp only [oexec, moveAssignO, wp_bind, wp_getCmp, wp_setCmp, wp_lift]
    exact wp_mono h fun r w' hq => ⟨hq, rfl⟩
  | eraseKeys s ks =>
    simp only [oexec, FCall.keyed, wp_bind, wp_getCmp]
    exact same h fun _ _ => rfl
  | unique m s k =>
    simp only [oexec, FCall.keyed, wp_bind, wp_getCmp]
    exact same h fun _ _ => rfl

/-- Every tree is in the order of the comparator of its object. -/
def Ordered (C : Ptr → Less K) (w : W K) : Prop := ∀ s o t, Tree w.heap s o t → WSorted (C s) t.nodes

section
variable {w' : W K} {C' : Ptr → Less K} {s d : Ptr} {o o' o1 o2 : Nat} {t t' u v u' v' : T K} {P : List (Ptr × K) → Prop}

theorem Ordered.same (h : Ordered C w) (hh : w'.heap = w.heap) : Ordered C w' := by
  intro s o t ht; rw [hh] at ht; exact h s o t ht

theorem _root_.Nestl.Set.Change.ordered (hc : Change w w' s t t') (hI : InvP P w) (ht : Tree w.heap s o t) (ht' : Tree w'.heap s o' t')
    (hO : Ordered C w) (hn : WSorted (C' s) t'.nodes) (hC : ∀ x, x ≠ s → C' x = C x) : Ordered C' w' := by
  intro x ox tx hx
  by_cases e : x = s
  · subst e
    rw [(Tree.unique hx ht').2]; exact hn
  · rw [hC x e]
    obtain ⟨j, rfl⟩ := hx.ok.hdr
    exact hO _ _ _ (hc.other_inv hI ht e hx ht')

theorem _root_.Nestl.Full.Change2.ordered (hc : Change2 w w' s d u v u' v') (hI : InvP P w) (hu : Tree w.heap s o u)
    (hv : Tree w.heap d o' v) (hu' : Tree w'.heap s o1 u') (hv' : Tree w'.heap d o2 v') (hO : Ordered C w)
    (h1 : WSorted (C' s) u'.nodes) (h2 : WSorted (C' d) v'.nodes) (hC : ∀ x, x ≠ s → x ≠ d → C' x = C x) : Ordered C' w' := by
  intro x ox tx hx
  by_cases e1 : x = s
  · subst e1
    rw [(Tree.unique hx hu').2]; exact h1
  · by_cases e2 : x = d
    · subst e2
      rw [(Tree.unique hx hv').2]; exact h2
    · rw [hC x e1 e2]
      obtain ⟨j, rfl⟩ := hx.ok.hdr
      exact hO _ _ _ (hc.other_inv hI hu hv e1 e2 hx)

theorem _root_.Nestl.Set.Created.ordered (hc : Created w w' o) (hI : InvP P w) (hO : Ordered C w)
    (hC : ∀ x, x ≠ .stk w.sp → C' x = C x) : Ordered C' w' := by
  intro x ox tx hx
  by_cases e : x = .stk w.sp
  · subst e
    rw [(Tree.unique hx hc.tree).2]; simp [T.nodes, WSorted]
  · rw [hC x e]
    obtain ⟨j, rfl⟩ := hx.ok.hdr
    exact hO _ _ _ (hc.other_inv hI hx (by simpa using e))

theorem _root_.Nestl.Set.Moved.ordered (hc : Moved w w' s o t) (hI : InvP P w) (ht : Tree w.heap s o t) (hO : Ordered C w)
    (hC : ∀ x, x ≠ .stk w.sp → C' x = C x) (hn : C' (.stk w.sp) = C s) : Ordered C' w' := by
  intro x ox tx hx
  by_cases e : x = .stk w.sp
  · subst e
    rw [(Tree.unique hx hc.tree).2, hn]; exact hO _ _ _ ht
  · by_cases e2 : x = s
    · subst e2
      rw [(Tree.unique hx hc.srcTree).2]; simp [T.nodes, WSorted]
    · rw [hC x e]
      obtain ⟨j, rfl⟩ := hx.ok.hdr
      exact hO _ _ _ (hc.other_inv hI ht hx e2 (by simpa using e))

theorem _root_.Nestl.Set.Destroyed.ordered (hc : Destroyed w w' s t) (hI : InvP P w) (ht : Tree w.heap s o t) (hO : Ordered C w) :
    Ordered C w' := by
  intro x ox tx hx
  obtain ⟨j, rfl⟩ := hx.ok.hdr
  exact hO _ _ _ (hc.other_inv hI ht hx).2

theorem closedTrue (S : Prop) (lt : Less K) : ClosedS S lt (fun _ => True) := ⟨trivial, fun _ _ _ _ _ _ => trivial, fun _ _ _ _ => trivial, fun _ _ _ _ => trivial⟩

/-- The structure of memory is kept, whatever the order of the elements. -/
theorem structural {S : Prop} {lt : Less K} {c : FCall K} {r : FRes K} (h : FEffectS S lt w c r w') (hI : InvP (fun _ => True) w) :
    InvP (fun _ => True) w' := by
  cases h with
  | multi h =>
    cases h with
    | base he => exact he.invP (closedTrue S lt) hI
    | fail _ _ he hh => exact hI.same he hh
    | new ht ht' _ _ _ hc => exact hc.inv hI ht ht' trivial
  | swapSelf => exact hI
  | swap hne hu hv hu' hv' hc => exact hc.inv hne hI hu hv hu' hv' trivial trivial
  | assign hne _ hu hv hu' hv' hc => exact hc.inv hne hI hu hv hu' hv' trivial trivial
  | assignSelf hu hu' hc => exact hc.inv hI hu hu' trivial
  | assignRefused => exact hI
  | eraseKeys hu hu' hc hsub => exact hc.inv hI hu hu' trivial
  | uniqueOld _ _ _ _ hh he => exact hI.same he hh
  | uniqueFail _ hh he => exact hI.same he hh
  | uniqueNew hu hu' _ _ _ hc => exact hc.inv hI hu hu' trivial

theorem wsorted_keys {lt : Less K} {L L' : List (Ptr × K)} (h : L.map Prod.snd = L'.map Prod.snd) (hs : SWO lt) (hL : WSorted lt L) :
    WSorted lt L' := (Closed.wsorted lt).keys L L' h (fun _ => hL) hs

/-- Calls keep every tree in the order of its comparator. -/
theorem ordered_step {dflt : Less K} {c : FCall K} {r : FRes K} (h : FEffect (used dflt C c) w c r w')
    (hI : InvP (fun _ => True) w) (hS : ∀ s, SWO (C s)) (hO : Ordered C w) (hC : CmpStep dflt C (.on c) r w'.err.isSome C')
    (hv : ∀ prop d s, c = .assign prop d s → prop = true ∨ SameAlloc w d s ∨ C d = C s) : Ordered C' w' := by
  have hnil : ∀ lt : Less K, WSorted lt ([] : List (Ptr × K)) := fun _ => by simp [WSorted]
  cases h with
  | multi h =>
    cases h with
    | base he =>
      cases he with
      | create hc _ =>
        simp only [CmpStep] at hC; subst hC
        exact hc.ordered hI hO fun x hx => put_other _ _ hx
      | insertOld _ _ _ _ hh he => cases hC; exact hO.same hh
      | insertFail _ _ _ hh he => cases hC; exact hO.same hh
      | @insertNew s k _ o t t' A B a ht ht' hn hn' hcut hc =>
        cases hC
        refine hc.ordered hI ht ht' hO ?_ fun _ _ => rfl
        have := hO _ _ _ ht
        rw [hn] at this
        rw [hn']
        have hs : SWO (C s) := hS s
        exact WSorted.insert this ⟨fun a ha => hs.asymm ((hcut hs).1 a ha), fun b hb => hs.asymm ((hcut hs).2 b hb)⟩
      | eraseKey ht ht' hn hn' _ hc =>
        cases hC
        refine hc.ordered hI ht ht' hO ?_ fun _ _ => rfl
        rw [hn']; exact WSorted.remove (hn ▸ hO _ _ _ ht)
      | @eraseAt s z k w' o t t' A B ht ht' hn hn' hc =>
        cases hC
        refine hc.ordered hI ht ht' hO ?_ fun _ _ => rfl
        rw [hn']
        refine WSorted.remove (M := [(z, k)]) ?_
        have := hO _ _ _ ht
        rw [hn] at this
        simpa using this
      | eraseRange ht ht' hn hn' hc =>
        cases hC
        refine hc.ordered hI ht ht' hO ?_ fun _ _ => rfl
        rw [hn']; exact WSorted.remove (hn ▸ hO _ _ _ ht)
      | clear ht ht' hc =>
        cases hC
        exact hc.ordered hI ht ht' hO (hnil _) fun _ _ => rfl
      | findNone _ _ _ _ hh he => cases hC; exact hO.same hh
      | findSome _ _ _ _ hh he => cases hC; exact hO.same hh
      | @copySelf prop s _ he _ =>
        subst he
        have : C' = C := by
          rcases hC with hC | hC
          · rw [hC, put_self]
          · exact hC.2
        rw [this]; exact hO
      | copyFail _ ht _ ht' hc =>
        refine hc.ordered hI ht ht' hO (hnil _) fun x hx => ?_
        rcases hC with hC | hC
        · rw [hC, put_other _ _ hx]
        · rw [hC.2]
      | @copyOk prop d s w' o o' t0 t t2 _ ht hs ht' hl hc he _ =>
        have hC : C' = put C d (C s) := by
          rcases hC with hC | hC
          · exact hC
          · simp [he] at hC
        subst hC
        refine hc.ordered hI ht ht' hO ?_ fun x hx => put_other _ _ hx
        rw [put_same]
        exact wsorted_keys hl.keys.symm (hS s) (hO _ _ _ hs)
      | move ht hc =>
        simp only [CmpStep] at hC; subst hC
        exact hc.ordered hI ht hO (fun x hx => put_other _ _ hx) (put_same _ _ _)
      | destroy ht hc => cases hC; exact hc.ordered hI ht hO
    | fail _ _ he hh => cases hC; exact hO.same hh
    | new ht ht' hn hn' hp hc =>
      cases hC
      refine hc.ordered hI ht ht' hO ?_ fun _ _ => rfl
      have := hO _ _ _ ht
      rw [hn] at this
      rw [hn']
      exact WSorted.insert this ((hp (hS _)).wcut (hS _))
  | swapSelf => simp only [CmpStep, put_self] at hC; subst hC; exact hO
  | @swap prop s t o o' u v H' hne hu hx hu' hv' hc =>
    simp only [CmpStep] at hC; subst hC
    refine hc.ordered hI hu hx hu' hv' hO ?_ ?_ fun x h1 h2 => by rw [put_other _ _ h2, put_other _ _ h1]
    · rw [put_other _ _ hne, put_same]; exact hO _ _ _ hx
    · rw [put_same]; exact hO _ _ _ hu
  | @assign prop d s o o' u v H' hne _ hu hx hu' hv' hc =>
    simp only [CmpStep] at hC; subst hC
    refine hc.ordered hI hu hx hu' hv' hO ?_ (hnil _) fun x h1 h2 => put_other _ _ h1
    rw [put_same]; exact hO _ _ _ hx
  | assignSelf hu hu' hc =>
    simp only [CmpStep, put_self] at hC; subst hC
    exact hc.ordered hI hu hu' hO (hnil _) fun _ _ => rfl
  | @assignRefused d s o o' u v hu hv' hne =>
    simp only [CmpStep] at hC; subst hC
    rcases hv _ _ _ rfl with h | ⟨a, ⟨n, h1, h2⟩, ⟨m, h3, h4⟩⟩ | h
    · cases h
    · exfalso
      apply hne
      rw [hu.cell] at h1
      rw [hv'.cell] at h3
      cases h1; cases h3
      exact h2.trans h4.symm
    · rw [← h, put_self]; exact hO
  | eraseKeys hu hu' hc hsub =>
    cases hC
    exact hc.ordered hI hu hu' hO ((hO _ _ _ hu).sublist hsub) fun _ _ => rfl
  | uniqueOld _ _ _ _ hh he =>
    cases hC; exact hO.same hh
  | uniqueFail _ hh he => cases hC; exact hO.same hh
  | @uniqueNew m s k o t t' A B a _ hu hu' hn hn' hcut hc =>
    cases hC
    refine hc.ordered hI hu hu' hO ?_ fun _ _ => rfl
    have := hO _ _ _ hu
    rw [hn] at this
    rw [hn']
    have hs : SWO (C s) := hS s
    exact WSorted.insert this ⟨fun a ha => hs.asymm ((hcut hs).1 a ha), fun b hb => hs.asymm ((hcut hs).2 b hb)⟩

/-- The comparators are strict weak orders. -/
theorem swo_step {dflt : Less K} {c : OCall K} {r : FRes K} {b : Bool} (hd : SWO dflt) (hS : ∀ s, SWO (C s))
    (hC : CmpStep dflt C c r b C') (hcr : ∀ comp a, c = .create comp a → SWO comp) : ∀ s, SWO (C' s) := by
  have hput : ∀ (C : Ptr → Less K) x l, (∀ s, SWO (C s)) → SWO l → ∀ s, SWO (put C x l s) := by
    intro C x l h1 h2 s
    unfold put
    split
    · exact h2
    · exact h1 s
  unfold CmpStep at hC
  split at hC
  · subst hC; exact hput _ _ _ hS (hcr _ _ rfl)
  · subst hC; exact hput _ _ _ hS hd
  · rcases hC with hC | ⟨_, hC⟩
    · subst hC; exact hput _ _ _ hS (hS _)
    · subst hC; exact hS
  · subst hC; exact hput _ _ _ hS (hS _)
  · subst hC; exact hput _ _ _ (hput _ _ _ hS (hS _)) (hS _)
  · subst hC; exact hput _ _ _ hS (hS _)
  · subst hC; exact hS

/-- The invariant of programs whose objects have a comparator each. -/
structure OInv (x : OW K) : Prop where
  mem : InvP (fun _ => True) x.w
  swo : ∀ s, SWO (x.cmp s)
  ord : Ordered x.cmp x.w

theorem OInv.start {dflt : Less K} (hd : SWO dflt) (env : Env (TNode K)) : OInv (ostart dflt env) :=
  ⟨InvP.start env, fun _ => hd, fun s o t h => absurd rfl h.ne_none⟩

theorem OInv.ready (h : OInv x) : OInv (oready x) := ⟨h.mem.ready, h.swo, h.ord⟩

theorem OInv.weakIn {dflt : Less K} {c : FCall K} (h : OInv x) : WeakIn (used dflt x.cmp c) x.w c.keyed := by
  intro s o t e ht _
  unfold used
  rw [e]
  exact h.ord s o t ht

theorem used_swo {dflt : Less K} (hd : SWO dflt) (hS : ∀ s, SWO (C s)) (c : FCall K) : SWO (used dflt C c) := by
  unfold used
  split
  · exact hS _
  · exact hd

/-- What a call does. -/
theorem OInv.call {dflt : Less K} {c : FCall K} (hI : OInv x) (hd : SWO dflt) (hv : OValid dflt x (.on c)) :
    wp (oexec dflt (.on c)) (oready x) fun r x' => FEffect (used dflt x.cmp c) (Set.ready x.w) c r x'.w ∧
      CmpStep dflt x.cmp (.on c) r x'.w.err.isSome x'.cmp ∧ OInv x' := by
  have hR := hI.ready
  refine wp_mono (osim (x := oready x) (fexec_effect_in hR.mem hR.weakIn (FValid.ready hI.mem hv.1) rfl)) ?_
  rintro r x' ⟨h1, h2⟩
  refine ⟨h1, h2, structural h1 hR.mem, swo_step hd hI.swo h2 (by intro _ _ h; cases h), ?_⟩
  refine ordered_step h1 hR.mem hI.swo hR.ord h2 ?_
  rintro prop d s rfl
  exact hv.2

/-- What the construction with a comparator does. -/
theorem OInv.create {dflt comp : Less K} {a : Nat} (hI : OInv x) (hd : SWO dflt) (hv : SWO comp) :
    wp (oexec dflt (.create comp a)) (oready x) fun r x' => FEffect dflt (Set.ready x.w) (.multi (.base (.create a))) r x'.w ∧
      CmpStep dflt x.cmp (.create comp a) r x'.w.err.isSome x'.cmp ∧ OInv x' := by
  have hR := hI.ready
  have h := fexec_effect_in (lt := dflt) (c := .multi (.base (.create a))) hR.mem (by intro s o t e; cases e)
    (show FValid dflt (oready x).w (.multi (.base (.create a))) from trivial) rfl
  simp only [fexec, mexec, Multi.index, iterArg, mrun, exec, newTree, wp_bind, wp_pure, wp_newObj] at h
  simp only [oexec, newTreeO, newTree, wp_bind, wp_lift, wp_setCmp, wp_pure, wp_newObj]
  refine ⟨h, rfl, structural h hR.mem, swo_step (dflt := dflt) (c := .create comp a) (r := .multi ⟨.obj (.stk (oready x).w.sp), 0⟩)
    (b := false) (C := x.cmp) hd hI.swo rfl (by rintro _ _ h; cases h; exact hv), ?_⟩
  cases h with
  | multi h =>
    cases h with
    | base he =>
      cases he with
      | create hc _ => exact hc.ordered hR.mem hR.ord fun y hy => put_other _ _ hy

end

section
variable {dflt : Less K} {env : Env (TNode K)} {h : List (OEntry K)}

theorem OHist.inv (hh : OHist dflt env h x) (hd : SWO dflt) : OInv x := by
  induction hh with
  | start => exact OInv.start hd env
  | create _ hv hr ih => exact (Runs.wp (ih.create hd hv) hr).2.2
  | call _ hv hr ih => exact (Runs.wp (ih.call hd hv) hr).2.2

theorem OHist.kabs (hh : OHist dflt env h x) (hd : SWO dflt) : KAbs x.w (ownRun h) := by
  induction hh with
  | start => intro s o t h; exact absurd rfl h.ne_none
  | create hp hv hr ih =>
    have hI := hp.inv hd
    exact FEffect.kabs (Runs.wp (hI.create hd hv) hr).1 hI.mem.ready hd (ih.same rfl)
  | call hp hv hr ih =>
    have hI := hp.inv hd
    exact FEffect.kabs (Runs.wp (hI.call hd hv) hr).1 hI.mem.ready (used_swo hd hI.swo _) (ih.same rfl)

theorem OReach.inv (h : OReach dflt x) (hd : SWO dflt) : OInv x := by
  obtain ⟨env, h, hh⟩ := h; exact hh.inv hd

end

end
end Nestl.Own
