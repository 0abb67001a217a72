import Verif.TreeOf.Client
import Verif.Full.Steps
set_option autoImplicit false
/-
Trees of values meet the specification of Verif/TreeOf/Client.lean (helper lemmas).
-/
namespace Nestl.TO
open Nestl.RB Nestl.Set Nestl.Multi Nestl.Full
variable {K : Type}

/-- Trees with any contents. -/
abbrev TInv (w : W K) : Prop := InvP (fun _ => True) w

/-- The trees in memory. -/
def Abs (w : W K) (B : AState K) : Prop := ∀ p o L, B p = some (o, L) ↔ ∃ t, Tree w.heap p o t ∧ L = t.nodes

section
variable {w w' : W K} {B B' : AState K} {lt : K → K → Bool} {s d : Ptr} {o o' o1 o2 : Nat} {t t' u v u' v' : T K} {S : Prop}

open Classical in
theorem Abs.exists (w : W K) : ∃ B, Abs w B := by
  refine ⟨fun p => if h : ∃ x : Nat × T K, Tree w.heap p x.1 x.2 then some (h.choose.1, h.choose.2.nodes) else none, ?_⟩
  intro p o L
  constructor
  · intro h
    dsimp only at h
    split at h
    · next h' =>
      cases h
      exact ⟨_, h'.choose_spec, rfl⟩
    · cases h
  · rintro ⟨t, ht, rfl⟩
    have h' : ∃ x : Nat × T K, Tree w.heap p x.1 x.2 := ⟨(o, t), ht⟩
    dsimp only
    rw [dif_pos h']
    obtain ⟨h1, h2⟩ := Tree.unique h'.choose_spec ht
    rw [h1, h2]

theorem Abs.tree (h : Abs w B) (ht : Tree w.heap s o t) : B s = some (o, t.nodes) := (h _ _ _).2 ⟨t, ht, rfl⟩

theorem Abs.none (h : Abs w B) (hs : w.heap s = Option.none) : B s = Option.none := by
  cases e : B s with
  | none => rfl
  | some x =>
    obtain ⟨t, ht, -⟩ := (h s x.1 x.2).1 e
    exact (ht.ne_none hs).elim

theorem Abs.unique (h : Abs w B) (h' : Abs w B') : B = B' := by
  funext p
  cases e : B p with
  | none =>
    cases e' : B' p with
    | none => rfl
    | some x => rw [(h p x.1 x.2).2 ((h' p x.1 x.2).1 e')] at e; cases e
  | some x => exact ((h' p x.1 x.2).2 ((h p x.1 x.2).1 e)).symm

theorem Abs.same (h : Abs w B) (hh : w'.heap = w.heap) : Abs w' B := by unfold Abs; rw [hh]; exact h

theorem Change.abs (hc : Change w w' s t t') (hI : TInv w) (ht : Tree w.heap s o t) (ht' : Tree w'.heap s o' t') (hA : Abs w B) :
    Abs w' (put B s (some (o', t'.nodes))) := by
  intro p a L
  unfold put
  split
  · next e =>
    subst e
    constructor
    · intro h; cases h; exact ⟨t', ht', rfl⟩
    · rintro ⟨t2, h1, rfl⟩
      obtain ⟨rfl, rfl⟩ := Tree.unique h1 ht'
      rfl
  · next e =>
    rw [hA]
    constructor
    · rintro ⟨t2, h1, rfl⟩
      obtain ⟨i, rfl⟩ := h1.ok.hdr
      exact ⟨t2, hc.other hI ht e h1 ht', rfl⟩
    · rintro ⟨t2, h1, rfl⟩
      obtain ⟨i, rfl⟩ := h1.ok.hdr
      exact ⟨t2, hc.other_inv hI ht e h1 ht', rfl⟩

theorem Change2.abs (hc : Change2 w w' s d u v u' v') (hI : TInv w) (hu : Tree w.heap s o u) (hv : Tree w.heap d o' v)
    (hu' : Tree w'.heap s o1 u') (hv' : Tree w'.heap d o2 v') (hA : Abs w B) :
    Abs w' (put (put B s (some (o1, u'.nodes))) d (some (o2, v'.nodes))) := by
  intro p a L
  unfold put
  split
  · next e =>
    subst e
    constructor
    · intro h; cases h; exact ⟨v', hv', rfl⟩
    · rintro ⟨t2, h1, rfl⟩
      obtain ⟨rfl, rfl⟩ := Tree.unique h1 hv'
      rfl
  · next e =>
    split
    · next e' =>
      subst e'
      constructor
      · intro h; cases h; exact ⟨u', hu', rfl⟩
      · rintro ⟨t2, h1, rfl⟩
        obtain ⟨rfl, rfl⟩ := Tree.unique h1 hu'
        rfl
    · next e' =>
      rw [hA]
      constructor
      · rintro ⟨t2, h1, rfl⟩
        obtain ⟨i, rfl⟩ := h1.ok.hdr
        exact ⟨t2, hc.other hI hu hv e' e h1, rfl⟩
      · rintro ⟨t2, h1, rfl⟩
        obtain ⟨i, rfl⟩ := h1.ok.hdr
        exact ⟨t2, hc.other_inv hI hu hv e' e h1, rfl⟩

theorem Created.abs (hc : Created w w' o) (hI : TInv w) (hA : Abs w B) : Abs w' (put B (.stk w.sp) (some (o, []))) := by
  intro p a L
  unfold put
  split
  · next e =>
    subst e
    constructor
    · intro h; cases h; exact ⟨.nil, hc.tree, rfl⟩
    · rintro ⟨t2, h1, rfl⟩
      obtain ⟨rfl, rfl⟩ := Tree.unique h1 hc.tree
      rfl
  · next e =>
    rw [hA]
    constructor
    · rintro ⟨t2, h1, rfl⟩
      obtain ⟨i, rfl⟩ := h1.ok.hdr
      exact ⟨t2, hc.other hI h1, rfl⟩
    · rintro ⟨t2, h1, rfl⟩
      obtain ⟨i, rfl⟩ := h1.ok.hdr
      exact ⟨t2, hc.other_inv hI h1 (by simpa using e), rfl⟩

theorem Moved.abs (hc : Moved w w' s o t) (hI : TInv w) (ht : Tree w.heap s o t) (hA : Abs w B) :
    Abs w' (put (put B (.stk w.sp) (some (o, t.nodes))) s (some (o, []))) := by
  intro p a L
  unfold put
  split
  · next e =>
    subst e
    constructor
    · intro h; cases h; exact ⟨.nil, hc.srcTree, rfl⟩
    · rintro ⟨t2, h1, rfl⟩
      obtain ⟨rfl, rfl⟩ := Tree.unique h1 hc.srcTree
      rfl
  · next e =>
    split
    · next e' =>
      subst e'
      constructor
      · intro h; cases h; exact ⟨t, hc.tree, rfl⟩
      · rintro ⟨t2, h1, rfl⟩
        obtain ⟨rfl, rfl⟩ := Tree.unique h1 hc.tree
        rfl
    · next e' =>
      rw [hA]
      constructor
      · rintro ⟨t2, h1, rfl⟩
        obtain ⟨i, rfl⟩ := h1.ok.hdr
        exact ⟨t2, hc.other hI ht h1 e, rfl⟩
      · rintro ⟨t2, h1, rfl⟩
        obtain ⟨i, rfl⟩ := h1.ok.hdr
        exact ⟨t2, hc.other_inv hI ht h1 e (by simpa using e'), rfl⟩

theorem Destroyed.abs (hc : Destroyed w w' s t) (hI : TInv w) (ht : Tree w.heap s o t) (hA : Abs w B) : Abs w' (put B s none) := by
  intro p a L
  unfold put
  split
  · next e =>
    subst e
    constructor
    · intro h; cases h
    · rintro ⟨t2, h1, rfl⟩
      exact (h1.ne_none hc.hdrGone).elim
  · next e =>
    rw [hA]
    constructor
    · rintro ⟨t2, h1, rfl⟩
      obtain ⟨i, rfl⟩ := h1.ok.hdr
      exact ⟨t2, hc.other hI ht h1 e, rfl⟩
    · rintro ⟨t2, h1, rfl⟩
      obtain ⟨i, rfl⟩ := h1.ok.hdr
      exact ⟨t2, (hc.other_inv hI ht h1).2, rfl⟩

theorem Abs.unused (hA : Abs w B) {q : Ptr} (hq : w.heap q = Option.none) : Unused B q := by
  intro s o L h hm
  obtain ⟨t, ht, rfl⟩ := (hA s o L).1 h
  obtain ⟨n, hn, -⟩ := Rep_alloc ht.rep q hm
  rw [hq] at hn; cases hn

/-- The result without what the client has read itself. -/
def strip : FRes K → TO.Res
  | .multi ⟨.unit, _⟩ => .unit
  | .multi ⟨.obj p, _⟩ => .obj p
  | .multi ⟨.pos p, _⟩ => .pos p
  | .multi ⟨.ins p b, _⟩ => .ins p b
  | .multi ⟨.num n, _⟩ => .num n
  | .multi ⟨.erased p _, _⟩ => .pos p
  | .multi ⟨.erasedRange p _, _⟩ => .pos p
  | .unit => .unit
  | .ok b => .ok b
  | .pos p => .pos p
  | .ins p b => .ins p b

theorem strip_ures (m : UMode) (p : Ptr) (b : Bool) : strip (uresult m p b : FRes K) = ures m p b := by cases m <;> rfl

theorem put_put_self (B : AState K) (s : Ptr) : put (put B s (B s)) s (B s) = B := by
  funext p; unfold put; split
  · next e => rw [e]
  · rfl

/-- The elements of the tree in which the call searches are in order. -/
def OrdIn (lt : K → K → Bool) (B : AState K) (c : FCall K) : Prop :=
  SWO lt ∧ ∀ s o L, c.keyed = some s → B s = some (o, L) → WSorted lt L

theorem OrdIn.of {c : FCall K} {L : List (Ptr × K)} (h : Ordered lt L) (hk : c.keyed = some s) (hB : B s = some (o, L)) : OrdIn lt B c := by
  refine ⟨h.1, fun s' o' L' h1 h2 => ?_⟩
  rw [hk] at h1; cases h1
  rw [hB] at h2; cases h2
  exact h.2

theorem cut_absent {k : K} {Y Z : List (Ptr × K)} (h : Cut lt k Y Z) : ∀ x ∈ Y ++ Z, ¬ Equiv lt x.2 k := by
  intro x hx he
  rcases List.mem_append.1 hx with hx | hx
  · have := he.1; rw [h.1 x hx] at this; cases this
  · have := he.2; rw [h.2 x hx] at this; cases this

theorem find_absent {k : K} {Y Z : List (Ptr × K)} (ho : Ordered lt (Y ++ Z)) (hl : LCut lt k Y Z)
    (h1 : ∀ b Z', Z = b :: Z' → lt k b.2 = true) : ∀ x ∈ Y ++ Z, ¬ Equiv lt x.2 k := by
  rintro x hx ⟨q1, q2⟩
  rcases List.mem_append.1 hx with hx | hx
  · rw [hl.1 x hx] at q1; cases q1
  · cases Z with
    | nil => cases hx
    | cons b Z =>
      have h2 := h1 b Z rfl
      rcases List.mem_cons.1 hx with rfl | hx
      · rw [h2] at q2; cases q2
      · have h3 := (List.pairwise_append.1 ho.2).2.1
        have h4 := List.rel_of_pairwise_cons h3 hx
        rcases ho.1.cotrans k x.2 b.2 h2 with h5 | h5
        · rw [h5] at q2; cases q2
        · rw [h5] at h4; cases h4

theorem base_spec {c : Set.Call K} {r : Set.Res K} {n : Nat} (h : EffectS (OrdIn lt B (.multi (.base c))) lt w c r w') (hI : TInv w)
    (hA : Abs w B) (hv : Set.Valid w c) :
    ∃ B', Abs w' B' ∧ Spec lt B (.multi (.base c)) (strip (.multi ⟨r, n⟩)) w'.err.isSome B' := by
  cases h with
  | create hc he => exact ⟨_, Created.abs hc hI hA, _, rfl, hA.none hI.fresh_stk, by rw [he]; rfl, rfl⟩
  | insertOld ht hn h1 h2 hh he herr =>
    refine ⟨B, hA.same hh, .inl ⟨_, rfl, by rw [herr]; rfl, ⟨_, _, _, hA.tree ht, by rw [hn]; simp, h1, fun ho => ⟨h1, ?_⟩⟩, rfl⟩⟩
    exact h2 (.of ho rfl (hA.tree ht))
  | insertFail ht hn hcut hh he herr =>
    refine ⟨B, hA.same hh, .inr (.inl ⟨rfl, by rw [herr]; rfl, ⟨_, _, hA.tree ht, fun ho => ?_⟩, rfl⟩)⟩
    rw [hn]
    exact cut_absent (hcut (.of ho rfl (hA.tree ht)))
  | insertNew ht ht' hn hn' hcut hc hf herr =>
    refine ⟨_, Change.abs hc hI ht ht' hA, .inr (.inr ⟨_, rfl, by rw [herr]; rfl, _, _, _, (hA.tree ht).trans (by rw [hn]), by rw [hn'],
      hA.unused hf.none, fun ho => ?_⟩)⟩
    rw [← hn] at ho
    exact hcut (.of ho rfl (hA.tree ht))
  | eraseKey ht ht' hn hn' hcut hc herr =>
    refine ⟨_, Change.abs hc hI ht ht' hA, _, _, _, _, (hA.tree ht).trans (by rw [hn]), rfl, by rw [herr]; rfl, by rw [hn'], fun ho => ?_⟩
    rw [← hn] at ho
    exact hcut (.of ho rfl (hA.tree ht))
  | eraseAt ht ht' hn hn' hc herr =>
    exact ⟨_, Change.abs hc hI ht ht' hA, _, _, _, _, (hA.tree ht).trans (by rw [hn]), by rw [posOf_eq]; rfl, by rw [herr]; rfl, by rw [hn']⟩
  | eraseRange ht ht' hn hn' hc herr =>
    exact ⟨_, Change.abs hc hI ht ht' hA, _, _, _, _, (hA.tree ht).trans (by rw [hn]), by rw [posOf_eq], by rw [posOf_eq], rfl,
      by rw [herr]; rfl, by rw [hn']⟩
  | clear ht ht' hc herr => exact ⟨_, Change.abs hc hI ht ht' hA, _, _, hA.tree ht, rfl, by rw [herr]; rfl, rfl⟩
  | findNone ht hn h1 hcut hh he herr =>
    refine ⟨B, hA.same hh, by rw [herr]; rfl, rfl, .inl ⟨rfl, _, _, hA.tree ht, fun ho => ?_⟩⟩
    have hl := hcut (.of ho rfl (hA.tree ht))
    rw [hn] at ho ⊢
    exact find_absent ho hl h1
  | findSome ht hn h1 h2 hh he herr =>
    exact ⟨B, hA.same hh, by rw [herr]; rfl, rfl, .inr ⟨_, _, _, _, hA.tree ht, by rw [hn]; simp, rfl, h1, h2⟩⟩
  | copySelf he herr =>
    subst he
    obtain ⟨i, o, t, rfl, _, ht, _⟩ := hI.tree hv.1
    exact ⟨B, hA, rfl, .inl ⟨rfl, by rw [hA.tree ht]; simp, by rw [herr]; rfl, rfl⟩⟩
  | copyFail hne ht hs ht' hc herr =>
    refine ⟨_, Change.abs hc hI ht ht' hA, rfl, .inr ⟨_, _, _, _, _, hne, hA.tree ht, hA.tree hs, rfl, ?_⟩⟩
    rw [herr]; rfl
  | copyOk hne ht hs ht' hl hc herr =>
    refine ⟨_, Change.abs hc hI ht ht' hA, rfl, .inr ⟨_, _, _, _, _, hne, hA.tree ht, hA.tree hs, rfl, ?_⟩⟩
    rw [herr]; exact hl.keys
  | move ht hc herr => exact ⟨_, Moved.abs hc hI ht hA, _, _, _, rfl, hA.none hI.fresh_stk, hA.tree ht, by rw [herr]; rfl, rfl⟩
  | destroy ht hc herr => exact ⟨_, Destroyed.abs hc hI ht hA, by rw [hA.tree ht]; simp, rfl, by rw [herr]; rfl, rfl⟩

theorem effect_spec {c : FCall K} {r : FRes K} (h : FEffectS (OrdIn lt B c) lt w c r w') (hI : TInv w) (hA : Abs w B)
    (hval : FValid lt w c) (herr : w.err = none) : ∃ B', Abs w' B' ∧ Spec lt B c (strip r) w'.err.isSome B' := by
  cases h with
  | multi h =>
    cases h with
    | base h hi => exact base_spec h hI hA hval
    | fail ht hr he hh herr => exact ⟨B, hA.same hh, .inl ⟨rfl, by rw [herr]; rfl, by rw [hA.tree ht]; simp, rfl⟩⟩
    | new ht ht' hn hn' hp hc hf herr hr hidx =>
      rename_i m s k n o t t' Y Z a c _ _ _
      refine ⟨_, Change.abs hc hI ht ht' hA, .inr ⟨_, rfl, by rw [herr]; rfl, _, _, _, (hA.tree ht).trans (by rw [hn]), by rw [hn'],
        hA.unused hf.none, fun ho => ?_⟩⟩
      have ho' := ho
      rw [← hn] at ho'
      have hp := hp (.of ho' (by cases m <;> rfl) (hA.tree ht))
      cases m with
      | upper => exact hp
      | lower => exact hp
      | hint pos =>
        obtain ⟨o', t2, Y0, Z0, h1, h2, h3, h4⟩ := hidx
        obtain ⟨-, rfl⟩ := Tree.unique h1 ht
        have hp : Near lt k (t2.nodes.take n) (t2.nodes.drop n) Y Z := hp
        rw [h2, h4, List.take_left, List.drop_left] at hp
        exact ⟨Y0, Z0, hn.symm.trans h2, by rw [posOf_eq]; exact h3, hp⟩
  | swapSelf =>
    obtain ⟨i, o, t, rfl, _, ht, _⟩ := hI.tree hval.1
    have := hA.tree ht
    exact ⟨B, hA, by rw [this]; simp, by rw [this]; simp, rfl, by rw [herr]; rfl, (put_put_self _ _).symm⟩
  | swap hne hu hv hu' hv' hc =>
    refine ⟨_, Change2.abs hc hI hu hv hu' hv' hA, by rw [hA.tree hu]; simp, by rw [hA.tree hv]; simp, rfl,
      by show w.err.isSome = false; rw [herr]; rfl, ?_⟩
    rw [hA.tree hu, hA.tree hv]
  | assign hne hp hu hv hu' hv' hc =>
    exact ⟨_, Change2.abs hc hI hu hv hu' hv' hA, _, _, _, _, hA.tree hu, hA.tree hv,
      by show w.err.isSome = false; rw [herr]; rfl, .inr ⟨hp, rfl, rfl⟩⟩
  | assignSelf hu hu' hc =>
    refine ⟨_, Change.abs hc hI hu hu' hA, _, _, _, _, hA.tree hu, hA.tree hu,
      by show w.err.isSome = false; rw [herr]; rfl, .inr ⟨.inr rfl, rfl, ?_⟩⟩
    funext p; unfold put; split <;> rfl
  | assignRefused hu hv hne => exact ⟨B, hA, _, _, _, _, hA.tree hu, hA.tree hv, by rw [herr]; rfl, .inl ⟨rfl, hne, rfl, rfl⟩⟩
  | eraseKeys hu hu' hc hsub hf herr =>
    exact ⟨_, Change.abs hc hI hu hu' hA, _, _, _, hA.tree hu, rfl, by rw [herr]; rfl, rfl, hsub, fun ho => hf (.of ho rfl (hA.tree hu))⟩
  | uniqueOld ht hn h1 h2 hh he herr =>
    refine ⟨B, hA.same hh, .inl ⟨_, strip_ures _ _ _, by rw [herr]; rfl, ⟨_, _, _, hA.tree ht, by rw [hn]; simp, h1, fun ho => ⟨h1, ?_⟩⟩, rfl⟩⟩
    exact h2 (.of ho rfl (hA.tree ht))
  | uniqueFail ht hh he herr => exact ⟨B, hA.same hh, .inr (.inl ⟨strip_ures _ _ _, by rw [herr]; rfl, by rw [hA.tree ht]; simp, rfl⟩)⟩
  | uniqueNew ht ht' hn hn' hcut hc hf herr =>
    refine ⟨_, Change.abs hc hI ht ht' hA, .inr (.inr ⟨_, strip_ures _ _ _, by rw [herr]; rfl, _, _, _, (hA.tree ht).trans (by rw [hn]), by rw [hn'],
      hA.unused hf.none, fun ho => ?_⟩)⟩
    rw [← hn] at ho
    exact hcut (.of ho rfl (hA.tree ht))

theorem effect_inv {c : FCall K} {r : FRes K} (h : FEffectS S lt w c r w') (hI : TInv w) : TInv w' := by
  have hC : ClosedS S lt (fun _ : List (Ptr × K) => True) := ⟨trivial, fun _ _ _ _ _ _ => trivial, fun _ _ _ _ => trivial, fun _ _ _ _ => trivial⟩
  cases h with
  | multi h =>
    cases h with
    | base h => exact h.invP hC hI
    | fail _ _ he hh => exact hI.same he hh
    | new ht ht' hn hn' hp hc => exact hc.inv hI ht ht' trivial
  | swapSelf => exact hI
  | swap hne hu hv hu' hv' hc => exact hc.inv hne hI hu hv hu' hv' trivial trivial
  | assign hne _ hu hv hu' hv' hc => exact hc.inv hne hI hu hv hu' hv' trivial trivial
  | assignSelf hu hu' hc => exact hc.inv hI hu hu' trivial
  | assignRefused => exact hI
  | eraseKeys hu hu' hc hsub => exact hc.inv hI hu hu' trivial
  | uniqueOld _ _ _ _ hh he => exact hI.same he hh
  | uniqueFail _ hh he => exact hI.same he hh
  | uniqueNew hu hu' hn hn' hcut hc => exact hc.inv hI hu hu' trivial

/-! ### Calls without what the client reads itself -/

/-- `Set.exec` without reading the erased elements. -/
def vbase (lt : K → K → Bool) : Set.Call K → M (W K) TO.Res
  | .create a => do pure (.obj (← newTree a))
  | .insert s k => do let r ← RB.insertUnique lt s k; pure (.ins r.1 r.2)
  | .eraseKey s k => do pure (.num (← RB.eraseKey lt s k))
  | .eraseAt s it => do pure (.pos (← RB.eraseIter s it))
  | .eraseRange s f l => do pure (.pos (← RB.eraseRange s f l))
  | .clear s => do RB.clear s; pure .unit
  | .find s k => do pure (.pos (← RB.find lt s k))
  | .copy prop d s => do RB.copyNothrow prop d s; pure .unit
  | .move s => do pure (.obj (← moveCtor s))
  | .destroy s => do RB.destroyTree s; pure .unit

/-- `fexec` without what the client reads itself. -/
def vexec (lt : K → K → Bool) : FCall K → M (W K) TO.Res
  | .multi (.base c) => vbase lt c
  | .multi (.equal .upper s k) => do pure (.pos (← RB.emplaceEqual lt s k))
  | .multi (.equal .lower s k) => do pure (.pos (← RB.insertEqualLower lt s k))
  | .multi (.equal (.hint pos) s k) => do pure (.pos (← RB.emplaceHintEqual lt s pos k))
  | .swap prop s t => do swapTrees prop s t; pure .unit
  | .assign prop d s => do pure (.ok (← RB.moveAssign prop d s))
  | .eraseKeys s ks => do RB.eraseKeys lt s ks; pure .unit
  | .unique (.at pos) s k => do pure (.pos (← RB.insertUniqueAt lt s pos k))
  | .unique .emplace s k => do let r ← RB.emplaceUnique lt s k; pure (.ins r.1 r.2)
  | .unique (.emplaceAt pos) s k => do pure (.pos (← RB.emplaceHintUnique lt s pos k))

theorem runs_pureBind {α β γ : Type} {m : M (W K) α} {f : α → β} {g : α → γ} {r : β} {w w' : W K} (z : β → γ) (hz : ∀ a, z (f a) = g a)
    (h : Runs (m >>= fun a => pure (f a)) w r w') : Runs (m >>= fun a => pure (g a)) w (z r) w' := by
  obtain ⟨a, w1, h1, h2⟩ := runs_steps h
  cases h2
  exact VO.runs_bind_iff.2 ⟨a, _, h1, by rw [hz]; rfl⟩

theorem vbase_runs {c : Set.Call K} {r : Set.Res K} (hI : TInv w) (hv : Set.Valid w c) (n : Nat) (h : Runs (Set.exec lt c) w r w') :
    Runs (vbase lt c) w (strip (.multi ⟨r, n⟩)) w' := by
  cases c with
  | eraseAt s it =>
    obtain ⟨k, w1, h1, h2⟩ := runs_steps h
    obtain ⟨hv, L, k', hL, hz⟩ := hv
    obtain ⟨i, o, t, rfl, _, ht, -⟩ := hI.tree hv
    rw [contents_iff ht] at hL
    subst hL
    obtain ⟨Y, Z, e⟩ := List.append_of_mem hz
    obtain rfl : w1 = w := by
      have : wp (RB.keyOf it) w fun _ w' => w' = w := by rw [wp_keyOf_mem ht e]
      exact (h1.wp this :)
    exact runs_pureBind (fun r => strip (.multi ⟨r, n⟩)) (fun _ => rfl) h2
  | eraseRange s f l =>
    obtain ⟨L, w1, h1, h2⟩ := runs_steps h
    obtain ⟨hv, Y, M, Z, hL, rfl, rfl⟩ := hv
    obtain ⟨i, o, t, rfl, _, ht, -⟩ := hI.tree hv
    rw [contents_iff ht] at hL
    rw [posOf_eq, posOf_eq] at h1 h2 ⊢
    obtain rfl : w1 = w := (h1.wp (wp_walkRange (Q := fun _ w' => w' = w) ht hL.symm rfl) :)
    exact runs_pureBind (fun r => strip (.multi ⟨r, n⟩)) (fun _ => rfl) h2
  | _ => exact runs_pureBind (fun r => strip (.multi ⟨r, n⟩)) (fun _ => rfl) h

theorem vexec_runs {c : FCall K} {r : FRes K} (hI : TInv w) (hv : FValid lt w c) (h : Runs (fexec lt c) w r w') :
    Runs (vexec lt c) w (strip r) w' := by
  cases c with
  | multi c =>
    obtain ⟨r0, w0, h0, h00⟩ := runs_steps h
    cases h00
    obtain ⟨n, w1, h1, h2⟩ := runs_steps h0
    obtain ⟨r1, w2, h3, h4⟩ := runs_steps h2
    cases h4
    obtain rfl : w1 = w := (h1.wp (MValid.idx (Q := fun _ w' => w' = w) hI hv fun _ _ => rfl) :)
    cases c with
    | base c => exact vbase_runs hI hv n h3
    | equal m s k =>
      cases m <;> exact runs_pureBind (fun r => strip (.multi ⟨r, n⟩)) (fun _ => rfl) h3
  | unique m s k => cases m <;> exact runs_pureBind strip (fun _ => rfl) h
  | _ => exact runs_pureBind strip (fun _ => rfl) h

/-- The effect of a call on trees of values. -/
theorem vexec_spec {c : FCall K} (hI : TInv w) (hA : Abs w B) (hv : FValid lt w c) (herr : w.err = none) :
    wp (vexec lt c) w fun r w' => TInv w' ∧ ∃ B', Abs w' B' ∧ Spec lt B c r w'.err.isSome B' := by
  have hW : WeakInS (OrdIn lt B c) lt w c.keyed := by
    intro s o t h1 h2 h3
    exact ⟨h3.1, h3.2 s o _ h1 (hA.tree h2)⟩
  obtain ⟨r, w', h1, h2⟩ := (fexec_effectS hI hW hv herr).runs
  exact wp_iff_runs.2 ⟨_, w', vexec_runs hI hv h1, effect_inv h2 hI, effect_spec h2 hI hA hv herr⟩

end
end Nestl.TO
