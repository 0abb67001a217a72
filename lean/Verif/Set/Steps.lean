import Verif.Set.Inv
set_option autoImplicit false
/-
The effect of every call on the invariant (helper lemmas of the set properties).
-/
namespace Nestl.Set
open Nestl.RB
variable {K : Type}

section
variable {H H' : Ptr → Option (TNode K)} {hdr : Ptr} {o o' : Nat} {t t' : T K} {w w' : W K} {lt : K → K → Bool} {P : List (Ptr × K) → Prop}

theorem Sorted.insert {A B : List (Ptr × K)} {p : Ptr} {k : K} (h : Sorted lt (A ++ B))
    (hA : ∀ a ∈ A, lt a.2 k = true) (hB : ∀ b ∈ B, lt k b.2 = true) : Sorted lt (A ++ (p, k) :: B) := by
  simp only [Sorted, List.pairwise_append, List.pairwise_cons, List.mem_cons] at h ⊢
  refine ⟨h.1, ⟨hB, h.2.1⟩, ?_⟩
  rintro a ha b (rfl | hb)
  · exact hA a ha
  · exact h.2.2 a ha b hb

theorem Sorted.remove {A M B : List (Ptr × K)} (h : Sorted lt (A ++ (M ++ B))) : Sorted lt (A ++ B) := by
  simp only [Sorted, List.pairwise_append, List.mem_append] at h ⊢
  exact ⟨h.1, h.2.1.2.1, fun a ha b hb => h.2.2 a ha b (Or.inr hb)⟩

theorem mem_ptrs_iff {q : Ptr} : q ∈ t.ptrs ↔ ∃ k, (q, k) ∈ t.nodes := by
  simp [T.ptrs]

theorem Change.insert {a : Nat} {k : K} {A B : List (Ptr × K)} (he : Ext w w') (hf : Fresh w w' (.dyn a))
    (hn : t.nodes = A ++ B) (hn' : t'.nodes = A ++ (.dyn a, k) :: B)
    (hfr : ∀ q, q ≠ hdr → q ∉ t'.ptrs → w'.heap q = w.heap q) : Change w w' hdr t t' := by
  refine ⟨he, ?_, ?_, fun q h1 _ h3 => hfr q h1 h3⟩
  · intro q hq hq'
    rw [T.ptrs, hn] at hq; rw [T.ptrs, hn'] at hq'
    simp only [List.map_append, List.mem_append, List.map_cons, List.mem_cons] at hq hq'
    grind
  · intro q hq
    rw [T.ptrs, hn'] at hq; rw [T.ptrs, hn]
    simp only [List.map_append, List.mem_append, List.map_cons, List.mem_cons] at hq ⊢
    rcases hq with hq | rfl | hq
    · exact Or.inl (Or.inl hq)
    · exact Or.inr hf
    · exact Or.inl (Or.inr hq)

theorem Change.erase {A M B : List (Ptr × K)} (he : Ext w w')
    (hn : t.nodes = A ++ (M ++ B)) (hn' : t'.nodes = A ++ B) (hM : ∀ x ∈ M, w'.heap x.1 = none)
    (hfr : ∀ q, q ≠ hdr → q ∉ M.map Prod.fst → q ∉ t'.ptrs → w'.heap q = w.heap q) : Change w w' hdr t t' := by
  have hm : ∀ q, q ∈ t.ptrs ↔ q ∈ M.map Prod.fst ∨ q ∈ t'.ptrs := by
    intro q
    rw [T.ptrs, T.ptrs, hn, hn']
    simp only [List.map_append, List.mem_append]
    grind
  refine ⟨he, ?_, fun q hq => Or.inl ((hm q).2 (Or.inr hq)), fun q h1 h2 h3 => hfr q h1 (by grind) h3⟩
  intro q hq hq'
  rcases (hm q).1 hq with h | h
  · obtain ⟨x, hx, rfl⟩ := List.mem_map.1 h
    exact hM x hx
  · exact absurd h hq'

theorem Change.clear (he : Ext w w') (hM : ∀ q ∈ t.ptrs, w'.heap q = none)
    (hfr : ∀ q, q ≠ hdr → q ∉ t.ptrs → w'.heap q = w.heap q) : Change w w' hdr t .nil :=
  ⟨he, fun q hq _ => hM q hq, fun q hq => by simp [T.ptrs, T.nodes] at hq, fun q h1 h2 _ => hfr q h1 h2⟩

/-- A new empty set. -/
structure Created (w w' : W K) (o : Nat) : Prop where
  env : w'.env = w.env
  sp : w'.sp = w.sp + 1
  nAlloc : w'.nAlloc = w.nAlloc
  tree : Tree w'.heap (.stk w.sp) o .nil
  frame : ∀ q, q ≠ .stk w.sp → w'.heap q = w.heap q

theorem Created.other (hc : Created w w' o) (hI : InvP P w) {i o2 t2} (h : Tree w.heap (.stk i) o2 t2) :
    Tree w'.heap (.stk i) o2 t2 := by
  refine h.congr (hc.frame _ ?_) (fun q hq => hc.frame _ ?_)
  · intro e
    cases e
    exact h.ne_none hI.fresh_stk
  · rintro rfl
    obtain ⟨a, ha⟩ := h.ok.dyn _ hq; cases ha

theorem Created.other_inv (hc : Created w w' o) (hI : InvP P w) {i o2 t2} (h : Tree w'.heap (.stk i) o2 t2)
    (hi : i ≠ w.sp) : Tree w.heap (.stk i) o2 t2 := by
  have := h.ne_none
  rw [hc.frame _ (by simpa using hi)] at this
  obtain ⟨_, o3, t3, h3, _⟩ := hI.alive i this
  obtain ⟨rfl, rfl⟩ := Tree.unique h (hc.other hI h3)
  exact h3

theorem Created.inv (hc : Created w w' o) (h0 : P []) (hI : InvP P w) : InvP P w' := by
  refine ⟨?_, ?_, ?_, ?_⟩
  · intro i hi
    rw [hc.sp]
    by_cases e : i = w.sp
    · subst e
      exact ⟨Nat.lt_succ_self _, o, .nil, hc.tree, h0⟩
    · rw [hc.frame _ (by simpa using e)] at hi
      obtain ⟨h1, o2, t2, h2, h3⟩ := hI.alive i hi
      exact ⟨Nat.lt_succ_of_lt h1, o2, t2, hc.other hI h2, h3⟩
  · intro i j o1 t1 o2 t2 h1 h2 hij q hq hq2
    by_cases e1 : i = w.sp
    · subst e1
      obtain ⟨-, rfl⟩ := Tree.unique h1 hc.tree
      simp [T.ptrs, T.nodes] at hq
    · by_cases e2 : j = w.sp
      · subst e2
        obtain ⟨-, rfl⟩ := Tree.unique h2 hc.tree
        simp [T.ptrs, T.nodes] at hq2
      · exact hI.disj (hc.other_inv hI h1 e1) (hc.other_inv hI h2 e2) hij q hq hq2
  · intro a ha
    rw [hc.frame _ (by simp)] at ha
    obtain ⟨i, o2, t2, h1, h2⟩ := hI.cover a ha
    exact ⟨i, o2, t2, hc.other hI h1, h2⟩
  · intro a ha
    rw [hc.frame _ (by simp)] at ha
    rw [hc.env, hc.nAlloc]
    exact hI.past a ha

/-- The contents of a set move to a new object. -/
structure Moved (w w' : W K) (src : Ptr) (o : Nat) (t : T K) : Prop where
  env : w'.env = w.env
  sp : w'.sp = w.sp + 1
  nAlloc : w'.nAlloc = w.nAlloc
  tree : Tree w'.heap (.stk w.sp) o t
  srcTree : Tree w'.heap src o .nil
  frame : ∀ q, q ≠ .stk w.sp → q ≠ src → q ∉ t.ptrs → w'.heap q = w.heap q

section
variable {src : Ptr}

theorem Moved.other (hc : Moved w w' src o t) (hI : InvP P w) (ht : Tree w.heap src o t) {i o2 t2}
    (h : Tree w.heap (.stk i) o2 t2) (hi : Ptr.stk i ≠ src) : Tree w'.heap (.stk i) o2 t2 := by
  have hd : ∀ q ∈ t2.ptrs, q ∉ t.ptrs := by
    obtain ⟨j, rfl⟩ := ht.ok.hdr
    exact hI.disj h ht (by rintro rfl; exact hi rfl)
  refine h.congr (hc.frame _ ?_ hi ?_) (fun q hq => hc.frame _ ?_ ?_ (hd q hq))
  · intro e
    cases e
    exact h.ne_none hI.fresh_stk
  · intro e
    obtain ⟨a, ha⟩ := ht.ok.dyn _ e; cases ha
  · rintro rfl
    obtain ⟨a, ha⟩ := h.ok.dyn _ hq; cases ha
  · rintro rfl
    obtain ⟨a, ha⟩ := h.ok.dyn _ hq
    obtain ⟨j, hj⟩ := ht.ok.hdr
    rw [ha] at hj; cases hj

theorem Moved.other_inv (hc : Moved w w' src o t) (hI : InvP P w) (ht : Tree w.heap src o t) {i o2 t2}
    (h : Tree w'.heap (.stk i) o2 t2) (hi : Ptr.stk i ≠ src) (hi2 : i ≠ w.sp) : Tree w.heap (.stk i) o2 t2 := by
  have := h.ne_none
  rw [hc.frame _ (by simpa using hi2) hi (by
    intro e; obtain ⟨a, ha⟩ := ht.ok.dyn _ e; cases ha)] at this
  obtain ⟨_, o3, t3, h3, _⟩ := hI.alive i this
  obtain ⟨rfl, rfl⟩ := Tree.unique h (hc.other hI ht h3 hi)
  exact h3

theorem Moved.inv (hc : Moved w w' src o t) (h0 : P []) (hI : InvP P w) (ht : Tree w.heap src o t) : InvP P w' := by
  obtain ⟨j, rfl⟩ := ht.ok.hdr
  have hjsp := (hI.alive j ht.ne_none).1
  refine ⟨?_, ?_, ?_, ?_⟩
  · intro i hi
    rw [hc.sp]
    by_cases e : i = w.sp
    · subst e
      exact ⟨Nat.lt_succ_self _, o, t, hc.tree, hI.prop ht⟩
    · by_cases e2 : i = j
      · subst e2
        exact ⟨Nat.lt_succ_of_lt hjsp, o, .nil, hc.srcTree, h0⟩
      · rw [hc.frame _ (by simpa using e) (by simpa using e2) (by
          intro e; obtain ⟨a, ha⟩ := ht.ok.dyn _ e; cases ha)] at hi
        obtain ⟨h1, o2, t2, h2, h3⟩ := hI.alive i hi
        exact ⟨Nat.lt_succ_of_lt h1, o2, t2, hc.other hI ht h2 (by simpa using e2), h3⟩
  · intro i k o1 t1 o2 t2 h1 h2 hik q hq hq2
    have hsrc : ∀ {i o1 t1}, Tree w'.heap (.stk i) o1 t1 → ∀ q ∈ t1.ptrs, i ≠ j := by
      rintro i o1 t1 h1 q hq rfl
      obtain ⟨-, rfl⟩ := Tree.unique h1 hc.srcTree
      simp [T.ptrs, T.nodes] at hq
    have e1 := hsrc h1 q hq
    have e2 := hsrc h2 q hq2
    have key : ∀ {i o1 t1}, Tree w'.heap (.stk i) o1 t1 → i ≠ w.sp → i ≠ j → ∀ q ∈ t1.ptrs, q ∉ t.ptrs := by
      intro i o1 t1 h1 hi1 hi2
      exact hI.disj (hc.other_inv hI ht h1 (by simpa using hi2) hi1) ht hi2
    by_cases f1 : i = w.sp
    · subst f1
      obtain ⟨-, rfl⟩ := Tree.unique h1 hc.tree
      exact key h2 (Ne.symm hik) e2 q hq2 hq
    · by_cases f2 : k = w.sp
      · subst f2
        obtain ⟨-, rfl⟩ := Tree.unique h2 hc.tree
        exact key h1 f1 e1 q hq hq2
      · exact hI.disj (hc.other_inv hI ht h1 (by simpa using e1) f1) (hc.other_inv hI ht h2 (by simpa using e2) f2) hik q hq hq2
  · intro a ha
    by_cases hm : Ptr.dyn a ∈ t.ptrs
    · exact ⟨_, o, t, hc.tree, hm⟩
    · rw [hc.frame _ (by simp) (by simp) hm] at ha
      obtain ⟨i, o2, t2, h1, h2⟩ := hI.cover a ha
      by_cases e : i = j
      · subst e
        obtain ⟨-, rfl⟩ := Tree.unique h1 ht
        exact absurd h2 hm
      · exact ⟨i, o2, t2, hc.other hI ht h1 (by simpa using e), h2⟩
  · intro a ha
    rw [hc.env, hc.nAlloc]
    by_cases hm : Ptr.dyn a ∈ t.ptrs
    · obtain ⟨n, hn, _⟩ := Rep_alloc ht.rep _ hm
      exact hI.past a (by rw [hn]; simp)
    · rw [hc.frame _ (by simp) (by simp) hm] at ha
      exact hI.past a ha

end

/-- A set object is destroyed. -/
structure Destroyed (w w' : W K) (hdr : Ptr) (t : T K) : Prop where
  ext : Ext w w'
  hdrGone : w'.heap hdr = none
  gone : ∀ q ∈ t.ptrs, w'.heap q = none
  frame : ∀ q, q ≠ hdr → q ∉ t.ptrs → w'.heap q = w.heap q

theorem Destroyed.other (hc : Destroyed w w' hdr t) (hI : InvP P w) (ht : Tree w.heap hdr o t) {i o2 t2}
    (h : Tree w.heap (.stk i) o2 t2) (hi : Ptr.stk i ≠ hdr) : Tree w'.heap (.stk i) o2 t2 := by
  have hd : ∀ q ∈ t2.ptrs, q ∉ t.ptrs := by
    obtain ⟨j, rfl⟩ := ht.ok.hdr
    exact hI.disj h ht (by rintro rfl; exact hi rfl)
  refine h.congr (hc.frame _ hi ?_) (fun q hq => hc.frame _ ?_ (hd q hq))
  · intro e
    obtain ⟨a, ha⟩ := ht.ok.dyn _ e; cases ha
  · rintro rfl
    obtain ⟨a, ha⟩ := h.ok.dyn _ hq
    obtain ⟨j, hj⟩ := ht.ok.hdr
    rw [ha] at hj; cases hj

theorem Destroyed.other_inv (hc : Destroyed w w' hdr t) (hI : InvP P w) (ht : Tree w.heap hdr o t) {i o2 t2}
    (h : Tree w'.heap (.stk i) o2 t2) : Ptr.stk i ≠ hdr ∧ Tree w.heap (.stk i) o2 t2 := by
  have hi : Ptr.stk i ≠ hdr := by
    rintro rfl
    exact h.ne_none hc.hdrGone
  refine ⟨hi, ?_⟩
  have := h.ne_none
  rw [hc.frame _ hi (by
    intro e; obtain ⟨a, ha⟩ := ht.ok.dyn _ e; cases ha)] at this
  obtain ⟨_, o3, t3, h3, _⟩ := hI.alive i this
  obtain ⟨rfl, rfl⟩ := Tree.unique h (hc.other hI ht h3 hi)
  exact h3

theorem Destroyed.inv (hc : Destroyed w w' hdr t) (hI : InvP P w) (ht : Tree w.heap hdr o t) : InvP P w' := by
  refine ⟨?_, ?_, ?_, ?_⟩
  · intro i hi
    have hne : Ptr.stk i ≠ hdr := by rintro rfl; exact hi hc.hdrGone
    rw [hc.ext.sp]
    rw [hc.frame _ hne (by intro e; obtain ⟨a, ha⟩ := ht.ok.dyn _ e; cases ha)] at hi
    obtain ⟨h1, o2, t2, h2, h3⟩ := hI.alive i hi
    exact ⟨h1, o2, t2, hc.other hI ht h2 hne, h3⟩
  · intro i j o1 t1 o2 t2 h1 h2
    exact hI.disj (hc.other_inv hI ht h1).2 (hc.other_inv hI ht h2).2
  · intro a ha
    have hm : Ptr.dyn a ∉ t.ptrs := fun e => ha (hc.gone _ e)
    obtain ⟨j, hj⟩ := ht.ok.hdr
    rw [hc.frame _ (by rw [hj]; simp) hm] at ha
    obtain ⟨i, o2, t2, h1, h2⟩ := hI.cover a ha
    by_cases e : Ptr.stk i = hdr
    · rw [e] at h1
      obtain ⟨-, rfl⟩ := Tree.unique h1 ht
      exact absurd h2 hm
    · exact ⟨i, o2, t2, hc.other hI ht h1 e, h2⟩
  · intro a ha
    have hm : Ptr.dyn a ∉ t.ptrs := fun e => ha (hc.gone _ e)
    obtain ⟨j, hj⟩ := ht.ok.hdr
    rw [hc.frame _ (by rw [hj]; simp) hm] at ha
    rw [hc.ext.env]
    obtain ⟨k, hk, hk2⟩ := hI.past a ha
    exact ⟨k, Nat.lt_of_lt_of_le hk hc.ext.nAlloc, hk2⟩

/-- What one call does, in terms of trees (all the cases the property theorems need); facts about the order of the elements
hold if `S` does. -/
inductive EffectS (S : Prop) (lt : K → K → Bool) (w : W K) : Call K → Res K → W K → Prop
  | create {a w'} : Created w w' a → w'.err = none → EffectS S lt w (.create a) (.obj (.stk w.sp)) w'
  | insertOld {s k w' o t A p k' B} : Tree w.heap s o t → t.nodes = A ++ (p, k') :: B → lt k' k = false →
      (S → lt k k' = false) → w'.heap = w.heap → Ext w w' → w'.err = none → w'.nAlloc = w.nAlloc →
      w'.nCtor = w.nCtor → w'.nCmp ≤ w.nCmp + t.height + 1 →
      EffectS S lt w (.insert s k) (.ins p false) w'
  | insertFail {s k w' o t A B e} : Tree w.heap s o t → t.nodes = A ++ B →
      (S → (∀ a ∈ A, lt a.2 k = true) ∧ (∀ b ∈ B, lt k b.2 = true)) → w'.heap = w.heap → Ext w w' →
      w'.err = some e → Refused w → w'.nCmp ≤ w.nCmp + t.height + 2 → EffectS S lt w (.insert s k) (.ins s true) w'
  | insertNew {s k w' o t t' A B a} : Tree w.heap s o t → Tree w'.heap s o t' → t.nodes = A ++ B →
      t'.nodes = A ++ (.dyn a, k) :: B →
      (S → (∀ a ∈ A, lt a.2 k = true) ∧ (∀ b ∈ B, lt k b.2 = true)) → Change w w' s t t' →
      Fresh w w' (.dyn a) → w'.err = none → w'.nCmp ≤ w.nCmp + t.height + 2 → ¬ Refused w →
      EffectS S lt w (.insert s k) (.ins (.dyn a) true) w'
  | eraseKey {s k w' o t t' A M B} : Tree w.heap s o t → Tree w'.heap s o t' → t.nodes = A ++ (M ++ B) →
      t'.nodes = A ++ B → (S → ECut lt k A M B) → Change w w' s t t' → w'.err = none →
      (∀ x ∈ M, w'.heap x.1 = none) → w'.nCmp ≤ w.nCmp + 2 * t.height →
      EffectS S lt w (.eraseKey s k) (.num M.length) w'
  | eraseAt {s z k w' o t t' A B} : Tree w.heap s o t → Tree w'.heap s o t' → t.nodes = A ++ (z, k) :: B →
      t'.nodes = A ++ B → Change w w' s t t' → w'.err = none → w'.heap z = none → w'.nCmp = w.nCmp →
      EffectS S lt w (.eraseAt s z) (.erased (firstP s B) k) w'
  | eraseRange {s w' o t t' A M B} : Tree w.heap s o t → Tree w'.heap s o t' → t.nodes = A ++ (M ++ B) →
      t'.nodes = A ++ B → Change w w' s t t' → w'.err = none → (∀ x ∈ M, w'.heap x.1 = none) →
      EffectS S lt w (.eraseRange s (firstP s (M ++ B)) (firstP s B)) (.erasedRange (firstP s B) (M.map Prod.snd)) w'
  | clear {s w' o t} : Tree w.heap s o t → Tree w'.heap s o .nil → Change w w' s t .nil → w'.err = none →
      EffectS S lt w (.clear s) .unit w'
  | findNone {s k w' o t A B} : Tree w.heap s o t → t.nodes = A ++ B → (∀ b B', B = b :: B' → lt k b.2 = true) →
      (S → LCut lt k A B) → w'.heap = w.heap → Ext w w' → w'.err = none → w'.nCmp ≤ w.nCmp + t.height + 1 →
      EffectS S lt w (.find s k) (.pos s) w'
  | findSome {s k w' o t A p k' B} : Tree w.heap s o t → t.nodes = A ++ (p, k') :: B → lt k' k = false → lt k k' = false →
      w'.heap = w.heap → Ext w w' → w'.err = none → w'.nCmp ≤ w.nCmp + t.height + 1 →
      EffectS S lt w (.find s k) (.pos p) w'
  | copySelf {prop s w'} : w' = w → w'.err = none → EffectS S lt w (.copy prop s s) .unit w'
  | copyFail {prop d s w' o o' t0 t e} : d ≠ s → Tree w.heap d o t0 → Tree w.heap s o' t →
      Tree w'.heap d (copyOwner prop o o') .nil → Change w w' d t0 .nil → w'.err = some e → ¬ Good w →
      EffectS S lt w (.copy prop d s) .unit w'
  | copyOk {prop d s w' o o' t0 t t2} : d ≠ s → Tree w.heap d o t0 → Tree w.heap s o' t →
      Tree w'.heap d (copyOwner prop o o') t2 → Like t t2 → Change w w' d t0 t2 → w'.err = none →
      w'.nCmp = w.nCmp → EffectS S lt w (.copy prop d s) .unit w'
  | move {s w' o t} : Tree w.heap s o t → Moved w w' s o t → w'.err = none → w'.nCtor = w.nCtor →
      EffectS S lt w (.move s) (.obj (.stk w.sp)) w'
  | destroy {s w' o t} : Tree w.heap s o t → Destroyed w w' s t → w'.err = none → EffectS S lt w (.destroy s) .unit w'

/-- What one call does if the elements of the tree are in order. -/
abbrev Effect (lt : K → K → Bool) (w : W K) : Call K → Res K → W K → Prop := EffectS (SWO lt) lt w

/-- All sets are in order, equivalent elements permitted. -/
def Weak (lt : K → K → Bool) (w : W K) : Prop := ∀ s o t, Tree w.heap s o t → SWO lt → WSorted lt t.nodes

theorem Inv.weak (hI : Inv lt w) : Weak lt w := fun _ _ _ ht hs => (hI.sorted ht hs).weak hs

/-- The object in which a call compares keys. -/
def Call.keyed : Call K → Option Ptr
  | .insert s _ | .eraseKey s _ | .find s _ => some s
  | _ => none

/-- If `S`, the comparator is a strict weak order and the object with which keys are compared is in order, equivalent elements
permitted. -/
def WeakInS (S : Prop) (lt : K → K → Bool) (w : W K) (x : Option Ptr) : Prop :=
  ∀ s o t, x = some s → Tree w.heap s o t → S → SWO lt ∧ WSorted lt t.nodes

/-- The object with which keys are compared is in order, equivalent elements permitted. -/
def WeakIn (lt : K → K → Bool) (w : W K) (x : Option Ptr) : Prop :=
  ∀ s o t, x = some s → Tree w.heap s o t → SWO lt → WSorted lt t.nodes

theorem WeakIn.toS {x : Option Ptr} (h : WeakIn lt w x) : WeakInS (SWO lt) lt w x := fun s o t hx ht hs => ⟨hs, h s o t hx ht hs⟩

theorem Weak.weakIn {x : Option Ptr} (h : Weak lt w) : WeakIn lt w x := fun s o t _ ht => h s o t ht

theorem exec_effectS {S : Prop} {c : Call K} (hI : InvP P w) (hW : WeakInS S lt w c.keyed) (hv : Valid w c) (herr : w.err = none) :
    wp (exec lt c) w (fun r w' => EffectS S lt w c r w') := by
  cases c with
  | create a =>
    simp only [exec, wp_bind]
    refine wp_newTree ?_
    intro h
    exact .create ⟨rfl, rfl, rfl, h, fun q hq => upd_other _ _ hq⟩ herr
  | insert s k =>
    obtain ⟨i, o, t, rfl, _, ht, -⟩ := hI.tree hv
    have hs := hW _ _ _ rfl ht
    simp only [exec, wp_bind]
    refine wp_insertUnique ht herr ?_ ?_ ?_
    · intro n A p k' B h1 h2 h3 h4
      exact .insertOld ht h1 h2 (fun hw => h4 (hs hw).1 (hs hw).2) rfl (Ext.addCmp w n) herr rfl rfl (by simp; omega)
    · intro w' e A B h1 h2 h3 h4 h5 h6 h7
      exact .insertFail ht h6 (fun hw => h7 (hs hw).1 (hs hw).2) h4 h2 h5 h1 (by omega)
    · intro w' a t' A B h0 h1 h2 h3 h4 h5 h6 h7 h8 h9
      exact .insertNew ht h5 h6 h7 (fun hw => h8 (hs hw).1 (hs hw).2) (Change.insert h1 h4 h6 h7 h9) h4 h3 (by omega) h0
  | eraseKey s k =>
    obtain ⟨i, o, t, rfl, _, ht, -⟩ := hI.tree hv
    have hs := hW _ _ _ rfl ht
    simp only [exec, wp_bind]
    refine wp_eraseKey ht ?_
    intro n H' t' A M B h1 h2 h3 h4 h5 h6 h7
    exact .eraseKey ht h4 h2 h5 (fun hw => h3 (hs hw).1 (hs hw).2)
      (Change.erase ((Ext.addCmp w n).trans (Ext.setHeap _ _)) h2 h5 h6 h7) herr h6 (by simp; omega)
  | eraseAt s z =>
    obtain ⟨hv, L, k, hL, hz⟩ := hv
    obtain ⟨i, o, t, rfl, _, ht, -⟩ := hI.tree hv
    rw [contents_iff ht] at hL
    subst hL
    obtain ⟨A, B, hn⟩ := List.append_of_mem hz
    simp only [exec, wp_bind]
    rw [wp_keyOf_mem ht hn]
    refine wp_eraseIter ht hn ?_
    intro H' t' h1 h2 h3 h4
    refine .eraseAt ht h1 hn h2 (Change.erase (M := [(z, k)]) (Ext.setHeap _ _) (by simpa using hn) h2 ?_ ?_) herr h3 rfl
    · simpa using h3
    · simpa using h4
  | eraseRange s f l =>
    obtain ⟨hv, A, M, B, hL, rfl, rfl⟩ := hv
    obtain ⟨i, o, t, rfl, _, ht, -⟩ := hI.tree hv
    rw [contents_iff ht] at hL
    rw [posOf_eq, posOf_eq]
    simp only [exec, wp_bind]
    refine wp_walkRange ht hL.symm ?_
    refine wp_eraseRange ht hL.symm ?_
    intro H' t' h1 h2 h3 h4
    exact .eraseRange ht h1 hL.symm h2 (Change.erase (Ext.setHeap _ _) hL.symm h2 h3 h4) herr h3
  | clear s =>
    obtain ⟨i, o, t, rfl, _, ht, -⟩ := hI.tree hv
    simp only [exec, wp_bind]
    refine wp_clear ht ?_
    intro H' h1 h2 h3
    exact .clear ht h1 (Change.clear (Ext.setHeap _ _) h2 h3) herr
  | find s k =>
    obtain ⟨i, o, t, rfl, _, ht, -⟩ := hI.tree hv
    have hs := hW _ _ _ rfl ht
    simp only [exec, wp_bind]
    refine wp_find ht ?_ ?_
    · intro n A B h1 h2 h3 h4
      exact .findNone ht h1 h3 (fun hw => h4 (hs hw).1 (hs hw).2) rfl (Ext.addCmp w n) herr (by simp; omega)
    · intro n A p k' B h1 h2 h3 h4 _
      exact .findSome ht h1 h3 h4 rfl (Ext.addCmp w n) herr (by simp; omega)
  | copy prop d s =>
    obtain ⟨hv1, hv2⟩ := hv
    simp only [exec, wp_bind]
    by_cases hds : d = s
    · subst hds
      exact wp_copyNothrow_self (.copySelf rfl herr)
    · obtain ⟨i, o, t0, rfl, _, ht0, _⟩ := hI.tree hv1
      obtain ⟨j, o', t, rfl, _, ht, _⟩ := hI.tree hv2
      refine wp_copyNothrow ht0 ht hds (hI.disj ht0 ht (by rintro rfl; exact hds rfl)) herr ?_ ?_
      · intro w' e h1 h2 h3 h4 h5 h6 h7
        exact .copyFail hds ht0 ht h5 (Change.clear h2 h6 h7) h4 h1
      · intro w' t2 h1 h2 h3 h4 h5 h6 h7 h8
        exact .copyOk hds ht0 ht h4 h5 ⟨h1, h7, h6, h8⟩ h3 h2
  | move s =>
    obtain ⟨i, o, t, rfl, _, ht, -⟩ := hI.tree hv
    simp only [exec, wp_bind]
    refine wp_moveCtor ht hI.fresh_stk ?_
    intro H' h1 h2 h3
    exact .move ht ⟨rfl, rfl, rfl, h1, h2, h3⟩ herr rfl
  | destroy s =>
    obtain ⟨i, o, t, rfl, _, ht, -⟩ := hI.tree hv
    simp only [exec, wp_bind]
    refine wp_destroyTree ht ?_
    intro H' h1 h2 h3
    exact .destroy ht ⟨Ext.setHeap _ _, h1, h2, h3⟩ herr

theorem exec_effect_in {c : Call K} (hI : InvP P w) (hW : WeakIn lt w c.keyed) (hv : Valid w c) (herr : w.err = none) :
    wp (exec lt c) w (fun r w' => Effect lt w c r w') := exec_effectS hI hW.toS hv herr

theorem exec_effect {c : Call K} (hI : InvP P w) (hW : Weak lt w) (hv : Valid w c) (herr : w.err = none) :
    wp (exec lt c) w (fun r w' => Effect lt w c r w') := exec_effect_in hI hW.weakIn hv herr

/-- Properties of contents that the calls preserve; `S` as in `EffectS`. -/
structure ClosedS (S : Prop) (lt : K → K → Bool) (P : List (Ptr × K) → Prop) : Prop where
  nil : P []
  insert : ∀ A B p k, P (A ++ B) → (S → (∀ a ∈ A, lt a.2 k = true) ∧ (∀ b ∈ B, lt k b.2 = true)) → P (A ++ (p, k) :: B)
  remove : ∀ A M B, P (A ++ (M ++ B)) → P (A ++ B)
  keys : ∀ L L', L.map Prod.snd = L'.map Prod.snd → P L → P L'

/-- Properties of contents that the calls preserve. -/
abbrev Closed (lt : K → K → Bool) (P : List (Ptr × K) → Prop) : Prop := ClosedS (SWO lt) lt P

theorem Closed.sorted (lt : K → K → Bool) : Closed lt (fun L => SWO lt → Sorted lt L) := by
  refine ⟨fun _ => by simp [Sorted], ?_, fun A M B h hw => Sorted.remove (h hw), ?_⟩
  · intro A B p k h h2 hw
    exact Sorted.insert (h hw) (h2 hw).1 (h2 hw).2
  · intro L L' h h2 hw
    have key : ∀ L : List (Ptr × K), Sorted lt L ↔ (L.map Prod.snd).Pairwise (fun a b => lt a b = true) := by
      intro L; rw [Sorted, List.pairwise_map]
    rw [key, ← h, ← key]; exact h2 hw

theorem EffectS.invP {S : Prop} {c : Call K} {r : Res K} (h : EffectS S lt w c r w') (hC : ClosedS S lt P) (hI : InvP P w) : InvP P w' := by
  cases h with
  | create hc _ => exact hc.inv hC.nil hI
  | insertOld _ _ _ _ hh he => exact hI.same he hh
  | insertFail _ _ _ hh he => exact hI.same he hh
  | insertNew ht ht' hn hn' hcut hc =>
    refine hc.inv hI ht ht' ?_
    rw [hn']
    have := hI.prop ht
    rw [hn] at this
    exact hC.insert _ _ _ _ this hcut
  | eraseKey ht ht' hn hn' _ hc =>
    refine hc.inv hI ht ht' ?_
    rw [hn']; exact hC.remove _ _ _ (hn ▸ hI.prop ht)
  | @eraseAt s z k w' o t t' A B ht ht' hn hn' hc =>
    refine hc.inv hI ht ht' ?_
    rw [hn']
    refine hC.remove _ [(z, k)] _ ?_
    have := hI.prop ht
    rw [hn] at this
    simpa using this
  | eraseRange ht ht' hn hn' hc =>
    refine hc.inv hI ht ht' ?_
    rw [hn']; exact hC.remove _ _ _ (hn ▸ hI.prop ht)
  | clear ht ht' hc => exact hc.inv hI ht ht' hC.nil
  | findNone _ _ _ _ hh he => exact hI.same he hh
  | findSome _ _ _ _ hh he => exact hI.same he hh
  | copySelf he => subst he; exact hI
  | copyFail _ ht _ ht' hc => exact hc.inv hI ht ht' hC.nil
  | @copyOk prop d s w' o o' t0 t t2 _ ht hs ht' hl hc =>
    exact hc.inv hI ht ht' (hC.keys _ _ hl.keys.symm (hI.prop hs))
  | move ht hc => exact hc.inv hC.nil hI ht
  | destroy ht hc => exact hc.inv hI ht

theorem Effect.inv {c : Call K} {r : Res K} (h : Effect lt w c r w') (hI : Inv lt w) : Inv lt w' := h.invP (Closed.sorted lt) hI

theorem contents_ready (hI : InvP P w) {s : Ptr} (hs : Alive w s) {L : List (Ptr × K)} :
    Contents (ready w) s L ↔ Contents w s L := by
  obtain ⟨i, o, t, rfl, _, ht, _⟩ := hI.tree hs
  rw [contents_iff ht, contents_iff (w := ready w) ht]

theorem Valid.ready {c : Call K} (hI : InvP P w) (hv : Valid w c) : Valid (Set.ready w) c := by
  cases c with
  | eraseAt s z =>
    obtain ⟨h1, L, k, h2, h3⟩ := hv
    exact ⟨h1, L, k, (contents_ready hI h1).2 h2, h3⟩
  | eraseRange s f l =>
    obtain ⟨h1, A, M, B, h2, h3⟩ := hv
    exact ⟨h1, A, M, B, (contents_ready hI h1).2 h2, h3⟩
  | _ => exact hv

theorem Hist.inv {env : Env (TNode K)} {h : List (Entry K)} (hh : Hist lt env h w) : Inv lt w := by
  induction hh with
  | start => exact InvP.start env
  | call _ hv hr ih =>
    exact Effect.inv (Runs.wp (exec_effect ih.ready (Inv.weak ih.ready) (hv.ready ih) rfl) hr) ih.ready

theorem Reach.inv (h : Reach lt w) : Inv lt w := by
  obtain ⟨env, h, hh⟩ := h; exact hh.inv

end
end Nestl.Set
