import Verif.Full.Client
import Verif.Multi.Steps
import Verif.RBTree.SwapOps
import Verif.RBTree.VerifyOps
set_option autoImplicit false
/-
The effect of the calls on two trees (helper lemmas).
-/
namespace Nestl.Full
open Nestl.RB Nestl.Set Nestl.Multi
variable {K : Type}

section
variable {w w' : W K} {lt : K → K → Bool} {s t : Ptr} {o o' o1 o2 : Nat} {u v u' v' : T K} {P : List (Ptr × K) → Prop}

/-- Two objects change; the nodes come from the old trees of the two objects. -/
structure Change2 (w w' : W K) (s t : Ptr) (u v u' v' : T K) : Prop where
  ext : Ext w w'
  sub1 : ∀ q ∈ u'.ptrs, q ∈ u.ptrs ∨ q ∈ v.ptrs
  sub2 : ∀ q ∈ v'.ptrs, q ∈ u.ptrs ∨ q ∈ v.ptrs
  sep : ∀ q ∈ u'.ptrs, q ∉ v'.ptrs
  gone : ∀ q, q ∈ u.ptrs ∨ q ∈ v.ptrs → q ∉ u'.ptrs → q ∉ v'.ptrs → w'.heap q = none
  frame : ∀ q, q ≠ s → q ≠ t → q ∉ u.ptrs → q ∉ v.ptrs → w'.heap q = w.heap q

theorem stk_notMem {H : Ptr → Option (TNode K)} (h : Tree H s o u) (j : Nat) : Ptr.stk j ∉ u.ptrs := by
  intro e; obtain ⟨a, ha⟩ := h.ok.dyn _ e; cases ha

theorem Change2.other (hc : Change2 w w' s t u v u' v') (hI : InvP P w) (hu : Tree w.heap s o u) (hv : Tree w.heap t o' v)
    {j : Nat} {oj : Nat} {tj : T K} (h1 : Ptr.stk j ≠ s) (h2 : Ptr.stk j ≠ t) (hj : Tree w.heap (.stk j) oj tj) :
    Tree w'.heap (.stk j) oj tj := by
  obtain ⟨a, rfl⟩ := hu.ok.hdr
  obtain ⟨b, rfl⟩ := hv.ok.hdr
  refine hj.congr (hc.frame _ h1 h2 (stk_notMem hu j) (stk_notMem hv j)) ?_
  intro q hq
  obtain ⟨c, rfl⟩ := hj.ok.dyn q hq
  exact hc.frame _ (by simp) (by simp) (hI.disj hj hu (fun e => h1 (by rw [e])) _ hq)
    (hI.disj hj hv (fun e => h2 (by rw [e])) _ hq)

theorem Change2.other_inv (hc : Change2 w w' s t u v u' v') (hI : InvP P w) (hu : Tree w.heap s o u) (hv : Tree w.heap t o' v)
    {j : Nat} {oj : Nat} {tj : T K} (h1 : Ptr.stk j ≠ s) (h2 : Ptr.stk j ≠ t) (hj : Tree w'.heap (.stk j) oj tj) :
    Tree w.heap (.stk j) oj tj := by
  have hne : w.heap (.stk j) ≠ none := by
    rw [← hc.frame _ h1 h2 (stk_notMem hu j) (stk_notMem hv j)]
    exact hj.ne_none
  obtain ⟨_, o3, t3, h3, _⟩ := hI.alive j hne
  obtain ⟨rfl, rfl⟩ := Tree.unique hj (hc.other hI hu hv h1 h2 h3)
  exact h3

theorem Change2.inv (hc : Change2 w w' s t u v u' v') (hne : s ≠ t) (hI : InvP P w) (hu : Tree w.heap s o u)
    (hv : Tree w.heap t o' v) (hu' : Tree w'.heap s o1 u') (hv' : Tree w'.heap t o2 v') (hp : P u'.nodes) (hp2 : P v'.nodes) :
    InvP P w' := by
  obtain ⟨a, ha⟩ := hu.ok.hdr
  obtain ⟨b, hb⟩ := hv.ok.hdr
  have new : ∀ {i oi ti}, Tree w'.heap (.stk i) oi ti → (Ptr.stk i = s ∧ ti = u') ∨ (Ptr.stk i = t ∧ ti = v') ∨
      (Ptr.stk i ≠ s ∧ Ptr.stk i ≠ t ∧ Tree w.heap (.stk i) oi ti) := by
    intro i oi ti h
    by_cases e1 : Ptr.stk i = s
    · rw [e1] at h
      exact Or.inl ⟨e1, (Tree.unique h hu').2⟩
    · by_cases e2 : Ptr.stk i = t
      · rw [e2] at h
        exact Or.inr (Or.inl ⟨e2, (Tree.unique h hv').2⟩)
      · exact Or.inr (Or.inr ⟨e1, e2, hc.other_inv hI hu hv e1 e2 h⟩)
  have far : ∀ {i oi ti}, Tree w.heap (.stk i) oi ti → Ptr.stk i ≠ s → Ptr.stk i ≠ t → ∀ q ∈ ti.ptrs, q ∉ u.ptrs ∧ q ∉ v.ptrs := by
    intro i oi ti h e1 e2 q hq
    subst ha hb
    exact ⟨hI.disj h hu (fun e => e1 (by rw [e])) q hq, hI.disj h hv (fun e => e2 (by rw [e])) q hq⟩
  refine ⟨?_, ?_, ?_, ?_⟩
  · intro i hi
    rw [hc.ext.sp]
    by_cases e1 : Ptr.stk i = s
    · rw [← e1] at hu hu'
      exact ⟨(hI.alive i hu.ne_none).1, _, u', hu', hp⟩
    · by_cases e2 : Ptr.stk i = t
      · rw [← e2] at hv hv'
        exact ⟨(hI.alive i hv.ne_none).1, _, v', hv', hp2⟩
      · rw [hc.frame _ e1 e2 (stk_notMem hu i) (stk_notMem hv i)] at hi
        obtain ⟨h1, o3, t3, h3, h4⟩ := hI.alive i hi
        exact ⟨h1, o3, t3, hc.other hI hu hv e1 e2 h3, h4⟩
  · intro i j oi ti oj tj hi hj hij q hq hq2
    rcases new hi with ⟨e1, rfl⟩ | ⟨e1, rfl⟩ | ⟨e1, e2, h1⟩ <;> rcases new hj with ⟨f1, rfl⟩ | ⟨f1, rfl⟩ | ⟨f1, f2, h2⟩
    · exact hij (by simpa using e1.trans f1.symm)
    · exact hc.sep q hq hq2
    · obtain ⟨g1, g2⟩ := far h2 f1 f2 q hq2
      exact (hc.sub1 q hq).elim g1 g2
    · exact hc.sep q hq2 hq
    · exact hij (by simpa using e1.trans f1.symm)
    · obtain ⟨g1, g2⟩ := far h2 f1 f2 q hq2
      exact (hc.sub2 q hq).elim g1 g2
    · obtain ⟨g1, g2⟩ := far h1 e1 e2 q hq
      exact (hc.sub1 q hq2).elim g1 g2
    · obtain ⟨g1, g2⟩ := far h1 e1 e2 q hq
      exact (hc.sub2 q hq2).elim g1 g2
    · exact hI.disj h1 h2 hij q hq hq2
  · intro x hx
    by_cases h1 : Ptr.dyn x ∈ u'.ptrs
    · exact ⟨a, o1, u', ha ▸ hu', h1⟩
    · by_cases h2 : Ptr.dyn x ∈ v'.ptrs
      · exact ⟨b, o2, v', hb ▸ hv', h2⟩
      · by_cases h3 : Ptr.dyn x ∈ u.ptrs ∨ Ptr.dyn x ∈ v.ptrs
        · exact absurd (hc.gone _ h3 h1 h2) hx
        · have h4 : Ptr.dyn x ∉ u.ptrs := fun e => h3 (Or.inl e)
          have h5 : Ptr.dyn x ∉ v.ptrs := fun e => h3 (Or.inr e)
          rw [hc.frame _ (by rw [ha]; simp) (by rw [hb]; simp) h4 h5] at hx
          obtain ⟨i, oi, ti, hi, hm⟩ := hI.cover x hx
          refine ⟨i, oi, ti, hc.other hI hu hv ?_ ?_ hi, hm⟩
          · intro e; rw [e] at hi
            exact h4 ((Tree.unique hi hu).2 ▸ hm)
          · intro e; rw [e] at hi
            exact h5 ((Tree.unique hi hv).2 ▸ hm)
  · intro x hx
    rw [hc.ext.env]
    have old : w.heap (.dyn x) ≠ none → ∃ k, k < w'.nAlloc ∧ w.env.addr k = some x := by
      intro h
      obtain ⟨k, hk, hk2⟩ := hI.past x h
      exact ⟨k, Nat.lt_of_lt_of_le hk hc.ext.nAlloc, hk2⟩
    by_cases h3 : Ptr.dyn x ∈ u.ptrs ∨ Ptr.dyn x ∈ v.ptrs
    · refine old ?_
      rcases h3 with h | h
      · obtain ⟨n, hn, _⟩ := Rep_alloc hu.rep _ h
        rw [hn]; simp
      · obtain ⟨n, hn, _⟩ := Rep_alloc hv.rep _ h
        rw [hn]; simp
    · rw [hc.frame _ (by rw [ha]; simp) (by rw [hb]; simp) (fun e => h3 (Or.inl e)) (fun e => h3 (Or.inr e))] at hx
      exact old hx

theorem Change2.kabs (hc : Change2 w w' s t u v u' v') (hI : InvP P w) (hu : Tree w.heap s o u)
    (hv : Tree w.heap t o' v) (hu' : Tree w'.heap s o1 u') (hv' : Tree w'.heap t o2 v') {A : Ptr → List K} (hA : KAbs w A)
    {M N : List K} (hM : u'.nodes.map Prod.snd = M) (hN : v'.nodes.map Prod.snd = N) :
    KAbs w' (put (put A s M) t N) := by
  intro x ox tx h
  by_cases e2 : x = t
  · rw [e2] at h ⊢
    rw [put_same, ← hN, (Tree.unique h hv').2]
  · rw [put_other _ _ e2]
    by_cases e1 : x = s
    · rw [e1] at h ⊢
      rw [put_same, ← hM, (Tree.unique h hu').2]
    · rw [put_other _ _ e1]
      obtain ⟨j, rfl⟩ := h.ok.hdr
      exact hA _ _ _ (hc.other_inv hI hu hv e1 e2 h)

/-- Two removals one after the other. -/
theorem Change.shrink {w1 : W K} {t1 : T K} (h1 : Change w w1 s u t1) (h2 : Change w1 w' s t1 v) (hs1 : ∀ q ∈ t1.ptrs, q ∈ u.ptrs)
    (hs2 : ∀ q ∈ v.ptrs, q ∈ t1.ptrs) (hu : Tree w.heap s o u) : Change w w' s u v := by
  obtain ⟨j, rfl⟩ := hu.ok.hdr
  refine ⟨h1.ext.trans h2.ext, ?_, fun q hq => Or.inl (hs1 q (hs2 q hq)), ?_⟩
  · intro q hq hq2
    by_cases e : q ∈ t1.ptrs
    · exact h2.gone q e hq2
    · have := h1.gone q hq e
      rw [h2.frame q ?_ e hq2]
      · exact this
      · intro e; rw [e] at hq; exact stk_notMem hu _ hq
  · intro q h3 h4 h5
    have e : q ∉ t1.ptrs := fun e => h4 (hs1 q e)
    rw [h2.frame q h3 e h5, h1.frame q h3 h4 e]

theorem wp_eraseKeys {S : Prop} {ks : List K} {Q : Unit → W K → Prop} (hu : Tree w.heap s o u) (herr : w.err = none)
    (hsort : S → SWO lt ∧ WSorted lt u.nodes)
    (hQ : ∀ w' v, Tree w'.heap s o v → Change w w' s u v → w'.err = none → v.nodes.Sublist u.nodes → w'.nAlloc = w.nAlloc →
      (S → v.nodes = u.nodes.filter (fun x => unlike lt ks x.2)) → Q () w') :
    wp (eraseKeys lt s ks) w Q := by
  induction ks generalizing w u with
  | nil =>
    unfold eraseKeys
    rw [wp_pure]
    refine hQ w u hu ⟨Ext.refl w, fun q h h' => absurd h h', fun q h => Or.inl h, fun _ _ _ _ => rfl⟩ herr (List.Sublist.refl _) rfl ?_
    intro _
    rw [filter_all (p := fun x : Ptr × K => unlike lt [] x.2)]
    intro x _; rfl
  | cons k ks ih =>
    unfold eraseKeys
    simp only [wp_bind]
    refine wp_eraseKey hu ?_
    intro n H' t1 A M B g1 g2 g3 g4 g5 g6 g7
    have hc1 : Change w ((w.addCmp n).setHeap H') s u t1 :=
      Change.erase ((Ext.addCmp w n).trans (Ext.setHeap _ _)) g2 g5 g6 g7
    have hsub1 : t1.nodes.Sublist u.nodes := by
      rw [g2, g5]
      exact (List.Sublist.refl A).append (List.sublist_append_right M B)
    refine ih (w := (w.addCmp n).setHeap H') (by exact g4) (by exact herr) ?_ ?_
    · intro hw
      exact ⟨(hsort hw).1, (hsort hw).2.sublist hsub1⟩
    · intro w' v' k1 k2 k3 k4 k5 k6
      have hp : ∀ {a b : T K}, a.nodes.Sublist b.nodes → ∀ q ∈ a.ptrs, q ∈ b.ptrs := by
        intro a b h q hq
        exact (h.map Prod.fst).subset hq
      refine hQ w' v' k1 (Change.shrink hc1 k2 (hp hsub1) (hp k4) hu) k3 (k4.trans hsub1) (k5.trans rfl) ?_
      intro hw
      rw [k6 hw, g5, g2]
      have hcut := g3 (hsort hw).1 (hsort hw).2
      simp only [List.filter_append]
      have e1 : M.filter (fun x => unlike lt (k :: ks) x.2) = [] := by
        refine filter_none ?_
        intro x hx
        simp [unlike, hcut.2.1 x hx]
      have e2 : A.filter (fun x => unlike lt (k :: ks) x.2) = A.filter (fun x => unlike lt ks x.2) := by
        refine List.filter_congr ?_
        intro x hx
        simp [unlike, hcut.1 x hx]
      have e3 : B.filter (fun x => unlike lt (k :: ks) x.2) = B.filter (fun x => unlike lt ks x.2) := by
        refine List.filter_congr ?_
        intro x hx
        simp [unlike, hcut.2.2 x hx]
      rw [e1, e2, e3]
      simp

/-- What one call does; facts about the order of the elements hold if `S` does. -/
inductive FEffectS (S : Prop) (lt : K → K → Bool) (w : W K) : FCall K → FRes K → W K → Prop
  | multi {c r w'} : MEffectS S lt w c r w' → FEffectS S lt w (.multi c) (.multi r) w'
  | swapSelf {prop s} : FEffectS S lt w (.swap prop s s) .unit w
  | swap {prop s t o o' u v H'} : s ≠ t → Tree w.heap s o u → Tree w.heap t o' v → Tree H' s o' v → Tree H' t o u →
      Change2 w (w.setHeap H') s t u v v u → FEffectS S lt w (.swap prop s t) .unit (w.setHeap H')
  | assign {prop d s o o' u v H'} : d ≠ s → prop = true ∨ o = o' → Tree w.heap d o u → Tree w.heap s o' v → Tree H' d o' v → Tree H' s o' .nil →
      Change2 w (w.setHeap H') d s u v v .nil → FEffectS S lt w (.assign prop d s) (.ok true) (w.setHeap H')
  | assignSelf {prop s o u H'} : Tree w.heap s o u → Tree H' s o .nil → Change w (w.setHeap H') s u .nil →
      FEffectS S lt w (.assign prop s s) (.ok true) (w.setHeap H')
  | assignRefused {d s o o' u v} : Tree w.heap d o u → Tree w.heap s o' v → o ≠ o' → FEffectS S lt w (.assign false d s) (.ok false) w
  | eraseKeys {s ks o u v w'} : Tree w.heap s o u → Tree w'.heap s o v → Change w w' s u v → v.nodes.Sublist u.nodes →
      (S → v.nodes = u.nodes.filter (fun x => unlike lt ks x.2)) → w'.err = none → FEffectS S lt w (.eraseKeys s ks) .unit w'
  | uniqueOld {m s k o t A p k' B w'} : Tree w.heap s o t → t.nodes = A ++ (p, k') :: B → lt k' k = false → (S → lt k k' = false) →
      w'.heap = w.heap → Ext w w' → w'.err = none → w'.nCmp ≤ w.nCmp + t.height + 5 → FEffectS S lt w (.unique m s k) (uresult m p false) w'
  | uniqueFail {m s k o t e w'} : Tree w.heap s o t → w'.heap = w.heap → Ext w w' → w'.err = some e → Refused w →
      w'.nCmp ≤ w.nCmp + t.height + 5 → FEffectS S lt w (.unique m s k) (uresult m s false) w'
  | uniqueNew {m s k o t t' A B a w'} : Tree w.heap s o t → Tree w'.heap s o t' → t.nodes = A ++ B → t'.nodes = A ++ (.dyn a, k) :: B →
      (S → Cut lt k A B) → Change w w' s t t' → Fresh w w' (.dyn a) → w'.err = none → w'.nCmp ≤ w.nCmp + t.height + 5 →
      ¬ Refused w → FEffectS S lt w (.unique m s k) (uresult m (.dyn a) true) w'

/-- What one call does if the elements of the tree are in order. -/
abbrev FEffect (lt : K → K → Bool) (w : W K) : FCall K → FRes K → W K → Prop := FEffectS (SWO lt) lt w

theorem Places.effect {S : Prop} {m : UMode} {k : K} {b : Nat} (hs : Tree w.heap s o u) (hsort : S → SWO lt ∧ WSorted lt u.nodes)
    (hb : b ≤ u.height + 5) :
    Places w lt s o u k b (fun r w' => FEffectS S lt w (.unique m s k) (uresult m r.1 r.2) w') := by
  refine ⟨?_, ?_, ?_⟩
  · intro w' e h1 h2 h3 h4 h5
    exact .uniqueFail hs h3 h2 h4 h1 (by omega)
  · intro w' A p k' B h1 h2 h3 h4 h5 h6 h7
    exact .uniqueOld hs h1 h2 (fun hw => h3 (hsort hw).1 (hsort hw).2) h5 h4 h6 (by omega)
  · intro w' a t' A B h1 h2 h3 h4 h5 h6 h7 h8 h9 h10
    exact .uniqueNew hs h6 h7 h8 (fun hw => h9 (hsort hw).1 (hsort hw).2) (Change.insert h2 h5 h7 h8 h10) h5 h4 (by omega) h1

/-- The object in which a call compares keys. -/
def FCall.keyed : FCall K → Option Ptr
  | .multi c => c.keyed
  | .eraseKeys s _ | .unique _ s _ => some s
  | _ => none

theorem fexec_effectS {S : Prop} {c : FCall K} (hI : InvP P w) (hW : WeakInS S lt w c.keyed) (hv : FValid lt w c) (herr : w.err = none) :
    wp (fexec lt c) w (fun r w' => FEffectS S lt w c r w') := by
  cases c with
  | multi c =>
    simp only [fexec, wp_bind]
    obtain ⟨r, w', hr, he⟩ := (mexec_effectS hI hW hv herr).runs
    exact wp_iff_runs.2 ⟨r, w', hr, .multi he⟩
  | swap prop s t =>
    obtain ⟨h1, h2, h3⟩ := hv
    obtain ⟨i, o, u, rfl, _, hu, -⟩ := hI.tree h1
    obtain ⟨j, o', v, rfl, _, hv, -⟩ := hI.tree h2
    simp only [fexec, wp_bind]
    by_cases e : i = j
    · subst e
      exact wp_swapTrees_self hu .swapSelf
    · have hne : Ptr.stk i ≠ .stk j := by simpa using e
      have hok : prop = true ∨ o = o' := by
        refine h3.imp_right ?_
        rintro ⟨a, ⟨m, m1, m2⟩, n, n1, n2⟩
        rw [hu.cell] at m1
        rw [hv.cell] at n1
        cases m1; cases n1
        exact m2.trans n2.symm
      refine wp_swapTrees hu hv hne (hI.disj hu hv e) hok ?_
      intro H' k1 k2 k3
      refine .swap hne hu hv k1 k2 ⟨Ext.setHeap _ _, fun q h => Or.inr h, fun q h => Or.inl h, fun q h h' => hI.disj hu hv e q h' h, ?_, k3⟩
      rintro q (h | h) h4 h5
      · exact absurd h h5
      · exact absurd h h4
  | assign prop d s =>
    obtain ⟨h1, h2⟩ := hv
    obtain ⟨i, o, u, rfl, _, hu, -⟩ := hI.tree h1
    obtain ⟨j, o', v, rfl, _, hv, -⟩ := hI.tree h2
    simp only [fexec, wp_bind]
    by_cases e : i = j
    · subst e
      refine wp_moveAssign_self hu ?_
      intro H' k1 k2 k3
      exact .assignSelf hu k1 ⟨Ext.setHeap _ _, fun q h _ => k2 q h, fun q h => by simp [T.ptrs, T.nodes] at h, fun q a b _ => k3 q a b⟩
    · have hne : Ptr.stk i ≠ .stk j := by simpa using e
      by_cases hok : prop = true ∨ o = o'
      · refine wp_moveAssign hu hv hne (hI.disj hu hv e) hok ?_
        intro H' k1 k2 k3 k4
        refine .assign hne hok hu hv k1 k2 ⟨Ext.setHeap _ _, fun q h => Or.inr h, fun q h => by simp [T.ptrs, T.nodes] at h,
          fun q _ => by simp [T.ptrs, T.nodes], ?_, k4⟩
        rintro q (h | h) h4 h5
        · exact k3 q h
        · exact absurd h h4
      · rw [not_or] at hok
        obtain ⟨hp, ho⟩ := hok
        have hp : prop = false := by simpa using hp
        subst hp
        exact wp_moveAssign_refused hu hv rfl ho (.assignRefused hu hv ho)
  | eraseKeys s ks =>
    obtain ⟨i, o, u, rfl, _, hu, -⟩ := hI.tree hv
    have hsort := hW _ _ _ rfl hu
    simp only [fexec, wp_bind]
    refine wp_eraseKeys hu herr hsort ?_
    intro w' v k1 k2 k3 k4 k5 k6
    exact .eraseKeys hu k1 k2 k4 k6 k3
  | unique m s k =>
    obtain ⟨ha, hv⟩ := hv
    obtain ⟨i, o, u, rfl, _, hu, -⟩ := hI.tree ha
    have hsort := hW _ _ _ rfl hu
    cases m with
    | emplace =>
      simp only [fexec, wp_bind]
      refine wp_emplaceUnique_any hu herr ?_
      exact Places.effect (m := .emplace) hu hsort (by omega)
    | «at» pos =>
      obtain ⟨has, L, hL, hp⟩ := hv
      rw [contents_iff hu] at hL
      subst hL
      simp only [fexec, wp_bind]
      refine wp_insertUniqueAt_any (fun a => has a k) hu hp herr ?_
      exact Places.effect (m := .at pos) hu hsort (by omega)
    | emplaceAt pos =>
      obtain ⟨has, L, hL, hp⟩ := hv
      rw [contents_iff hu] at hL
      subst hL
      simp only [fexec, wp_bind]
      refine wp_emplaceHintUnique_any (fun a => has a k) hu hp herr ?_
      exact Places.effect (m := .emplaceAt pos) hu hsort (by omega)

theorem fexec_effect_in {c : FCall K} (hI : InvP P w) (hW : WeakIn lt w c.keyed) (hv : FValid lt w c) (herr : w.err = none) :
    wp (fexec lt c) w (fun r w' => FEffect lt w c r w') := fexec_effectS hI hW.toS hv herr

theorem fexec_effect {c : FCall K} (hI : MInv lt w) (hv : FValid lt w c) (herr : w.err = none) :
    wp (fexec lt c) w (fun r w' => FEffect lt w c r w') := fexec_effect_in hI (InvP.weakOf hI).weakIn hv herr

theorem FEffect.inv {c : FCall K} {r : FRes K} (h : FEffect lt w c r w') (hI : MInv lt w) : MInv lt w' := by
  have hnil : SWO lt → WSorted lt ([] : List (Ptr × K)) := fun _ => by simp [WSorted]
  cases h with
  | multi h => exact MEffect.inv h hI
  | swapSelf => exact hI
  | swap hne hu hv hu' hv' hc => exact hc.inv hne hI hu hv hu' hv' (hI.prop hv) (hI.prop hu)
  | assign hne _ hu hv hu' hv' hc => exact hc.inv hne hI hu hv hu' hv' (hI.prop hv) hnil
  | assignSelf hu hu' hc => exact hc.inv hI hu hu' hnil
  | assignRefused => exact hI
  | eraseKeys hu hu' hc hsub =>
    exact hc.inv hI hu hu' (fun hs => (hI.prop hu hs).sublist hsub)
  | uniqueOld _ _ _ _ hh he => exact hI.same he hh
  | uniqueFail _ hh he => exact hI.same he hh
  | uniqueNew hu hu' hn hn' hcut hc =>
    refine hc.inv hI hu hu' ?_
    intro hs
    rw [hn']
    have := hI.prop hu hs
    rw [hn] at this
    exact WSorted.insert this ⟨fun a ha => hs.asymm ((hcut hs).1 a ha), fun b hb => hs.asymm ((hcut hs).2 b hb)⟩

theorem FValid.ready {c : FCall K} (hI : InvP P w) (hv : FValid lt w c) : FValid lt (Set.ready w) c := by
  cases c with
  | multi c => exact MValid.ready hI hv
  | unique m s k =>
    obtain ⟨ha, hv⟩ := hv
    refine ⟨ha, ?_⟩
    cases m with
    | emplace => trivial
    | _ =>
      obtain ⟨h1, L, h2, h3⟩ := hv
      exact ⟨h1, L, (contents_ready hI ha).2 h2, h3⟩
  | _ => exact hv

theorem FHist.inv {env : Env (TNode K)} {h : List (FEntry K)} (hh : FHist lt env h w) : MInv lt w := by
  induction hh with
  | start => exact InvP.start env
  | call _ hv hr ih => exact FEffect.inv (Runs.wp (fexec_effect ih.ready (hv.ready ih) rfl) hr) ih.ready

theorem FReach.inv (h : FReach lt w) : MInv lt w := by
  obtain ⟨env, h, hh⟩ := h; exact hh.inv

theorem FReach.step {c : FCall K} (h : FReach lt w) (hv : FValid lt w c) :
    ∃ r w', Runs (fexec lt c) (ready w) r w' ∧ FReach lt w' ∧ FEffect lt (ready w) c r w' := by
  have hI := h.inv
  obtain ⟨env, hh, h⟩ := h
  obtain ⟨r, w', hr, he⟩ := wp.runs (fexec_effect hI.ready (hv.ready hI) rfl)
  exact ⟨r, w', hr, ⟨env, _, .call h hv hr⟩, he⟩

theorem FReach.tree {L : List (Ptr × K)} (h : FReach lt w) (ha : Alive w s) (hc : Contents w s L) :
    ∃ o t, Tree w.heap s o t ∧ L = t.nodes := by
  obtain ⟨i, o, t, rfl, _, ht, _⟩ := h.inv.tree ha
  exact ⟨o, t, ht, (contents_iff ht).1 hc⟩

theorem put_self {α : Type} (f : Ptr → α) (x : Ptr) : put f x (f x) = f := by
  funext y
  unfold put
  split <;> simp_all

theorem FEffect.kabs {c : FCall K} {r : FRes K} (h : FEffect lt w c r w') (hI : InvP P w) (hs : SWO lt) {A : Ptr → List K}
    (hA : KAbs w A) : KAbs w' (famStep lt A ⟨c, r, w'.err.isSome⟩) := by
  cases h with
  | multi h => exact MEffect.kabs h hI hs hA
  | swapSelf => simp only [famStep, put_self]; exact hA
  | swap hne hu hv hu' hv' hc =>
    simp only [famStep]
    exact hc.kabs hI hu hv hu' hv' hA (hA _ _ _ hv) (hA _ _ _ hu)
  | assign hne _ hu hv hu' hv' hc =>
    simp only [famStep]
    exact hc.kabs hI hu hv hu' hv' hA (hA _ _ _ hv) (by simp [T.nodes])
  | assignSelf hu hu' hc =>
    simp only [famStep, put_self]
    exact Change.kabs hc hI hu hu' hA (by simp [T.nodes])
  | assignRefused => exact hA
  | eraseKeys hu hu' hc hsub hf =>
    simp only [famStep]
    refine Change.kabs hc hI hu hu' hA ?_
    rw [hf hs, ← hA _ _ _ hu, List.filter_map]
    rfl
  | uniqueOld ht hn h1 h2 hh he herr _ =>
    rename_i m s k o t A0 p k' B _
    have hAs := hA _ _ _ ht
    have : (A s).any (fun x => !lt x k && !lt k x) = true := by
      rw [← hAs, hn]
      simp [h1, h2 hs]
    simp only [famStep, this, or_true, if_true]
    exact hA.same hh
  | uniqueFail ht hh he herr _ _ =>
    simp only [famStep, herr, Option.isSome_some, true_or, if_true]
    exact hA.same hh
  | uniqueNew ht ht' hn hn' hcut hc hf herr _ _ =>
    rename_i m s k o t t' A0 B a _ _
    have hAs := hA _ _ _ ht
    have hcut := hcut hs
    have : (A s).any (fun x => !lt x k && !lt k x) = false := by
      rw [← hAs, hn]
      simp only [List.any_eq_false, List.mem_map, List.mem_append]
      rintro x ⟨y, hy, rfl⟩
      rcases hy with hy | hy
      · simp [hcut.1 y hy]
      · simp [hcut.2 y hy]
    simp only [famStep, herr, Option.isSome_none, this, Bool.false_eq_true, or_self, if_false]
    refine Change.kabs hc hI ht ht' hA ?_
    rw [hn', ← hAs, hn, ← UCut.addUpper ⟨fun a ha => hs.asymm (hcut.1 a ha), hcut.2⟩]
    simp

theorem FHist.kabs {env : Env (TNode K)} {h : List (FEntry K)} (hh : FHist lt env h w) (hs : SWO lt) : KAbs w (famRun lt h) := by
  induction hh with
  | start => intro s o t h; exact absurd rfl h.ne_none
  | call hp hv hr ih =>
    have hI := hp.inv
    exact FEffect.kabs (Runs.wp (fexec_effect hI.ready (hv.ready hI) rfl) hr) hI.ready hs (ih.same rfl)

end
end Nestl.Full
