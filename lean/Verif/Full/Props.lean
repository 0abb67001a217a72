import Verif.Full.Steps
import Verif.Multi.Props
set_option autoImplicit false
/-
Property theorems of exchange, move assignment, comparison, self check, and erasing of arrays of keys (C72-C76).  The
vocabulary is defined in `Verif/Full/Client.lean`, `Verif/Multi/Client.lean`, `Verif/Set/Client.lean` and
`Verif/Algorithm/Spec.lean`; the programs are in `Verif/RBTree/ModelSwap.lean`.
-/
namespace Nestl.Full
open Nestl.RB Nestl.Set Nestl.Multi
open Nestl.Alg (LexBefore)
variable {K : Type} {lt : K → K → Bool} {w w' : W K} {s t d : Ptr} {L M : List (Ptr × K)} {prop : Bool}

/-! ### A concrete state with two objects -/

theorem FHist.ofMulti {env : Env (TNode K)} {h : List (MEntry K)} (hh : MHist lt env h w) :
    ∃ h', FHist lt env h' w ∧ famRun lt h' = seqRun lt h := by
  induction hh with
  | start => exact ⟨[], .start, rfl⟩
  | @call h w w' c r _ hv hr ih =>
    obtain ⟨h', h1, h2⟩ := ih
    refine ⟨_, .call (c := .multi c) (r := .multi r) h1 hv ?_, ?_⟩
    · exact runs_seq hr rfl
    · simp only [famRun, famStep, seqRun, h2]

/-- Object 0 holds (1,0), (2,0), (2,1), (3,0) and object 1, with allocator `a`, holds (5,0). -/
theorem fdemo (a : Nat) : ∃ w L M, FReach pairLt w ∧ Good w ∧ Alive w (.stk 0) ∧ Alive w (.stk 1) ∧ Contents w (.stk 0) L ∧
    Contents w (.stk 1) M ∧ L.map Prod.snd = [(1, 0), (2, 0), (2, 1), (3, 0)] ∧ M.map Prod.snd = [(5, 0)] ∧
    UsesAlloc w (.stk 0) 7 ∧ UsesAlloc w (.stk 1) a := by
  have hI0 := InvP.start (P := fun L => SWO pairLt → WSorted pairLt L) pairEnv
  have hg0 : Good (ready (start pairEnv)) :=
    ⟨fun k => ⟨k, rfl⟩, fun _ _ h => by simpa [start, pairEnv, ready] using h, fun _ => rfl, fun _ h => absurd rfl h⟩
  obtain ⟨r1, w1, hr1, he1⟩ := wp.runs (mexec_effect (lt := pairLt) (c := .base (.create 7)) hI0.ready trivial rfl)
  obtain ⟨z1, g1⟩ := he1.good hI0.ready hg0
  have m1 := MHist.call (lt := pairLt) (env := pairEnv) MHist.start (c := .base (.create 7)) trivial hr1
  rw [z1] at m1
  obtain ⟨hres1, t1, hsp1⟩ : r1.res = .obj (.stk 0) ∧ Tree w1.heap (.stk 0) 7 .nil ∧ w1.sp = 1 := by
    cases he1 with
    | base he _ =>
      cases he with
      | create hc _ => exact ⟨rfl, hc.tree, hc.sp⟩
  have hI1 := m1.inv
  obtain ⟨r2, w2, hr2, he2⟩ := wp.runs (mexec_effect (lt := pairLt) (c := .base (.create a)) hI1.ready trivial rfl)
  obtain ⟨z2, g2⟩ := he2.good hI1.ready ⟨g1.some, g1.inj, g1.ctor, g1.past⟩
  have m2 := MHist.call m1 (c := .base (.create a)) trivial hr2
  rw [z2] at m2
  obtain ⟨hres2, t2, u2⟩ : r2.res = .obj (.stk 1) ∧ Tree w2.heap (.stk 0) 7 .nil ∧ Tree w2.heap (.stk 1) a .nil := by
    cases he2 with
    | base he _ =>
      cases he with
      | create hc _ =>
        have e : (ready w1).sp = 1 := hsp1
        refine ⟨by rw [e], hc.other hI1.ready t1, ?_⟩
        have := hc.tree
        rw [e] at this
        exact this
  -- insertions keep the two objects and their allocators
  have ins : ∀ {h : List (MEntry (Nat × Nat))} {w : W (Nat × Nat)} (i : Nat) (k : Nat × Nat), MHist pairLt pairEnv h w → Good w →
      (∃ t, Tree w.heap (.stk 0) 7 t) → (∃ t, Tree w.heap (.stk 1) a t) → i = 0 ∨ i = 1 →
      ∃ r w', MHist pairLt pairEnv (⟨.equal .upper (.stk i) k, r, false⟩ :: h) w' ∧ Good w' ∧
        (∃ t, Tree w'.heap (.stk 0) 7 t) ∧ ∃ t, Tree w'.heap (.stk 1) a t := by
    intro h w i k hh hg h0 h1 hi
    have hI := hh.inv
    obtain ⟨t0, h0⟩ := h0
    obtain ⟨t1, h1⟩ := h1
    have ha : Alive w (.stk i) := by
      rcases hi with rfl | rfl
      · exact ⟨0, rfl, h0.ne_none⟩
      · exact ⟨1, rfl, h1.ne_none⟩
    obtain ⟨r, w', hr, he⟩ := wp.runs (mexec_effect (c := .equal .upper (.stk i) k) hI.ready (MValid.ready hI ha) rfl)
    obtain ⟨e1, e2⟩ := he.good hI.ready ⟨hg.some, hg.inj, hg.ctor, hg.past⟩
    have hm := MHist.call hh (c := .equal .upper (.stk i) k) ha hr
    rw [e1] at hm
    refine ⟨r, w', hm, e2, ?_⟩
    cases he with
    | fail _ _ _ hh => rw [hh]; exact ⟨⟨t0, h0⟩, t1, h1⟩
    | new ht ht' hn hn' hp hc =>
      rcases hi with rfl | rfl
      · obtain ⟨rfl, -⟩ := Tree.unique ht h0
        exact ⟨⟨_, ht'⟩, t1, hc.other hI.ready ht (by simp) h1 ht'⟩
      · obtain ⟨rfl, -⟩ := Tree.unique ht h1
        exact ⟨⟨t0, hc.other hI.ready ht (by simp) h0 ht'⟩, _, ht'⟩
  obtain ⟨r3, w3, m3, g3, t3, u3⟩ := ins 0 (2, 0) m2 g2 ⟨_, t2⟩ ⟨_, u2⟩ (Or.inl rfl)
  obtain ⟨r4, w4, m4, g4, t4, u4⟩ := ins 0 (1, 0) m3 g3 t3 u3 (Or.inl rfl)
  obtain ⟨r5, w5, m5, g5, t5, u5⟩ := ins 0 (2, 1) m4 g4 t4 u4 (Or.inl rfl)
  obtain ⟨r6, w6, m6, g6, t6, u6⟩ := ins 0 (3, 0) m5 g5 t5 u5 (Or.inl rfl)
  obtain ⟨r7, w7, m7, g7, ⟨t7, k7⟩, ⟨u7, l7⟩⟩ := ins 1 (5, 0) m6 g6 t6 u6 (Or.inr rfl)
  obtain ⟨h', hf, -⟩ := FHist.ofMulti m7
  refine ⟨w7, t7.nodes, u7.nodes, ⟨_, _, hf⟩, g7, ⟨0, rfl, k7.ne_none⟩, ⟨1, rfl, l7.ne_none⟩, (contents_iff k7).2 rfl,
    (contents_iff l7).2 rfl, ?_, ?_, ⟨_, k7.cell, rfl⟩, _, l7.cell, rfl⟩
  · rw [m7.kabs pairLt_swo _ _ _ k7]
    simp [seqRun, seqStep, put, hres1, hres2, addUpper, pairLt]
  · rw [m7.kabs pairLt_swo _ _ _ l7]
    simp [seqRun, seqStep, put, hres1, hres2, addUpper, pairLt]

/-! ### C72: exchange -/

/-- C72: exchanging two objects with equal allocators (or with an allocator that is exchanged as well) never fails, allocates
nothing, constructs nothing, calls no comparator, and exchanges the elements of the two objects; every element keeps its
node, so iterators and references stay valid and now belong to the other object.  All other objects are untouched. -/
theorem tree_swap (hr : FReach lt w) (hs : Alive w s) (ht : Alive w t) (hL : Contents w s L) (hM : Contents w t M)
    (hok : prop = true ∨ SameAlloc w s t) :
    ∃ w', Runs (swapTrees prop s t) w () w' ∧ Contents w' s M ∧ Contents w' t L ∧ w'.err = w.err ∧
      w'.nAlloc = w.nAlloc ∧ w'.nCtor = w.nCtor ∧ w'.nCmp = w.nCmp ∧
      (∀ a b, UsesAlloc w s a → UsesAlloc w t b → UsesAlloc w' s b ∧ UsesAlloc w' t a) ∧
      ∀ x N, Alive w x → x ≠ s → x ≠ t → Contents w x N → Contents w' x N := by
  have hI := hr.inv
  obtain ⟨r, w', h1, h2⟩ := (fexec_effect (c := .swap prop s t) hI.ready (FValid.ready hI ⟨hs, ht, hok⟩) rfl).runs
  obtain ⟨o, u, hu, rfl⟩ := hr.tree hs hL
  obtain ⟨o', v, hv, rfl⟩ := hr.tree ht hM
  have hown : ∀ {x o} {u : T K} {a}, Tree w.heap x o u → UsesAlloc w x a → a = o := by
    rintro x o u a h ⟨n, n1, n2⟩
    rw [h.cell] at n1
    cases n1; exact n2.symm
  by_cases e : s = t
  · subst e
    obtain ⟨rfl, rfl⟩ := Tree.unique hu hv
    obtain ⟨⟨⟩, w2, k1, rfl⟩ := (wp_swapTrees_self (prop := prop) (Q := fun _ w' => w' = w) hu rfl).runs
    refine ⟨_, k1, hM, hL, rfl, rfl, rfl, rfl, ?_, fun x N _ _ _ h => h⟩
    intro a b ha hb
    rw [hown hu ha, ← hown hu hb]
    exact ⟨hb, hb⟩
  · obtain ⟨i, hi⟩ := hu.ok.hdr
    obtain ⟨j, hj⟩ := hv.ok.hdr
    have hij : i ≠ j := by rintro rfl; exact e (hi.trans hj.symm)
    have hd : ∀ q ∈ u.ptrs, q ∉ v.ptrs := by
      subst hi hj; exact hI.disj hu hv hij
    have hok' : prop = true ∨ o = o' := by
      refine hok.imp_right ?_
      rintro ⟨a, ha, hb⟩
      exact (hown hu ha).symm.trans (hown hv hb)
    obtain ⟨⟨⟩, w2, k1, H', rfl, k2, k3, k4⟩ := (wp_swapTrees (Q := fun _ w' => ∃ H', w' = w.setHeap H' ∧ Tree H' s o' v ∧ Tree H' t o u ∧
      ∀ q, q ≠ s → q ≠ t → q ∉ u.ptrs → q ∉ v.ptrs → H' q = w.heap q) hu hv e hd hok'
      (fun H' a b c => ⟨H', rfl, a, b, c⟩)).runs
    have hc : Change2 w (w.setHeap H') s t u v v u := by
      refine ⟨Ext.setHeap _ _, fun q h => Or.inr h, fun q h => Or.inl h, fun q h h' => hd q h' h, ?_, k4⟩
      rintro q (h | h) h4 h5
      · exact absurd h h5
      · exact absurd h h4
    refine ⟨_, k1, (contents_iff (by exact k2)).2 rfl, (contents_iff (by exact k3)).2 rfl, rfl, rfl, rfl, rfl, ?_, ?_⟩
    · intro a b ha hb
      rw [hown hu ha, hown hv hb]
      exact ⟨⟨_, k2.cell, rfl⟩, ⟨_, k3.cell, rfl⟩⟩
    · intro x N hx hxs hxt hN
      obtain ⟨ox, tx, htx, rfl⟩ := hr.tree hx hN
      obtain ⟨l, rfl⟩ := htx.ok.hdr
      exact (contents_iff (hc.other hI hu hv hxs hxt htx)).2 rfl

example : ∃ w L M, FReach pairLt w ∧ Alive w (.stk 0) ∧ Alive w (.stk 1) ∧ Contents w (.stk 0) L ∧ Contents w (.stk 1) M ∧
    SameAlloc w (.stk 0) (.stk 1) ∧ L.length = 4 ∧ M.length = 1 := by
  obtain ⟨w, L, M, h1, _, h2, h3, h4, h5, h6, h7, h8, h9⟩ := fdemo 7
  refine ⟨w, L, M, h1, h2, h3, h4, h5, ⟨7, h8, h9⟩, ?_, ?_⟩
  · simpa using congrArg List.length h6
  · simpa using congrArg List.length h7

/-! ### C73: move assignment -/

/-- C73: `d.m_move_assign(s)` for two different objects succeeds exactly if the allocator propagates or the two allocators are
equal.  On success `d` holds exactly the elements of `s`, in the same nodes, `s` is empty, the nodes of the old elements of
`d` are released, and nothing is allocated or compared; otherwise nothing at all is changed. -/
theorem tree_move_assign (hr : FReach lt w) (hd : Alive w d) (hs : Alive w s) (hne : d ≠ s) (hL : Contents w d L)
    (hM : Contents w s M) :
    ∃ b w', Runs (moveAssign prop d s) w b w' ∧ (b = true ↔ prop = true ∨ SameAlloc w d s) ∧ (b = false → w' = w) ∧
      (b = true → Contents w' d M ∧ Contents w' s [] ∧ (∀ x ∈ L, w'.heap x.1 = none) ∧ (∀ a, UsesAlloc w s a → UsesAlloc w' d a)) ∧
      w'.err = w.err ∧ w'.nAlloc = w.nAlloc ∧ w'.nCtor = w.nCtor ∧ w'.nCmp = w.nCmp ∧
      ∀ x N, Alive w x → x ≠ d → x ≠ s → Contents w x N → Contents w' x N := by
  have hI := hr.inv
  obtain ⟨o, u, hu, rfl⟩ := hr.tree hd hL
  obtain ⟨o', v, hv, rfl⟩ := hr.tree hs hM
  have hown : ∀ {x o} {u : T K} {a}, Tree w.heap x o u → UsesAlloc w x a → a = o := by
    rintro x o u a h ⟨n, n1, n2⟩
    rw [h.cell] at n1
    cases n1; exact n2.symm
  have hsame : SameAlloc w d s ↔ o = o' := by
    constructor
    · rintro ⟨a, ha, hb⟩; exact (hown hu ha).symm.trans (hown hv hb)
    · rintro rfl; exact ⟨o, ⟨_, hu.cell, rfl⟩, _, hv.cell, rfl⟩
  obtain ⟨i, hi⟩ := hu.ok.hdr
  obtain ⟨j, hj⟩ := hv.ok.hdr
  have hij : i ≠ j := by rintro rfl; exact hne (hi.trans hj.symm)
  have hdj : ∀ q ∈ u.ptrs, q ∉ v.ptrs := by
    subst hi hj; exact hI.disj hu hv hij
  by_cases hok : prop = true ∨ o = o'
  · obtain ⟨b, w2, k1, rfl, H', rfl, k2, k3, k4, k5⟩ := (wp_moveAssign (Q := fun b w' => b = true ∧ ∃ H', w' = w.setHeap H' ∧ Tree H' d o' v ∧
      Tree H' s o' .nil ∧ (∀ q ∈ u.ptrs, H' q = none) ∧ ∀ q, q ≠ d → q ≠ s → q ∉ u.ptrs → q ∉ v.ptrs → H' q = w.heap q) hu hv hne hdj hok
      (fun H' a b c d => ⟨rfl, H', rfl, a, b, c, d⟩)).runs
    have hc : Change2 w (w.setHeap H') d s u v v .nil := by
      refine ⟨Ext.setHeap _ _, fun q h => Or.inr h, fun q h => by simp [T.ptrs, T.nodes] at h,
          fun q _ => by simp [T.ptrs, T.nodes], ?_, k5⟩
      rintro q (h | h) h4 h5
      · exact k4 q h
      · exact absurd h h4
    refine ⟨true, _, k1, ?_, fun h => absurd h (by simp), ?_, rfl, rfl, rfl, rfl, ?_⟩
    · rw [hsame]; simpa using hok
    · intro _
      refine ⟨(contents_iff (by exact k2)).2 rfl, (contents_iff (t := .nil) (by exact k3)).2 rfl, ?_, ?_⟩
      · intro x hx
        exact k4 _ (List.mem_map_of_mem hx)
      · intro a ha
        rw [hown hv ha]
        exact ⟨_, k2.cell, rfl⟩
    · intro x N hx hxs hxt hN
      obtain ⟨ox, tx, htx, rfl⟩ := hr.tree hx hN
      obtain ⟨l, rfl⟩ := htx.ok.hdr
      exact (contents_iff (hc.other hI hu hv hxs hxt htx)).2 rfl
  · have hp : prop = false := by simpa using fun e => hok (Or.inl e)
    obtain ⟨b, w2, k1, rfl, rfl⟩ := (wp_moveAssign_refused (Q := fun b w' => b = false ∧ w' = w) hu hv hp (fun e => hok (Or.inr e))
      ⟨rfl, rfl⟩).runs
    refine ⟨false, _, k1, ?_, fun _ => rfl, fun h => absurd h (by simp), rfl, rfl, rfl, rfl, fun x N _ _ _ h => h⟩
    rw [hsame]; simpa using hok

example : ∃ w L M, FReach pairLt w ∧ Alive w (.stk 0) ∧ Alive w (.stk 1) ∧ Contents w (.stk 0) L ∧ Contents w (.stk 1) M ∧
    ¬ SameAlloc w (.stk 0) (.stk 1) ∧ L.length = 4 ∧ M.length = 1 := by
  obtain ⟨w, L, M, h1, _, h2, h3, h4, h5, h6, h7, h8, h9⟩ := fdemo 8
  refine ⟨w, L, M, h1, h2, h3, h4, h5, ?_, ?_, ?_⟩
  · rintro ⟨a, ⟨n, n1, n2⟩, m, m1, m2⟩
    obtain ⟨n', n3, n4⟩ := h8
    obtain ⟨m', m3, m4⟩ := h9
    rw [n1] at n3; cases n3
    rw [m1] at m3; cases m3
    omega
  · simpa using congrArg List.length h6
  · simpa using congrArg List.length h7

/-- C73: assigning an object to itself by move empties it (as the code is written; it never fails). -/
theorem tree_self_move_assign_empties (hr : FReach lt w) (hs : Alive w s) (hL : Contents w s L) :
    ∃ w', Runs (moveAssign prop s s) w true w' ∧ Contents w' s [] ∧ ∀ x ∈ L, w'.heap x.1 = none := by
  obtain ⟨o, u, hu, rfl⟩ := hr.tree hs hL
  obtain ⟨b, w2, k1, rfl, H', rfl, k2, k3⟩ := (wp_moveAssign_self (prop := prop) (Q := fun b w' => b = true ∧ ∃ H', w' = w.setHeap H' ∧
    Tree H' s o .nil ∧ ∀ q ∈ u.ptrs, H' q = none) hu (fun H' a b _ => ⟨rfl, H', rfl, a, b⟩)).runs
  exact ⟨_, k1, (contents_iff (t := .nil) (by exact k2)).2 rfl, fun x hx => k3 _ (List.mem_map_of_mem hx)⟩

example : ∃ w L, FReach pairLt w ∧ Alive w (.stk 0) ∧ Contents w (.stk 0) L ∧ L.length = 4 := by
  obtain ⟨w, L, M, h1, _, h2, h3, h4, h5, h6, h7, h8, h9⟩ := fdemo 8
  exact ⟨w, L, h1, h2, h4, by simpa using congrArg List.length h6⟩

/-! ### C74: comparisons -/

/-- C74: `==` compares the sequences of elements: it is true exactly if the sizes agree and the elements at equal positions
are equal.  Nothing is changed. -/
theorem tree_equality {eq : K → K → Bool} (hr : FReach lt w) (hs : Alive w s) (ht : Alive w t) (hL : Contents w s L)
    (hM : Contents w t M) :
    ∃ b, Runs (treeEq eq s t) w b w ∧ (b = true ↔ L.length = M.length ∧
      ∀ (i : Nat) x y, L[i]? = some x → M[i]? = some y → eq x.2 y.2 = true) := by
  obtain ⟨o, u, hu, rfl⟩ := hr.tree hs hL
  obtain ⟨o', v, hv, rfl⟩ := hr.tree ht hM
  obtain ⟨b, w2, k1, rfl, rfl⟩ := (wp_treeEq (eq := eq) (Q := fun b w' => b = (u.nodes.map Prod.snd).isEqv (v.nodes.map Prod.snd) eq ∧ w' = w) hu hv
    ⟨rfl, rfl⟩).runs
  refine ⟨_, k1, ?_⟩
  generalize u.nodes = L
  generalize v.nodes = M
  induction L generalizing M with
  | nil =>
    cases M with
    | nil => simp
    | cons y M => simp
  | cons x L ih =>
    cases M with
    | nil => simp
    | cons y M =>
      simp only [List.map_cons, List.isEqv_cons_cons, Bool.and_eq_true, ih, List.length_cons, Nat.add_right_cancel_iff]
      constructor
      · rintro ⟨h1, h2, h3⟩
        refine ⟨h2, ?_⟩
        intro i a b ha hb
        cases i with
        | zero => simp at ha hb; subst ha hb; exact h1
        | succ i => exact h3 i a b (by simpa using ha) (by simpa using hb)
      · rintro ⟨h1, h2⟩
        exact ⟨h2 0 x y rfl rfl, h1, fun i a b ha hb => h2 (i + 1) a b (by simpa using ha) (by simpa using hb)⟩

example : ∃ w L M, FReach pairLt w ∧ Alive w (.stk 0) ∧ Alive w (.stk 1) ∧ Contents w (.stk 0) L ∧ Contents w (.stk 1) M ∧
    L.length = 4 ∧ M.length = 1 := by
  obtain ⟨w, L, M, h1, _, h2, h3, h4, h5, h6, h7, h8, h9⟩ := fdemo 7
  exact ⟨w, L, M, h1, h2, h3, h4, h5, by simpa using congrArg List.length h6, by simpa using congrArg List.length h7⟩

/-- C74: `<` is the lexicographic order of the sequences of elements.  Nothing is changed. -/
theorem tree_less {less : K → K → Bool} (hr : FReach lt w) (hs : Alive w s) (ht : Alive w t) (hL : Contents w s L)
    (hM : Contents w t M) :
    ∃ b, Runs (treeLess less s t) w b w ∧ (b = true ↔ LexBefore less (L.map Prod.snd) (M.map Prod.snd)) := by
  obtain ⟨o, u, hu, rfl⟩ := hr.tree hs hL
  obtain ⟨o', v, hv, rfl⟩ := hr.tree ht hM
  obtain ⟨b, w2, k1, k2, rfl⟩ := (wp_treeLess (less := less) (Q := fun b w' => (b = true ↔ LexBefore less (u.nodes.map Prod.snd) (v.nodes.map Prod.snd)) ∧ w' = w)
    hu hv (fun b hb => ⟨hb, rfl⟩)).runs
  exact ⟨b, k1, k2⟩

example : ∃ w L M, FReach pairLt w ∧ Alive w (.stk 0) ∧ Alive w (.stk 1) ∧ Contents w (.stk 0) L ∧ Contents w (.stk 1) M ∧
    LexBefore pairLt (L.map Prod.snd) (M.map Prod.snd) ∧ ¬ LexBefore pairLt (M.map Prod.snd) (L.map Prod.snd) := by
  obtain ⟨w, L, M, h1, _, h2, h3, h4, h5, h6, h7, h8, h9⟩ := fdemo 7
  refine ⟨w, L, M, h1, h2, h3, h4, h5, ?_, ?_⟩
  · rw [h6, h7]
    exact ⟨0, by simp, .inl ⟨_, _, rfl, rfl, rfl⟩, by simp, by simp⟩
  · rw [h6, h7]
    rintro ⟨i, a, b, c, e⟩
    rcases i with _ | _ | i
    · rcases b with ⟨x, y, b1, b2, b3⟩ | ⟨b1, -⟩
      · simp at b1 b2; subst b1 b2; simp [pairLt] at b3
      · simp at b1
    · have := (a 0 _ _ (by omega) rfl rfl).2
      simp [pairLt] at this
    · simp at c

/-! ### C75: the self check -/

/-- C75: the self check accepts every object that can be reached by any history of calls, whatever failed on the way: the
tree is balanced (no red node has a red child, all paths have the same number of black nodes), ordered, and its first and last
elements are recorded correctly.  It changes nothing and compares at most twice per element. -/
theorem tree_self_check_accepts (hr : FReach lt w) (hs : SWO lt) (ha : Alive w s) (hL : Contents w s L) :
    ∃ w', Runs (rbVerify lt s) w true w' ∧ w'.heap = w.heap ∧ w'.err = w.err ∧ w'.nAlloc = w.nAlloc ∧
      w'.nCmp ≤ w.nCmp + 2 * L.length := by
  obtain ⟨o, u, hu, rfl⟩ := hr.tree ha hL
  have hsort := hr.inv.prop hu hs
  obtain ⟨b, w2, k1, rfl, m, k2, rfl⟩ := (wp_rbVerify (lt := lt) (Q := fun b w' => b = true ∧ ∃ m, m ≤ 2 * u.nodes.length ∧ w' = w.addCmp m) hu.linked (by
    intro b m hm hb
    exact ⟨hb.2 (fun p _ => hu.rb.choose_spec.sound hsort p), m, hm, rfl⟩)).runs
  exact ⟨_, k1, rfl, rfl, rfl, by simp only [World.addCmp]; omega⟩

example : ∃ w L, FReach pairLt w ∧ SWO pairLt ∧ Alive w (.stk 0) ∧ Contents w (.stk 0) L ∧ L.length = 4 := by
  obtain ⟨w, L, M, h1, _, h2, h3, h4, h5, h6, h7, h8, h9⟩ := fdemo 8
  exact ⟨w, L, h1, pairLt_swo, h2, h4, by simpa using congrArg List.length h6⟩

/-- C75: the self check rejects an object with at least two elements if the comparator orders every two of its elements the
other way round. -/
theorem tree_self_check_rejects {lt' : K → K → Bool} (hr : FReach lt w) (ha : Alive w s) (hL : Contents w s L)
    (h2 : 2 ≤ L.length) (hrev : L.Pairwise (fun a b => lt' b.2 a.2 = true)) :
    ∃ w', Runs (rbVerify lt' s) w false w' ∧ w'.heap = w.heap := by
  obtain ⟨o, u, hu, rfl⟩ := hr.tree ha hL
  obtain ⟨b, w2, k1, rfl, k2⟩ := (wp_rbVerify (lt := lt') (Q := fun b w' => b = false ∧ w'.heap = w.heap) hu.linked (by
    intro b m hm hb
    refine ⟨?_, rfl⟩
    cases b with
    | false => rfl
    | true => exact absurd (hb.1 rfl) (reversed_not_local hrev h2))).runs
  exact ⟨_, k1, k2⟩

example : ∃ w L, FReach pairLt w ∧ Alive w (.stk 0) ∧ Contents w (.stk 0) L ∧ 2 ≤ L.length ∧
    L.Pairwise (fun a b => (fun x y : Nat × Nat => decide (y.1 < x.1 ∨ (y.1 = x.1 ∧ y.2 < x.2))) b.2 a.2 = true) := by
  obtain ⟨w, L, M, h1, _, h2, h3, h4, h5, h6, h7, h8, h9⟩ := fdemo 8
  refine ⟨w, L, h1, h2, h4, ?_, ?_⟩
  · have := congrArg List.length h6
    simp at this; omega
  · have : (L.map Prod.snd).Pairwise (fun a b => (fun x y : Nat × Nat => decide (y.1 < x.1 ∨ (y.1 = x.1 ∧ y.2 < x.2))) b a = true) := by
      rw [h6]
      decide
    rwa [List.pairwise_map] at this

/-- No red node has a red child. -/
def NoRedRed : T K → Prop
  | .nil => True
  | .node _ c l _ r => (c = .red → l.color = .black ∧ r.color = .black) ∧ NoRedRed l ∧ NoRedRed r

/-- Every node is in order with its two children. -/
def ChildOrder (lt : K → K → Bool) : T K → Prop
  | .nil => True
  | .node _ _ l k r => okLeft lt k l ∧ okRight lt k r ∧ ChildOrder lt l ∧ ChildOrder lt r

/-- Numbers of black nodes on the paths to the nodes without children. -/
def leafBlacks : T K → List Nat
  | .nil => []
  | .node _ c .nil _ .nil => [if c = .black then 1 else 0]
  | .node _ c l _ r => (leafBlacks l ++ leafBlacks r).map (· + if c = .black then 1 else 0)

theorem sound_split {n a : Nat} {t : T K} : Sound lt n a t ↔ NoRedRed t ∧ ChildOrder lt t ∧ ∀ m ∈ leafBlacks t, a + m = n := by
  induction t generalizing a with
  | nil => simp [Sound, NoRedRed, ChildOrder, leafBlacks]
  | node p c l k r ihl ihr =>
    simp only [Sound, NoRedRed, ChildOrder, ihl, ihr]
    have hl : (∀ m ∈ leafBlacks (.node p c l k r), a + m = n) ↔ (l = .nil → r = .nil → a + (if c = .black then 1 else 0) = n) ∧
        (∀ m ∈ leafBlacks l, a + (if c = .black then 1 else 0) + m = n) ∧ ∀ m ∈ leafBlacks r, a + (if c = .black then 1 else 0) + m = n := by
      cases l with
      | nil =>
        cases r with
        | nil => simp [leafBlacks]
        | node => simp [leafBlacks, Nat.add_comm, Nat.add_left_comm]
      | node =>
        simp only [leafBlacks, List.mem_map, List.mem_append, reduceCtorEq, false_implies, true_and]
        constructor
        · intro h
          constructor
          · intro m hm
            rw [Nat.add_right_comm, Nat.add_assoc]
            exact h _ ⟨m, Or.inl hm, rfl⟩
          · intro m hm
            rw [Nat.add_right_comm, Nat.add_assoc]
            exact h _ ⟨m, Or.inr hm, rfl⟩
        · rintro ⟨h1, h2⟩ m ⟨x, hx | hx, rfl⟩
          · have := h1 x hx; omega
          · have := h2 x hx; omega
    rw [hl]
    constructor
    · rintro ⟨⟨a1, a2, a3, a4⟩, ⟨b1, b2, b3⟩, c1, c2, c3⟩
      exact ⟨⟨a1, b1, c1⟩, ⟨a2, a3, b2, c2⟩, a4, b3, c3⟩
    · rintro ⟨⟨a1, b1, c1⟩, ⟨a2, a3, b2, c2⟩, a4, b3, c3⟩
      exact ⟨⟨a1, a2, a3, a4⟩, ⟨b1, b2, b3⟩, c1, c2, c3⟩

/-- C75: what the self check finds out about any well linked tree, with arbitrary colours and keys: it answers true exactly if
no red node has a red child, every node is in order with its children, and all paths to nodes without children have as many
black nodes as the path to the first element. -/
theorem tree_self_check_exact {o : Nat} {t : T K} (h : Linked w.heap s o t) :
    ∃ b w', Runs (rbVerify lt s) w b w' ∧ w'.heap = w.heap ∧
      (b = true ↔ NoRedRed t ∧ ChildOrder lt t ∧ ∀ m ∈ leafBlacks t, m = leftBlack t) := by
  obtain ⟨b, w2, k1, k2, k3⟩ := (wp_rbVerify (lt := lt) (Q := fun b w' => w'.heap = w.heap ∧
    (b = true ↔ NoRedRed t ∧ ChildOrder lt t ∧ ∀ m ∈ leafBlacks t, m = leftBlack t)) h (by
    intro b m hm hb
    refine ⟨rfl, hb.trans ?_⟩
    rw [sound_iff, sound_split]
    simp)).runs
  exact ⟨b, w2, k1, k2, k3⟩

/-- The memory that holds one object `stk 0` with the tree `t` and nothing else. -/
def heapOf (t : T Nat) (par : Ptr) (H : Ptr → Option (TNode Nat)) : Ptr → Option (TNode Nat) :=
  match t with
  | .nil => H
  | .node p c l k r => upd (heapOf r p (heapOf l p H)) p (some (cellS .L c par l.ptr r.ptr k 7))

/-- A root and one child. -/
def twoTree (c d : Color) : T Nat := .node (.dyn 0) c (.node (.dyn 1) d .nil 1 .nil) 2 .nil

/-- The state with the tree `twoTree c d`. -/
def twoWorld (c d : Color) : W Nat :=
  (start goodEnv).setHeap (upd (heapOf (twoTree c d) (.stk 0) (fun _ => none)) (.stk 0) (some (hdCell ⟨.dyn 1, .dyn 0, 7, 2⟩ (.dyn 0))))

theorem twoWorld_linked (c d : Color) : Linked (twoWorld c d).heap (.stk 0) 7 (twoTree c d) := by
  refine ⟨?_, ?_, ?_, ?_, ⟨0, rfl⟩⟩
  · simp [twoWorld, twoTree, T.nodes, firstP, lastP, T.ptr]
  · simp [twoWorld, twoTree, Rep, heapOf, T.ptr, upd]
  · simp [twoTree, T.ptrs, T.nodes]
  · simp [twoTree, T.ptrs, T.nodes]

-- a red node with a red child is found
example : ∃ w', Runs (rbVerify (fun a b : Nat => decide (a < b)) (.stk 0)) (twoWorld .red .red) false w' := by
  obtain ⟨b, w', h1, -, h2⟩ := tree_self_check_exact (lt := fun a b : Nat => decide (a < b)) (twoWorld_linked .red .red)
  cases b with
  | false => exact ⟨w', h1⟩
  | true =>
    have := (h2.1 rfl).1.1 rfl
    simp [T.color] at this

/-- C75: the self check of an object whose header records no elements or no first element, whatever else is in memory: it
answers true exactly if the recorded size is zero and the header is recorded as first and as last element. -/
theorem tree_self_check_header_empty {cell : TNode K} (hc : w.heap s = some cell) (h0 : s ≠ .null)
    (he : cell.count = 0 ∨ cell.left = s) :
    ∃ b, Runs (rbVerify lt s) w b w ∧ (b = true ↔ cell.count = 0 ∧ cell.left = s ∧ cell.right = s) := by
  obtain ⟨b, w2, k1, rfl, k2⟩ := (wp_rbVerify_empty (lt := lt)
    (Q := fun b w' => w' = w ∧ (b = true ↔ cell.count = 0 ∧ cell.left = s ∧ cell.right = s)) hc h0 he (by
    intro b hb; exact ⟨rfl, hb⟩)).runs
  exact ⟨b, k1, k2⟩

-- an empty object with a wrong last element is found
example : Runs (rbVerify (fun a b : Nat => decide (a < b)) (.stk 0))
    ((start goodEnv).setHeap (upd (fun _ => none) (.stk 0) (some (hdCell ⟨.stk 0, .dyn 3, 7, 0⟩ .null)))) false
    ((start goodEnv).setHeap (upd (fun _ => none) (.stk 0) (some (hdCell ⟨.stk 0, .dyn 3, 7, 0⟩ .null)))) := by
  obtain ⟨b, h1, h2⟩ := tree_self_check_header_empty (lt := fun a b : Nat => decide (a < b)) (s := .stk 0)
    (w := (start goodEnv).setHeap (upd (fun _ => none) (.stk 0) (some (hdCell ⟨.stk 0, .dyn 3, 7, 0⟩ .null))))
    (cell := hdCell ⟨.stk 0, .dyn 3, 7, 0⟩ .null) (by simp) (by simp) (Or.inl rfl)
  cases b with
  | false => exact h1
  | true =>
    have := (h2.1 rfl).2.2
    simp [hdCell] at this

/-- C75: what the self check finds out about any well linked tree whose header records some element as the first one, any
address as the last one, and any size but zero: it answers true exactly if the recorded first and last elements are the first
and last ones in the order of the tree, no red node has a red child, every node is in order with its children, and all paths
to nodes without children have as many black nodes as the path to the first element. -/
theorem tree_self_check_header {hd : Hd} {t : T K} (h : LinkedH w.heap s hd t) (hcnt : hd.cnt ≠ 0) (hlm : hd.lm ∈ t.ptrs) :
    ∃ b w', Runs (rbVerify lt s) w b w' ∧ w'.heap = w.heap ∧
      (b = true ↔ hd.lm = firstP s t.nodes ∧ hd.rm = lastP s t.nodes ∧ NoRedRed t ∧ ChildOrder lt t ∧
        ∀ m ∈ leafBlacks t, m = leftBlack t) := by
  obtain ⟨b, w2, k1, k2, k3⟩ := (wp_rbVerifyH (lt := lt) (Q := fun b w' => w'.heap = w.heap ∧
    (b = true ↔ hd.lm = firstP s t.nodes ∧ hd.rm = lastP s t.nodes ∧ NoRedRed t ∧ ChildOrder lt t ∧
      ∀ m ∈ leafBlacks t, m = leftBlack t)) h hcnt hlm (by
    intro b m hm hb
    refine ⟨rfl, hb.trans ?_⟩
    rw [sound_iff, sound_split]
    simp)).runs
  exact ⟨b, w2, k1, k2, k3⟩

/-- The state with the tree `twoTree c d` and arbitrary data in the header. -/
def twoWorldH (c d : Color) (lm rm : Ptr) (cnt : Nat) : W Nat :=
  (start goodEnv).setHeap (upd (heapOf (twoTree c d) (.stk 0) (fun _ => none)) (.stk 0) (some (hdCell ⟨lm, rm, 7, cnt⟩ (.dyn 0))))

theorem twoWorldH_linked (c d : Color) (lm rm : Ptr) (cnt : Nat) :
    LinkedH (twoWorldH c d lm rm cnt).heap (.stk 0) ⟨lm, rm, 7, cnt⟩ (twoTree c d) := by
  refine ⟨?_, ?_, ?_, ?_, ⟨0, rfl⟩⟩
  · simp [twoWorldH, twoTree, T.ptr]
  · simp [twoWorldH, twoTree, Rep, heapOf, T.ptr, upd]
  · simp [twoTree, T.ptrs, T.nodes]
  · simp [twoTree, T.ptrs, T.nodes]

-- a wrong last element is found although the tree itself is in order
example : ∃ w', Runs (rbVerify (fun a b : Nat => decide (a < b)) (.stk 0)) (twoWorldH .black .red (.dyn 1) (.dyn 1) 2) false w' := by
  obtain ⟨b, w', h1, -, h2⟩ := tree_self_check_header (lt := fun a b : Nat => decide (a < b))
    (twoWorldH_linked .black .red (.dyn 1) (.dyn 1) 2) (by simp) (by simp [twoTree, T.ptrs, T.nodes])
  cases b with
  | false => exact ⟨w', h1⟩
  | true =>
    have := (h2.1 rfl).2.1
    simp [twoTree, T.nodes, lastP] at this

/-- C75: the recorded size is not checked: with a correct red-black tree of two elements and any recorded size but zero the
self check answers true. -/
theorem tree_self_check_ignores_size {n : Nat} (hn : n ≠ 0) :
    ∃ w', Runs (rbVerify (fun a b : Nat => decide (a < b)) (.stk 0)) (twoWorldH .black .red (.dyn 1) (.dyn 0) n) true w' := by
  obtain ⟨b, w', h1, -, h2⟩ := tree_self_check_header (lt := fun a b : Nat => decide (a < b))
    (twoWorldH_linked .black .red (.dyn 1) (.dyn 0) n) hn (by simp [twoTree, T.ptrs, T.nodes])
  have : b = true := by
    rw [h2]
    simp [twoTree, T.nodes, firstP, lastP, NoRedRed, ChildOrder, leafBlacks, leftBlack, okLeft, okRight, T.color]
  subst this
  exact ⟨w', h1⟩

example : (1000 : Nat) ≠ 0 := by decide

/-- C75: the self check is not complete: it accepts this tree, a black root with one black child, although it is not a
red-black tree (the paths to the missing children have different numbers of black nodes). -/
theorem tree_self_check_incomplete :
    (∃ w', Runs (rbVerify (fun a b : Nat => decide (a < b)) (.stk 0)) (twoWorld .black .black) true w') ∧
      ¬ ∃ n, RB (twoTree .black .black) n := by
  constructor
  · obtain ⟨b, w', h1, -, h2⟩ := tree_self_check_exact (lt := fun a b : Nat => decide (a < b)) (twoWorld_linked .black .black)
    have : b = true := by
      rw [h2]
      simp [twoTree, NoRedRed, ChildOrder, leafBlacks, leftBlack, okLeft, okRight]
    subst this
    exact ⟨w', h1⟩
  · rintro ⟨n, h⟩
    obtain ⟨m, h1, h2, h3⟩ := h
    obtain ⟨j, h4, -, -⟩ := h2
    simp only [RB] at h3
    omega

/-! ### C76: erasing an array of keys, and histories of all calls -/

/-- C76: erasing an array of keys removes exactly the elements that are equivalent to one of the keys, releases their nodes,
keeps all other elements in their nodes and order, and never fails. -/
theorem tree_erase_keys {ks : List K} (hr : FReach lt w) (hs : SWO lt) (ha : Alive w s) (hL : Contents w s L) :
    ∃ w', Runs (eraseKeys lt s ks) (ready w) () w' ∧ Contents w' s (L.filter (fun x => unlike lt ks x.2)) ∧ w'.err = none ∧
      (∀ x ∈ L, (∃ k ∈ ks, Equiv lt x.2 k) → w'.heap x.1 = none) ∧
      ∀ y N, Alive w y → y ≠ s → Contents w y N → Contents w' y N := by
  have hI := hr.inv
  obtain ⟨o, u, hu, rfl⟩ := hr.tree ha hL
  obtain ⟨⟨⟩, w', k1, v, k2, k3, k4, k5, k6⟩ := (wp_eraseKeys (ks := ks) (w := ready w) (lt := lt) (Q := fun _ w' => ∃ v, Tree w'.heap s o v ∧
    Change (ready w) w' s u v ∧ w'.err = none ∧ v.nodes.Sublist u.nodes ∧
    (SWO lt → v.nodes = u.nodes.filter (fun x => unlike lt ks x.2))) hu rfl (fun hs => ⟨hs, hI.prop hu hs⟩)
    (fun w' v a b c d _ f => ⟨v, a, b, c, d, f⟩)).runs
  refine ⟨w', k1, (contents_iff k2).2 (k6 hs).symm, k4, ?_, ?_⟩
  · rintro x hx ⟨k, hk, e1, e2⟩
    refine k3.gone _ (List.mem_map_of_mem hx) ?_
    intro hm
    rw [T.ptrs, k6 hs] at hm
    obtain ⟨y, hy, he⟩ := List.mem_map.1 hm
    rw [List.mem_filter] at hy
    have hxy : y = x := by
      have hnd := hu.ok.nodup
      rw [T.ptrs] at hnd
      obtain ⟨y1, y2⟩ := y
      obtain ⟨x1, x2⟩ := x
      simp only at he
      subst he
      obtain ⟨A, B, e⟩ := List.append_of_mem hx
      have hy1 := hy.1
      rw [e] at hnd hy1
      rw [List.mem_append, List.mem_cons] at hy1
      simp only [List.map_append, List.map_cons, List.nodup_append, List.nodup_cons] at hnd
      rcases hy1 with h | h | h
      · exact absurd rfl (hnd.2.2 y1 (List.mem_map_of_mem (f := Prod.fst) h) y1 (by simp))
      · exact h
      · exact absurd (List.mem_map_of_mem (f := Prod.fst) h) hnd.2.1.1
    rw [hxy] at hy
    have := hy.2
    simp only [unlike, List.all_eq_true] at this
    have := this k hk
    simp [e1, e2] at this
  · intro y N hy hne hN
    obtain ⟨oy, ty, hty, rfl⟩ := hr.tree hy hN
    obtain ⟨j, rfl⟩ := hty.ok.hdr
    exact (contents_iff (k3.other hI.ready (by exact hu) hne hty k2)).2 rfl

example : ∃ w L, FReach pairLt w ∧ SWO pairLt ∧ Alive w (.stk 0) ∧ Contents w (.stk 0) L ∧
    (L.map Prod.snd).filter (unlike pairLt [(2, 9), (3, 4), (8, 8)]) = [(1, 0)] := by
  obtain ⟨w, L, M, h1, _, h2, h3, h4, h5, h6, h7, h8, h9⟩ := fdemo 8
  refine ⟨w, L, h1, pairLt_swo, h2, h4, ?_⟩
  rw [h6]
  decide

/-- C76: after any history of all the calls (insertions of all kinds, erasures, copies, moves, exchanges, move assignments),
iterating over a live object yields exactly the sequence of keys that the history describes, in order. -/
theorem tree_history_refinement {env : Env (TNode K)} {h : List (FEntry K)} (hh : FHist lt env h w) (hs : SWO lt) (ha : Alive w s) :
    ∃ L, Contents w s L ∧ L.map Prod.snd = famRun lt h s ∧ (L.map Prod.snd).Pairwise (fun a b => lt b a = false) := by
  obtain ⟨i, o, t, rfl, _, ht, hsort⟩ := hh.inv.tree ha
  refine ⟨t.nodes, (contents_iff ht).2 rfl, hh.kabs hs _ _ _ ht, ?_⟩
  rw [List.pairwise_map]
  exact hsort hs

/-- C76: every valid call on every reachable state terminates without any fault and leads to a reachable state. -/
theorem tree_memory_safe {c : FCall K} (hr : FReach lt w) (hv : FValid lt w c) :
    ∃ r w', Runs (fexec lt c) (ready w) r w' ∧ FReach lt w' := by
  obtain ⟨r, w', h1, h2, _⟩ := hr.step hv
  exact ⟨r, w', h1, h2⟩

-- a history with an exchange: afterwards object 1 holds the four elements
example : ∃ env h w, FHist pairLt env h w ∧ Alive w (.stk 1) ∧ famRun pairLt h (.stk 1) = [(1, 0), (2, 0), (2, 1), (3, 0)] := by
  obtain ⟨w, L, M, ⟨env, h, h1⟩, _, h2, h3, h4, h5, h6, h7, h8, h9⟩ := fdemo 7
  have hv : FValid pairLt w (.swap false (.stk 0) (.stk 1)) := ⟨h2, h3, Or.inr ⟨7, h8, h9⟩⟩
  obtain ⟨r, w', hr, -, he⟩ := FReach.step ⟨_, _, h1⟩ hv
  have hw := FHist.call h1 hv hr
  have h0 : famRun pairLt h (.stk 0) = [(1, 0), (2, 0), (2, 1), (3, 0)] := by
    obtain ⟨L', c1, c2, _⟩ := tree_history_refinement h1 pairLt_swo h2
    obtain ⟨rfl, -⟩ := Nestl.Runs.det h4 c1
    rw [← c2, h6]
  refine ⟨env, _, w', hw, ?_, ?_⟩
  · cases he with
    | swap _ _ _ _ ht => exact ⟨1, rfl, ht.ne_none⟩
  · simp only [famRun, famStep]
    rw [put_same, h0]

example : ∃ w, FReach pairLt w ∧ FValid pairLt w (.assign false (.stk 0) (.stk 1)) ∧ FValid pairLt w (.swap true (.stk 0) (.stk 1)) := by
  obtain ⟨w, L, M, h1, _, h2, h3, _⟩ := fdemo 8
  exact ⟨w, h1, ⟨h2, h3⟩, h2, h3, Or.inl rfl⟩

/-- C76: nothing is ever leaked: every allocated block is a node of exactly one live object. -/
theorem tree_no_leak {a : Nat} (hr : FReach lt w) (hm : w.heap (.dyn a) ≠ none) :
    ∃ s L k, Alive w s ∧ Contents w s L ∧ (.dyn a, k) ∈ L ∧
      ∀ s' L' k', Alive w s' → Contents w s' L' → (.dyn a, k') ∈ L' → s' = s := by
  have hI := hr.inv
  obtain ⟨i, o, t, ht, hin⟩ := hI.cover a hm
  obtain ⟨k, hk⟩ := mem_ptrs_iff.1 hin
  refine ⟨.stk i, t.nodes, k, ⟨i, rfl, ht.ne_none⟩, (contents_iff ht).2 rfl, hk, ?_⟩
  intro s' L' k' ha hc hk'
  obtain ⟨o2, t2, ht2, rfl⟩ := hr.tree ha hc
  obtain ⟨j, rfl⟩ := ht2.ok.hdr
  by_cases e : j = i
  · rw [e]
  · exact absurd hin (hI.disj ht2 ht e _ (mem_ptrs_iff.2 ⟨k', hk'⟩))

example : ∃ w a, FReach pairLt w ∧ w.heap (.dyn a) ≠ none := by
  obtain ⟨w, L, M, h1, _, h2, h3, h4, h5, h6, h7, _⟩ := fdemo 8
  obtain ⟨o, t, ht, rfl⟩ := h1.tree h3 h5
  cases t with
  | nil => simp [T.nodes] at h7
  | node p c l k r =>
    have hm : p ∈ (T.node p c l k r).ptrs := by simp [T.ptrs, T.nodes]
    obtain ⟨a, rfl⟩ := ht.ok.dyn p hm
    obtain ⟨n, hn, _⟩ := Rep_alloc ht.rep _ hm
    exact ⟨w, a, h1, by rw [hn]; simp⟩

end Nestl.Full
