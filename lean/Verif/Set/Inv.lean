import Verif.Set.Client
import Verif.RBTree.CopyOp
set_option autoImplicit false
/-
The invariant of reachable program states and its preservation (helper lemmas of the set properties).
-/
namespace Nestl.Set
open Nestl.RB
variable {K : Type}

theorem posOf_eq (e : Ptr) (L : List (Ptr × K)) : posOf e L = firstP e L := by cases L <;> rfl

section
variable {H H' : Ptr → Option (TNode K)} {hdr : Ptr} {o o' : Nat} {t t' : T K} {w w' : W K} {lt : K → K → Bool} {P : List (Ptr × K) → Prop}

theorem _root_.Nestl.RB.Rep.unique {pr pr' : Ptr} (h : Rep H o pr t) (h' : Rep H o' pr' t') (h0 : Ptr.null ∉ t.ptrs)
    (h0' : Ptr.null ∉ t'.ptrs) (hp : t.ptr = t'.ptr) : t = t' := by
  induction t generalizing pr pr' t' with
  | nil =>
    cases t' with
    | nil => rfl
    | node p' c' l' k' r' =>
      simp only [T.ptr] at hp
      exact absurd (by rw [hp, ptrs_mk_L, mem_ptrs_mk]; simp) h0'
  | node p c l k r ihl ihr =>
    cases t' with
    | nil =>
      simp only [T.ptr] at hp
      exact absurd (by rw [← hp, ptrs_mk_L, mem_ptrs_mk]; simp) h0
    | node p' c' l' k' r' =>
      simp only [T.ptr] at hp
      subst hp
      obtain ⟨h1, h2, h3⟩ := h
      obtain ⟨g1, g2, g3⟩ := h'
      rw [h1] at g1
      simp only [cellS, Option.some.injEq, TNode.mk.injEq] at g1
      obtain ⟨rfl, rfl, hl, hr, rfl, rfl, -⟩ := g1
      rw [ptrs_mk_L, mem_ptrs_mk] at h0 h0'
      rw [ihl h2 g2 (by grind) (by grind) hl, ihr h3 g3 (by grind) (by grind) hr]

theorem _root_.Nestl.RB.Tree.unique (h : Tree H hdr o t) (h' : Tree H hdr o' t') : o = o' ∧ t = t' := by
  have e := h.cell.symm.trans h'.cell
  simp only [hdCell, Option.some.injEq, TNode.mk.injEq] at e
  exact ⟨e.2.2.2.2.2.1, Rep.unique h.rep h'.rep h.null_notMem h'.null_notMem e.2.1⟩

theorem wp_walkFrom {A B : List (Ptr × K)} (h : Tree w.heap hdr o t) (hn : t.nodes = A ++ B)
    {Q : List (Ptr × K) → W K → Prop} (hQ : Q B w) : wp (walkFrom (firstP hdr B) hdr) w Q := by
  induction B generalizing A Q with
  | nil =>
    rw [walkFrom]
    exact wp_if_pos rfl hQ
  | cons x B ih =>
    rcases x with ⟨p, k⟩
    have hp : p ∈ t.ptrs := by rw [T.ptrs, hn]; simp
    rw [walkFrom]
    refine wp_if_neg (h.node_ne_hdr hp) ?_
    simp only [wp_bind, firstP_cons]
    rw [wp_keyOf_mem h hn]
    refine wp_increment' h hn ?_
    exact ih (A := A ++ [(p, k)]) (by simp [hn]) hQ

/-- Iterating over a part of a set. -/
theorem wp_walkRange {A M B : List (Ptr × K)} (h : Tree w.heap hdr o t) (hn : t.nodes = A ++ (M ++ B))
    {Q : List (Ptr × K) → W K → Prop} (hQ : Q M w) : wp (walkFrom (firstP hdr (M ++ B)) (firstP hdr B)) w Q := by
  induction M generalizing A Q with
  | nil =>
    rw [walkFrom]
    exact wp_if_pos rfl hQ
  | cons x M ih =>
    rcases x with ⟨p, k⟩
    have hp : p ∈ t.ptrs := by rw [T.ptrs, hn]; simp
    have hne : p ≠ firstP hdr B := by
      cases B with
      | nil => exact h.node_ne_hdr hp
      | cons b B =>
        have hnd := h.ok.nodup
        rw [T.ptrs, hn] at hnd
        simp only [firstP_cons, List.map_append, List.map_cons, List.nodup_append, List.nodup_cons, List.cons_append,
          List.mem_append, List.mem_cons] at hnd ⊢
        grind
    rw [walkFrom]
    refine wp_if_neg hne ?_
    simp only [wp_bind, firstP_cons, List.cons_append]
    rw [wp_keyOf_mem h hn]
    refine wp_increment' h hn ?_
    exact ih (A := A ++ [(p, k)]) (by simp [hn]) hQ

theorem wp_walk (h : Tree w.heap hdr o t) {Q : List (Ptr × K) → W K → Prop} (hQ : Q t.nodes w) : wp (walk hdr) w Q := by
  unfold walk begin_ end_
  simp only [wp_bind]
  rw [wp_rd h.cell h.hdr_ne]
  exact wp_walkFrom (A := []) h rfl hQ

/-- The contents a client observes are the in-order nodes. -/
theorem contents_iff (h : Tree w.heap hdr o t) {L : List (Ptr × K)} : Contents w hdr L ↔ L = t.nodes := by
  obtain ⟨a, s', h1, h2⟩ := wp.runs (wp_walk (Q := fun L w' => L = t.nodes ∧ w' = w) h ⟨rfl, rfl⟩)
  obtain ⟨rfl, rfl⟩ := h2
  constructor
  · intro hc; exact (Runs.det hc h1).1
  · rintro rfl; exact h1

/-- Invariant of reachable states; the contents of every set meet `P`. -/
structure InvP (P : List (Ptr × K) → Prop) (w : W K) : Prop where
  alive : ∀ i, w.heap (.stk i) ≠ none → i < w.sp ∧ ∃ o t, Tree w.heap (.stk i) o t ∧ P t.nodes
  disj : ∀ {i j o t o' t'}, Tree w.heap (.stk i) o t → Tree w.heap (.stk j) o' t' → i ≠ j → ∀ q ∈ t.ptrs, q ∉ t'.ptrs
  cover : ∀ a, w.heap (.dyn a) ≠ none → ∃ i o t, Tree w.heap (.stk i) o t ∧ Ptr.dyn a ∈ t.ptrs
  past : ∀ a, w.heap (.dyn a) ≠ none → ∃ k, k < w.nAlloc ∧ w.env.addr k = some a

/-- Invariant of reachable states. -/
abbrev Inv (lt : K → K → Bool) (w : W K) : Prop := InvP (fun L => SWO lt → Sorted lt L) w

theorem _root_.Nestl.RB.Tree.ne_none (h : Tree H hdr o t) : H hdr ≠ none := by rw [h.cell]; simp

theorem InvP.tree (h : InvP P w) {s : Ptr} (hs : Alive w s) :
    ∃ i o t, s = .stk i ∧ i < w.sp ∧ Tree w.heap s o t ∧ P t.nodes := by
  obtain ⟨i, rfl, hi⟩ := hs
  obtain ⟨h1, o, t, h2, h3⟩ := h.alive i hi
  exact ⟨i, o, t, rfl, h1, h2, h3⟩

theorem InvP.prop (h : InvP P w) (ht : Tree w.heap hdr o t) : P t.nodes := by
  obtain ⟨i, rfl⟩ := ht.ok.hdr
  obtain ⟨_, o', t', h2, h3⟩ := h.alive i ht.ne_none
  obtain ⟨-, rfl⟩ := Tree.unique ht h2
  exact h3

theorem Inv.sorted (h : Inv lt w) (ht : Tree w.heap hdr o t) (hs : SWO lt) : Sorted lt t.nodes := h.prop ht hs

/-- One set object changes from `t` to `t'`; all the other memory is untouched. -/
structure Change (w w' : W K) (hdr : Ptr) (t t' : T K) : Prop where
  ext : Ext w w'
  gone : ∀ q ∈ t.ptrs, q ∉ t'.ptrs → w'.heap q = none
  fresh : ∀ q ∈ t'.ptrs, q ∈ t.ptrs ∨ Fresh w w' q
  frame : ∀ q, q ≠ hdr → q ∉ t.ptrs → q ∉ t'.ptrs → w'.heap q = w.heap q

/-- Other sets keep their tree. -/
theorem Change.other (hc : Change w w' hdr t t') (hI : InvP P w) (ht : Tree w.heap hdr o t) {j : Nat} {o2 : Nat} {t2 : T K}
    (hj : Ptr.stk j ≠ hdr) (h2 : Tree w.heap (.stk j) o2 t2) (ht' : Tree w'.heap hdr o' t') : Tree w'.heap (.stk j) o2 t2 := by
  have hd : ∀ q ∈ t2.ptrs, q ∉ t.ptrs := by
    obtain ⟨i, rfl⟩ := ht.ok.hdr
    exact hI.disj h2 ht (by rintro rfl; exact hj rfl)
  refine h2.congr (hc.frame _ hj ?_ ?_) ?_
  · intro e; obtain ⟨a, ha⟩ := ht.ok.dyn _ e; cases ha
  · intro e; obtain ⟨a, ha⟩ := ht'.ok.dyn _ e; cases ha
  · intro q hq
    refine hc.frame q ?_ (hd q hq) ?_
    · rintro rfl
      obtain ⟨i, rfl⟩ := ht.ok.hdr
      obtain ⟨a, ha⟩ := h2.ok.dyn _ hq
      cases ha
    · intro e
      rcases hc.fresh q e with e1 | e1
      · exact hd q hq e1
      · obtain ⟨n, hn, _⟩ := Rep_alloc h2.rep q hq
        rw [e1.none] at hn; cases hn

/-- ... and no new set objects appear. -/
theorem Change.other_inv (hc : Change w w' hdr t t') (hI : InvP P w) (ht : Tree w.heap hdr o t) {j : Nat} {o2 : Nat} {t2 : T K}
    (hj : Ptr.stk j ≠ hdr) (h2 : Tree w'.heap (.stk j) o2 t2) (ht' : Tree w'.heap hdr o' t') : Tree w.heap (.stk j) o2 t2 := by
  have hne : w.heap (.stk j) ≠ none := by
    rw [← hc.frame _ hj ?_ ?_]
    · exact h2.ne_none
    · intro e; obtain ⟨a, ha⟩ := ht.ok.dyn _ e; cases ha
    · intro e; obtain ⟨a, ha⟩ := ht'.ok.dyn _ e; cases ha
  obtain ⟨_, o3, t3, h3, _⟩ := hI.alive j hne
  obtain ⟨rfl, rfl⟩ := Tree.unique h2 (hc.other hI ht hj h3 ht')
  exact h3

theorem Change.inv (hc : Change w w' hdr t t') (hI : InvP P w) (ht : Tree w.heap hdr o t) (ht' : Tree w'.heap hdr o' t')
    (hsort : P t'.nodes) : InvP P w' := by
  obtain ⟨i0, hi0⟩ := ht.ok.hdr
  refine ⟨?_, ?_, ?_, ?_⟩
  · intro i hi
    rw [hc.ext.sp]
    by_cases h : Ptr.stk i = hdr
    · rw [← h] at ht ht'
      exact ⟨(hI.alive i ht.ne_none).1, o', t', ht', hsort⟩
    · rw [hc.frame _ h ?_ ?_] at hi
      · obtain ⟨h1, o2, t2, h2, h3⟩ := hI.alive i hi
        exact ⟨h1, o2, t2, hc.other hI ht h h2 ht', h3⟩
      · intro e; obtain ⟨a, ha⟩ := ht.ok.dyn _ e; cases ha
      · intro e; obtain ⟨a, ha⟩ := ht'.ok.dyn _ e; cases ha
  · intro i j o1 t1 o2 t2 h1 h2 hij q hq hq2
    have key : ∀ {j o2 t2}, Tree w'.heap (.stk j) o2 t2 → Ptr.stk j ≠ hdr → ∀ q ∈ t2.ptrs, q ∉ t'.ptrs := by
      intro j o2 t2 h2 hj q hq hq2
      have h2' := hc.other_inv hI ht hj h2 ht'
      rcases hc.fresh q hq2 with e | e
      · rw [hi0] at ht
        exact hI.disj h2' ht (by rintro rfl; exact hj hi0.symm) q hq e
      · obtain ⟨n, hn, _⟩ := Rep_alloc h2'.rep q hq
        rw [e.none] at hn; cases hn
    by_cases e1 : Ptr.stk i = hdr
    · have e2 : Ptr.stk j ≠ hdr := by rw [← e1]; simp; exact Ne.symm hij
      rw [e1] at h1
      obtain ⟨-, rfl⟩ := Tree.unique h1 ht'
      exact key h2 e2 q hq2 hq
    · by_cases e2 : Ptr.stk j = hdr
      · rw [e2] at h2
        obtain ⟨-, rfl⟩ := Tree.unique h2 ht'
        exact key h1 e1 q hq hq2
      · exact hI.disj (hc.other_inv hI ht e1 h1 ht') (hc.other_inv hI ht e2 h2 ht') hij q hq hq2
  · intro a ha
    by_cases h1 : Ptr.dyn a ∈ t'.ptrs
    · exact ⟨i0, o', t', hi0 ▸ ht', h1⟩
    · by_cases h2 : Ptr.dyn a ∈ t.ptrs
      · exact absurd (hc.gone _ h2 h1) ha
      · rw [hc.frame _ (by rw [hi0]; simp) h2 h1] at ha
        obtain ⟨i, o2, t2, h3, h4⟩ := hI.cover a ha
        by_cases e : Ptr.stk i = hdr
        · rw [e] at h3
          obtain ⟨-, rfl⟩ := Tree.unique h3 ht
          exact absurd h4 h2
        · exact ⟨i, o2, t2, hc.other hI ht e h3 ht', h4⟩
  · intro a ha
    rw [hc.ext.env]
    have old : w.heap (.dyn a) ≠ none → ∃ k, k < w'.nAlloc ∧ w.env.addr k = some a := by
      intro h
      obtain ⟨k, hk, hk2⟩ := hI.past a h
      exact ⟨k, Nat.lt_of_lt_of_le hk hc.ext.nAlloc, hk2⟩
    have tin : Ptr.dyn a ∈ t.ptrs → w.heap (.dyn a) ≠ none := by
      intro h
      obtain ⟨n, hn, _⟩ := Rep_alloc ht.rep _ h
      rw [hn]; simp
    by_cases h1 : Ptr.dyn a ∈ t'.ptrs
    · rcases hc.fresh _ h1 with e | ⟨-, k, b, hb, -, hk, hk2⟩
      · exact old (tin e)
      · cases hb; exact ⟨k, hk, hk2⟩
    · by_cases h2 : Ptr.dyn a ∈ t.ptrs
      · exact old (tin h2)
      · rw [hc.frame _ (by rw [hi0]; simp) h2 h1] at ha
        exact old ha

/-- Only counters and the error object change. -/
theorem InvP.same (hI : InvP P w) (he : Ext w w') (hh : w'.heap = w.heap) : InvP P w' := by
  refine ⟨?_, ?_, ?_, ?_⟩
  · rw [hh, he.sp]; exact hI.alive
  · rw [hh]; exact hI.disj
  · rw [hh]; exact hI.cover
  · rw [hh, he.env]
    intro a ha
    obtain ⟨k, hk, hk2⟩ := hI.past a ha
    exact ⟨k, Nat.lt_of_lt_of_le hk he.nAlloc, hk2⟩

theorem Ext.ready (w : W K) : Ext w (ready w) := ⟨rfl, rfl, Nat.le_refl _, Nat.le_refl _, Nat.le_refl _⟩

theorem InvP.ready (hI : InvP P w) : InvP P (ready w) := hI.same (Ext.ready w) rfl

theorem InvP.fresh_stk (hI : InvP P w) : w.heap (.stk w.sp) = none := by
  by_cases h : w.heap (.stk w.sp) = none
  · exact h
  · exact absurd (hI.alive _ h).1 (Nat.lt_irrefl _)

theorem InvP.start (env : Env (TNode K)) : InvP P (start env) :=
  ⟨fun _ h => absurd rfl h, fun h => absurd rfl h.ne_none, fun _ h => absurd rfl h, fun _ h => absurd rfl h⟩

end
end Nestl.Set
