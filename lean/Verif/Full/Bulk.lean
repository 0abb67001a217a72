import Verif.RBTree.Bulk
import Verif.Full.RotAmort
import Verif.Full.Costs
set_option autoImplicit false
/-
C127: the cost of inserting a range of values.
-/
namespace Nestl.Full
open Nestl.RB Nestl.Set Nestl.Multi
variable {K : Type} {lt : K → K → Bool} {w w' : W K} {s : Ptr} {L : List (Ptr × K)} {o : Nat} {t : T K} {v : K}

/-- Every value of the list may follow the one before it. -/
def Chain (R : K → K → Prop) : List K → Prop
  | a :: b :: l => R a b ∧ Chain R (b :: l)
  | _ => True

/-- A sorted range that belongs after all elements of `L`: its values are ascending, and the first may follow the last
element of `L`. -/
def SortedAfter (R : K → K → Prop) (L : List (Ptr × K)) (vs : List K) : Prop :=
  Chain R vs ∧ ∀ A a v l, L = A ++ [a] → vs = v :: l → R a.2 v

theorem asymAt (has : Asym lt) (v : K) : ∀ a, lt a v = true → lt v a = false := fun a h => has a v h

theorem endOk (eq : Bool) (has : Asym lt) (v : K) (L : List (Ptr × K)) : (endWay eq s).Ok lt v s L := by
  cases eq
  · exact ⟨asymAt has v, Or.inl rfl⟩
  · exact ⟨asymAt has v, Or.inl rfl⟩

theorem runs_hasErr {b : Bool} (h : w.err.isSome = b) : Runs hasErr w b w := by subst h; rfl

theorem any_range (eq : Bool) (has : Asym lt) (m : Nat) (vs : List K) : ∀ {w : W K} {t : T K}, w.err = none → Tree w.heap s o t →
    t.nodes.length + vs.length ≤ m → ∃ rot passes w' t', Runs (insertRangeByN lt s (endWay eq s) vs) w (rot, passes) w' ∧ Tree w'.heap s o t' ∧
      rot ≤ 2 * vs.length ∧ passes + phi t' ≤ phi t + 7 * vs.length ∧ w'.nCmp ≤ w.nCmp + vs.length * (2 * Nat.log2 (m + 1) + 5) := by
  induction vs with
  | nil => intro w t _ ht _; exact ⟨0, 0, w, t, rfl, ht, by simp, by simp, by simp⟩
  | cons v vs ih =>
    intro w t herr ht hm
    obtain ⟨⟨r, rot, i⟩, w1, h1, t1, k1, k2, -, k4⟩ := wp.runs (wp_insertByN ht (endOk eq has v _) herr)
    obtain ⟨t2, e1, e2, e3⟩ := (insertByN_sim _ _ _ _ trivial h1).wp (wp_endWay eq (asymAt has v) ht herr)
    obtain ⟨-, rfl⟩ := Tree.unique e1 k1
    have hlog : Nat.log2 (t.nodes.length + 1) ≤ Nat.log2 (m + 1) := log2_mono (by omega) (by omega)
    simp only [List.length_cons] at hm ⊢
    rw [Nat.add_mul, Nat.one_mul]
    dsimp only at k2 k4
    cases hz : w1.err with
    | some e =>
      refine ⟨rot, i, w1, t2, runs_seq h1 (runs_seq (runs_hasErr (b := true) (by rw [hz]; rfl)) rfl), e1, by omega, by omega, by omega⟩
    | none =>
      obtain ⟨rot', i', w', t', q1, q2, q3, q4, q5⟩ := ih hz e1 (by omega)
      refine ⟨rot + rot', i + i', w', t', runs_seq h1 (runs_seq (runs_hasErr (b := false) (by rw [hz]; rfl)) ?_), q2, by omega, by omega, by omega⟩
      exact runs_seq q1 rfl

theorem sorted_range (eq : Bool) (has : Asym lt) (vs : List K) : ∀ {w : W K} {t : T K}, w.err = none → Tree w.heap s o t →
    SortedAfter (follows lt eq) t.nodes vs → ∃ rot passes w' t' us rest N, Runs (insertRangeByN lt s (endWay eq s) vs) w (rot, passes) w' ∧
      Tree w'.heap s o t' ∧ t'.nodes = t.nodes ++ N ∧ N.map Prod.snd = us ∧ vs = us ++ rest ∧ (w'.err = none ↔ rest = []) ∧
      rot ≤ 2 * vs.length ∧ passes + phi t' ≤ phi t + 7 * vs.length ∧ w'.nCmp ≤ w.nCmp + 2 * vs.length := by
  induction vs with
  | nil => intro w t herr ht _; exact ⟨0, 0, w, t, [], [], [], rfl, ht, by simp, rfl, rfl, by simp [herr], by simp, by simp, by simp⟩
  | cons v vs ih =>
    intro w t herr ht hs
    obtain ⟨⟨r, rot, i⟩, w1, h1, t1, k1, k2, -, k4⟩ := wp.runs (wp_insertByN ht (endOk eq has v _) herr)
    obtain ⟨t2, e1, e2, e3⟩ := (insertByN_sim _ _ _ _ trivial h1).wp
      (wp_append eq (asymAt has v) ht herr fun A a e => hs.2 A a v vs e rfl)
    obtain ⟨-, rfl⟩ := Tree.unique e1 k1
    simp only [List.length_cons]
    dsimp only at k2 k4
    rcases e3 with ⟨hz, hn⟩ | ⟨hz, p, hn⟩
    · refine ⟨rot, i, w1, t2, [], v :: vs, [], ?_, e1, by rw [hn]; simp, rfl, rfl, by simp [hz], by omega, by omega, by omega⟩
      refine runs_seq h1 (runs_seq (runs_hasErr (b := true) ?_) rfl)
      cases h0 : w1.err with
      | none => exact absurd h0 hz
      | some e => rfl
    · have hs' : SortedAfter (follows lt eq) t2.nodes vs := by
        refine ⟨?_, ?_⟩
        · cases vs with
          | nil => trivial
          | cons => exact hs.1.2
        · rintro A a v' l e rfl
          rw [hn] at e
          have := List.append_inj_right' e rfl
          simp only [List.cons.injEq, and_true] at this
          subst this
          exact hs.1.1
      obtain ⟨rot', i', w', t', us, rest, N, q1, q2, q3, q4, q5, q6, q7, q8, q9⟩ := ih hz e1 hs'
      refine ⟨rot + rot', i + i', w', t', v :: us, rest, (p, v) :: N, runs_seq h1 (runs_seq (runs_hasErr (b := false) (by rw [hz]; rfl)) ?_), q2,
        by rw [q3, hn]; simp, by simp [q4], by rw [q5]; rfl, q6, by omega, by omega, by omega⟩
      exact runs_seq q1 rfl

/-- C127: inserting a range of `m` values, in any order, into a tree of `n` elements makes at most `m (2 log2(n+m+1) + 5)`
comparisons, `2 m` rotations and `7 m + 2 n` passes of the rebalancing loop, also if it fails on the way; whether equivalent
keys are dropped or kept. -/
theorem tree_range_cost (hr : FReach lt w) (has : Asym lt) (ha : Alive w s) (hL : Contents w s L) (vs : List K) :
    (∃ rot passes w', Runs (insertUniqueRangeN lt s vs) (ready w) (rot, passes) w' ∧ Runs (insertUniqueRange lt s vs) (ready w) () w' ∧
      rot ≤ 2 * vs.length ∧ passes ≤ 7 * vs.length + 2 * L.length ∧
      w'.nCmp ≤ w.nCmp + vs.length * (2 * Nat.log2 (L.length + vs.length + 1) + 5)) ∧
    ∃ rot passes w', Runs (insertEqualRangeN lt s vs) (ready w) (rot, passes) w' ∧ Runs (insertEqualRange lt s vs) (ready w) () w' ∧
      rot ≤ 2 * vs.length ∧ passes ≤ 7 * vs.length + 2 * L.length ∧
      w'.nCmp ≤ w.nCmp + vs.length * (2 * Nat.log2 (L.length + vs.length + 1) + 5) := by
  obtain ⟨o, t, ht, rfl⟩ := hr.tree ha hL
  have hphi := phi_le t
  constructor
  · obtain ⟨rot, i, w', t', h1, -, h2, h3, h4⟩ := any_range (w := ready w) false has _ vs rfl (by exact ht) (Nat.le_refl _)
    exact ⟨rot, i, w', h1, insertUniqueRangeN_sim vs _ _ _ trivial h1, h2, by omega, h4⟩
  · obtain ⟨rot, i, w', t', h1, -, h2, h3, h4⟩ := any_range (w := ready w) true has _ vs rfl (by exact ht) (Nat.le_refl _)
    exact ⟨rot, i, w', h1, insertEqualRangeN_sim vs _ _ _ trivial h1, h2, by omega, h4⟩

/-- C127: inserting a sorted range of `m` values that belongs after the `n` elements of a tree takes linear time: at most `2 m`
comparisons, `2 m` rotations and `7 m + 2 n` passes. The values are appended in order, all of them unless an error is reported. -/
theorem tree_sorted_range_linear (hr : FReach lt w) (has : Asym lt) (ha : Alive w s) (hL : Contents w s L) (vs : List K)
    (hs : SortedAfter (fun a b => lt a b = true) L vs) :
    ∃ rot passes w' us rest N, Runs (insertUniqueRangeN lt s vs) (ready w) (rot, passes) w' ∧ Runs (insertUniqueRange lt s vs) (ready w) () w' ∧
      Contents w' s (L ++ N) ∧ N.map Prod.snd = us ∧ vs = us ++ rest ∧ (w'.err = none ↔ rest = []) ∧
      rot ≤ 2 * vs.length ∧ passes ≤ 7 * vs.length + 2 * L.length ∧ w'.nCmp ≤ w.nCmp + 2 * vs.length := by
  obtain ⟨o, t, ht, rfl⟩ := hr.tree ha hL
  have hphi := phi_le t
  obtain ⟨rot, i, w', t', us, rest, N, h1, h2, h3, h4, h5, h6, h7, h8, h9⟩ := sorted_range (w := ready w) false has vs rfl (by exact ht) hs
  exact ⟨rot, i, w', us, rest, N, h1, insertUniqueRangeN_sim vs _ _ _ trivial h1, (contents_iff h2).2 h3.symm, h4, h5, h6, h7, by omega, h9⟩

/-- C127: the same for the insertion that keeps equivalent keys; the range may then hold equivalent values. -/
theorem tree_sorted_equal_range_linear (hr : FReach lt w) (has : Asym lt) (ha : Alive w s) (hL : Contents w s L) (vs : List K)
    (hs : SortedAfter (fun a b => lt b a = false) L vs) :
    ∃ rot passes w' us rest N, Runs (insertEqualRangeN lt s vs) (ready w) (rot, passes) w' ∧ Runs (insertEqualRange lt s vs) (ready w) () w' ∧
      Contents w' s (L ++ N) ∧ N.map Prod.snd = us ∧ vs = us ++ rest ∧ (w'.err = none ↔ rest = []) ∧
      rot ≤ 2 * vs.length ∧ passes ≤ 7 * vs.length + 2 * L.length ∧ w'.nCmp ≤ w.nCmp + 2 * vs.length := by
  obtain ⟨o, t, ht, rfl⟩ := hr.tree ha hL
  have hphi := phi_le t
  obtain ⟨rot, i, w', t', us, rest, N, h1, h2, h3, h4, h5, h6, h7, h8, h9⟩ := sorted_range (w := ready w) true has vs rfl (by exact ht) hs
  exact ⟨rot, i, w', us, rest, N, h1, insertEqualRangeN_sim vs _ _ _ trivial h1, (contents_iff h2).2 h3.symm, h4, h5, h6, h7, by omega, h9⟩

/-- One element, and four ascending values after it. -/
example : ∃ (w w' : W Nat) (p : Ptr) (rot passes : Nat), FReach rps w ∧ Asym rps ∧ Alive w (.stk 0) ∧ Contents w (.stk 0) [(p, 4)] ∧
    SortedAfter (fun a b => rps a b = true) [(p, 4)] [5, 6, 7, 8] ∧
    Runs (insertUniqueRangeN rps (.stk 0) [5, 6, 7, 8]) (ready w) (rot, passes) w' ∧ w'.nCmp ≤ w.nCmp + 8 := by
  obtain ⟨w, p, h1, h2, h3, h4⟩ := one_reach rps 4
  have hs : SortedAfter (fun a b => rps a b = true) [(p, 4)] [5, 6, 7, 8] := by
    refine ⟨by simp [Chain, rps], ?_⟩
    rintro A a v l e1 e2
    have e3 : [] ++ [(p, 4)] = A ++ [a] := e1
    have := List.append_inj_right' e3 rfl
    simp only [List.cons.injEq, and_true] at this e2
    obtain ⟨rfl, -⟩ := e2
    subst this
    show rps 4 5 = true
    decide
  obtain ⟨rot, i, w', us, rest, N, k1, -, -, -, -, -, -, -, k2⟩ := tree_sorted_range_linear h1 rps_asym h3 h4 _ hs
  exact ⟨w, w', p, rot, i, h1, rps_asym, h3, h4, hs, k1, k2⟩

/-- The four-element object of `fdemo`: three values after it, two of them equivalent; and any three values. -/
example : ∃ (w : W (Nat × Nat)) (L : List (Ptr × (Nat × Nat))), FReach pairLt w ∧ Alive w (.stk 0) ∧ Contents w (.stk 0) L ∧ L.length = 4 ∧
    SortedAfter (fun a b => pairLt b a = false) L [(50, 1), (50, 2), (60, 0)] ∧
    (∃ rot passes w', Runs (insertEqualRangeN pairLt (.stk 0) [(50, 1), (50, 2), (60, 0)]) (ready w) (rot, passes) w' ∧ w'.nCmp ≤ w.nCmp + 6) ∧
    ∃ rot passes w', Runs (insertUniqueRangeN pairLt (.stk 0) [(9, 1), (0, 2), (2, 0)]) (ready w) (rot, passes) w' ∧ w'.nCmp ≤ w.nCmp + 33 := by
  obtain ⟨w, L, M, hr, -, ha, -, hc, -, hL, -⟩ := fdemo 7
  have hlen : L.length = 4 := by rw [← List.length_map (f := Prod.snd), hL]; rfl
  have hs : SortedAfter (fun a b => pairLt b a = false) L [(50, 1), (50, 2), (60, 0)] := by
    refine ⟨by simp [Chain, pairLt], ?_⟩
    rintro A a v l rfl e2
    simp only [List.cons.injEq] at e2
    obtain ⟨rfl, -⟩ := e2
    have hm : a.2 ∈ (A ++ [a]).map Prod.snd := by simp
    rw [hL] at hm
    simp only [List.mem_cons, List.not_mem_nil, or_false] at hm
    rcases hm with e | e | e | e <;> rw [e] <;> decide
  obtain ⟨rot, i, w', us, rest, N, k1, -, -, -, -, -, -, -, k2⟩ := tree_sorted_equal_range_linear hr pairLt_swo.asym ha hc _ hs
  obtain ⟨⟨rot2, i2, w2, q1, -, -, -, q2⟩, -⟩ := tree_range_cost hr pairLt_swo.asym ha hc [(9, 1), (0, 2), (2, 0)]
  refine ⟨w, L, hr, ha, hc, hlen, hs, ⟨rot, i, w', k1, k2⟩, rot2, i2, w2, q1, ?_⟩
  rw [hlen] at q2
  have e : Nat.log2 8 = 3 := by decide
  simp only [List.length_cons, List.length_nil, show 4 + (0 + 1 + 1 + 1) + 1 = 8 from rfl, e] at q2
  exact q2

end Nestl.Full
