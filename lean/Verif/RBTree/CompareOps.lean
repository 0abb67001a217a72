import Verif.RBTree.ModelSwap
import Verif.Set.Inv
import Verif.Algorithm.Props
set_option autoImplicit false
/-
Comparison of trees and the self check.
-/
namespace Nestl.RB
open Nestl.Alg (LexBefore)
variable {K : Type}

section
variable {x y hdr : Ptr} {w : W K} {t u : T K} {o o' : Nat} {lt : K → K → Bool}

theorem wp_equalFrom {eq : K → K → Bool} {A B A' B' : List (Ptr × K)} {Q : Bool → W K → Prop} (h : Tree w.heap x o t)
    (h' : Tree w.heap y o' u) (hn : t.nodes = A ++ B) (hn' : u.nodes = A' ++ B') (hl : B.length = B'.length)
    (hQ : Q ((B.map Prod.snd).isEqv (B'.map Prod.snd) eq) w) :
    wp (equalFrom eq (firstP x B) x (firstP y B')) w Q := by
  induction B generalizing A A' B' with
  | nil =>
    cases B' with
    | cons => cases hl
    | nil =>
      rw [equalFrom]
      exact wp_if_pos rfl hQ
  | cons b B ih =>
    cases B' with
    | nil => cases hl
    | cons b' B' =>
      rcases b with ⟨p, k⟩
      rcases b' with ⟨p', k'⟩
      have hp : p ∈ t.ptrs := by rw [T.ptrs, hn]; simp
      rw [equalFrom]
      refine wp_if_neg (h.node_ne_hdr hp) ?_
      simp only [wp_bind, firstP_cons]
      rw [wp_keyOf_mem h hn, wp_keyOf_mem h' hn']
      cases he : eq k k' with
      | false =>
        simp only [List.map_cons, List.isEqv_cons_cons, he, Bool.false_and] at hQ
        exact wp_if_pos (by simp) hQ
      | true =>
        refine wp_if_neg (by simp) ?_
        simp only [wp_bind]
        refine wp_increment' h hn ?_
        refine wp_increment' h' hn' ?_
        refine ih (A := A ++ [(p, k)]) (A' := A' ++ [(p', k')]) (by simp [hn]) (by simp [hn']) (by simpa using hl) ?_
        simpa [List.isEqv_cons_cons, he] using hQ

theorem wp_treeEq {eq : K → K → Bool} {Q : Bool → W K → Prop} (h : Tree w.heap x o t) (h' : Tree w.heap y o' u)
    (hQ : Q ((t.nodes.map Prod.snd).isEqv (u.nodes.map Prod.snd) eq) w) : wp (treeEq eq x y) w Q := by
  unfold treeEq size begin_ end_
  simp only [wp_bind, wp_pure]
  rw [wp_rd h.cell h.hdr_ne, wp_rd h'.cell h'.hdr_ne]
  simp only [hdCell]
  by_cases e : t.nodes.length = u.nodes.length
  · refine wp_if_pos e ?_
    simp only [wp_bind]
    rw [wp_rd h.cell h.hdr_ne]
    simp only [wp_pure, wp_bind]
    rw [wp_rd h'.cell h'.hdr_ne]
    exact wp_equalFrom (A := []) (A' := []) h h' rfl rfl e hQ
  · refine wp_if_neg e ?_
    have key : ∀ (L M : List K), L.length ≠ M.length → L.isEqv M eq = false := by
      intro L
      induction L with
      | nil => intro M hM; cases M with | nil => exact absurd rfl hM | cons => rfl
      | cons a L ih =>
        intro M hM
        cases M with
        | nil => rfl
        | cons b M => simp only [List.isEqv_cons_cons, ih M (by simpa using hM), Bool.and_false]
    rw [key _ _ (by simpa using e)] at hQ
    exact hQ

theorem wp_lexFrom {less : K → K → Bool} {A B A' B' : List (Ptr × K)} {Q : Bool → W K → Prop} (h : Tree w.heap x o t)
    (h' : Tree w.heap y o' u) (hn : t.nodes = A ++ B) (hn' : u.nodes = A' ++ B')
    (hQ : ∀ b, (b = true ↔ LexBefore less (B.map Prod.snd) (B'.map Prod.snd)) → Q b w) :
    wp (lexFrom less (firstP x B) x (firstP y B') y) w Q := by
  induction B generalizing A A' B' with
  | nil =>
    rw [lexFrom]
    refine wp_if_neg (by simp) (hQ _ ?_)
    cases B' with
    | nil => simp [LexBefore]
    | cons b' B' =>
      have hp : b'.1 ∈ u.ptrs := by rw [T.ptrs, hn']; simp
      simp only [firstP_cons, firstP_nil, h'.node_ne_hdr hp, ne_eq, not_false_eq_true, and_true, decide_true, true_iff]
      exact ⟨0, by simp, .inr ⟨rfl, by simp⟩, by simp, by simp⟩
  | cons b B ih =>
    rcases b with ⟨p, k⟩
    have hp : p ∈ t.ptrs := by rw [T.ptrs, hn]; simp
    have hpx := h.node_ne_hdr hp
    cases B' with
    | nil =>
      rw [lexFrom]
      refine wp_if_neg (by simp) (hQ _ ?_)
      simp only [firstP_cons, hpx, false_and, decide_false, Bool.false_eq_true, false_iff]
      rintro ⟨i, -, b, -, d⟩
      rcases b with ⟨x', y', e1, e2, e3⟩ | ⟨e1, e2⟩
      · simp at e2
      · simp at e2
    | cons b' B' =>
      rcases b' with ⟨p', k'⟩
      have hp' : p' ∈ u.ptrs := by rw [T.ptrs, hn']; simp
      rw [lexFrom]
      refine wp_if_pos ⟨hpx, h'.node_ne_hdr hp'⟩ ?_
      simp only [wp_bind, firstP_cons]
      rw [wp_keyOf_mem h hn, wp_keyOf_mem h' hn']
      cases h1 : less k k' with
      | true =>
        refine wp_if_pos rfl (hQ _ ?_)
        simp only [true_iff]
        exact ⟨0, by simp, .inl ⟨k, k', rfl, rfl, h1⟩, by simp, by simp⟩
      | false =>
        refine wp_if_neg (by simp) ?_
        simp only [wp_bind]
        rw [wp_keyOf_mem h' hn', wp_keyOf_mem h hn]
        cases h2 : less k' k with
        | true =>
          refine wp_if_pos rfl (hQ _ ?_)
          simp only [Bool.false_eq_true, false_iff]
          rintro ⟨i, a, b, c, d⟩
          cases i with
          | zero =>
            rcases b with ⟨x', y', e1, e2, e3⟩ | ⟨e, -⟩
            · simp at e1 e2; subst e1 e2; rw [h1] at e3; cases e3
            · simp at e
          | succ i =>
            have := (a 0 k k' (by omega) rfl rfl).2
            rw [h2] at this; cases this
        | false =>
          refine wp_if_neg (by simp) ?_
          simp only [wp_bind]
          refine wp_increment' h hn ?_
          refine wp_increment' h' hn' ?_
          refine ih (A := A ++ [(p, k)]) (A' := A' ++ [(p', k')]) (by simp [hn]) (by simp [hn']) ?_
          intro b hb
          exact hQ b (hb.trans (LexBefore.cons h1 h2).symm)

theorem wp_treeLess {less : K → K → Bool} {Q : Bool → W K → Prop} (h : Tree w.heap x o t) (h' : Tree w.heap y o' u)
    (hQ : ∀ b, (b = true ↔ LexBefore less (t.nodes.map Prod.snd) (u.nodes.map Prod.snd)) → Q b w) : wp (treeLess less x y) w Q := by
  unfold treeLess begin_ end_
  simp only [wp_bind, wp_pure]
  rw [wp_rd h.cell h.hdr_ne, wp_rd h'.cell h'.hdr_ne]
  exact wp_lexFrom (A := []) (A' := []) h h' rfl rfl hQ

end
end Nestl.RB
