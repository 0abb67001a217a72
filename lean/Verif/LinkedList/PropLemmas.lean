import Verif.LinkedList.Sim
import Verif.LinkedList.Quiet
set_option autoImplicit false
/-
Vocabulary of the list property theorems and auxiliary lemmas for `Verif/LinkedList/Props.lean`.
-/
namespace Nestl.LC
open Nestl.LL
variable {V : Type} {w w' : W V} {σ : Sg V} {s t : Ptr} {ls l2 : Lst V}

/-- All list objects other than those in `S` keep their elements. -/
def Unchanged (w w' : W V) (S : List Ptr) : Prop :=
  ∀ u, u ∉ S → Alive w u → Alive w' u ∧ ∀ L, Contents w u L → Contents w' u L

/-- No error was reported, no memory requested and no element constructed. -/
def Silent (w w' : W V) : Prop := w'.err = none ∧ w'.nAlloc = w.nAlloc ∧ w'.nCtor = w.nCtor

/-- The call `c` destroys the element with identity `p`. -/
def Removed (w : W V) (c : Call V) (p : Ptr) : Prop :=
  match c with
  | .erase _ pos => p = pos
  | .eraseRange s f l => ∃ X M Y v, Contents w s (X ++ (M ++ Y)) ∧ f = posOf s (M ++ Y) ∧ l = posOf s Y ∧ (p, v) ∈ M
  | .popBack s => ∃ X v, Contents w s (X ++ [(p, v)])
  | .popFront s => ∃ v Y, Contents w s ((p, v) :: Y)
  | .clear s | .assignN s _ _ | .assignVals s _ | .assignRange s _ _ _ | .copy s _ | .moveAssign s _ | .destroy s =>
      ∃ L v, Contents w s L ∧ (p, v) ∈ L
  | _ => False

/-- The call `c` may move elements from one list object to another. -/
def Relocates : Call V → Prop
  | .move _ | .moveAssign _ _ | .swap _ _ | .merge _ _ _ | .spliceAll _ _ _ | .spliceOne _ _ _ _ | .spliceRange _ _ _ _ _ => True
  | _ => False

/-! ### Auxiliary lemmas -/

/-- Validity does not depend on the error object. -/
theorem valid_ready (h1 : Inv w σ) {c : Call V} (hv : Valid w c) : Valid (ready w) c := by
  have kc : ∀ u L, Alive w u → Contents w u L → Contents (ready w) u L := by
    intro u L ha hc
    obtain ⟨lu, hu⟩ := (alive_iff h1).1 ha
    exact (contents_iff h1.ready hu).2 ((contents_iff h1 hu).1 hc)
  have kc' : ∀ u L, Alive w u → Contents (ready w) u L → Contents w u L := by
    intro u L ha hc
    obtain ⟨lu, hu⟩ := (alive_iff h1).1 ha
    exact (contents_iff h1 hu).2 ((contents_iff h1.ready hu).1 hc)
  have ka : ∀ u a, Alive w u → HasAlloc w u a → HasAlloc (ready w) u a := by
    intro u L ha hc
    obtain ⟨lu, hu⟩ := (alive_iff h1).1 ha
    exact (hasAlloc_iff h1.ready hu).2 ((hasAlloc_iff h1 hu).1 hc)
  have kp : ∀ u p, Alive w u → IsPos w u p → IsPos (ready w) u p := by
    rintro u p ha ⟨X, Y, hc, rfl⟩; exact ⟨X, Y, kc u _ ha hc, rfl⟩
  have ks : ∀ u v, Alive w u → Alive w v → SameAlloc w u v → SameAlloc (ready w) u v := by
    rintro u v hu hv ⟨a, h1, h2⟩; exact ⟨a, ka u a hu h1, ka v a hv h2⟩
  have kas : ∀ u, Alive w u → Assignable w u → Assignable (ready w) u := by
    rintro u hu (h1 | h1)
    · exact .inl (ka u _ hu h1)
    · exact .inr (kc u _ hu h1)
  cases c with
  | create a => exact hv
  | insert s pos v => exact ⟨hv.1, kp _ _ hv.1 hv.2⟩
  | insertN s pos n v => exact ⟨hv.1, kp _ _ hv.1 hv.2⟩
  | insertRange s pos vs => exact ⟨hv.1, kp _ _ hv.1 hv.2⟩
  | erase s pos => obtain ⟨ha, X, v, Y, hc⟩ := hv; exact ⟨ha, X, v, Y, kc _ _ ha hc⟩
  | eraseRange s f l => obtain ⟨ha, X, M, Y, hc, hrest⟩ := hv; exact ⟨ha, X, M, Y, kc _ _ ha hc, hrest⟩
  | pushBack s v => exact hv
  | pushFront s v => exact hv
  | popBack s => exact ⟨hv.1, fun hc => hv.2 (kc' _ _ hv.1 hc)⟩
  | popFront s => exact ⟨hv.1, fun hc => hv.2 (kc' _ _ hv.1 hc)⟩
  | clear s => exact hv
  | assignN s n v => exact ⟨hv.1, kas _ hv.1 hv.2⟩
  | assignVals s vs => exact ⟨hv.1, kas _ hv.1 hv.2⟩
  | assignRange s t f l =>
    obtain ⟨a1, a2, a3, X, M, Y, hc, hrest⟩ := hv
    exact ⟨a1, a2, kas _ a1 a3, X, M, Y, kc _ _ a2 hc, hrest⟩
  | copy d s => exact ⟨hv.1, hv.2.1, kas _ hv.1 hv.2.2.1, hv.2.2.2⟩
  | move s => exact hv
  | moveAssign s t => exact ⟨hv.1, hv.2.1, ks _ _ hv.1 hv.2.1 hv.2.2⟩
  | swap s t => exact ⟨hv.1, hv.2.1, ks _ _ hv.1 hv.2.1 hv.2.2⟩
  | merge lt s t => exact ⟨hv.1, hv.2.1, ks _ _ hv.1 hv.2.1 hv.2.2.1, hv.2.2.2⟩
  | spliceAll s pos t => exact ⟨hv.1, hv.2.1, ks _ _ hv.1 hv.2.1 hv.2.2.1, hv.2.2.2.1, kp _ _ hv.1 hv.2.2.2.2⟩
  | spliceOne s pos t it =>
    obtain ⟨a1, a2, a3, a4, X, v, Y, hc⟩ := hv
    exact ⟨a1, a2, ks _ _ a1 a2 a3, kp _ _ a1 a4, X, v, Y, kc _ _ a2 hc⟩
  | spliceRange s pos t f l =>
    obtain ⟨a1, a2, a3, h4⟩ := hv
    refine ⟨a1, a2, ks _ _ a1 a2 a3, ?_⟩
    rcases h4 with ⟨hst, hp, X, M, Y, hc, hrest⟩ | ⟨hst, X, M, Z, Y, hc, hrest⟩
    · exact .inl ⟨hst, kp _ _ a1 hp, X, M, Y, kc _ _ a2 hc, hrest⟩
    · exact .inr ⟨hst, X, M, Z, Y, kc _ _ a2 hc, hrest⟩
  | sort lt s => obtain ⟨a1, L, hc, hl⟩ := hv; exact ⟨a1, L, kc _ _ a1 hc, hl⟩
  | destroy s => exact hv


theorem Sim.call {A : AState V} (h : Sim w A) {c : Call V} (hv : Valid w c) : wp (exec c) (ready w) (Post (ready w) A c) := by
  obtain ⟨σ, h1, h2, rfl⟩ := h
  exact exec_sim h1.ready h2 rfl (valid_ready h1 hv)

theorem Hist.sim {env : Env (LNode V)} {h : List (Entry V)} (hh : Hist env h w) : ∃ A, SpecRun h A ∧ Sim w A := by
  induction hh with
  | start =>
    refine ⟨_, SpecRun.start, fun _ => none, ⟨⟨?_, ?_, ?_, ?_, ?_, ?_⟩, ?_⟩, ?_, ?_⟩
    · intro s ls hs; cases hs
    · intro s ls hs; cases hs
    · intro s ls hs; cases hs
    · intro s ls hs; cases hs
    · intro s t ls lt hs; cases hs
    · intro p hp; exact absurd (dat_none.2 rfl) hp
    · intro i hi; exact absurd rfl hi
    · intro s ls hs; cases hs
    · rfl
  | call _ hv hr ih =>
    obtain ⟨A, hA, hsim⟩ := ih
    obtain ⟨A', hsp, hsim', _⟩ := Runs.wp (hsim.call hv) hr
    exact ⟨A', .call hA hsp, hsim'⟩

theorem Reach.sim (h : Reach w) : ∃ A, Sim w A := by
  obtain ⟨env, h, hh⟩ := h
  obtain ⟨A, _, hs⟩ := hh.sim
  exact ⟨A, hs⟩

theorem Reach.inv (h : Reach w) : ∃ σ, Inv w σ ∧ Own σ := by
  obtain ⟨A, σ, h1, h2, _⟩ := h.sim
  exact ⟨σ, h1, h2⟩

theorem Reach.next (h : Reach w) {c : Call V} {r : Res} (hv : Valid w c) (hr : Runs (exec c) (ready w) r w') : Reach w' := by
  obtain ⟨env, h, hh⟩ := h
  exact ⟨env, _, hh.call hv hr⟩

/-- Lists described equally before and after are unchanged. -/
theorem unchanged {σ' : Sg V} {S : List Ptr} (h : Inv w σ) (h' : Inv w' σ') (hS : ∀ u, u ∉ S → σ' u = σ u) :
    Unchanged w w' S := by
  intro u hu ha
  obtain ⟨lu, hlu⟩ := (alive_iff h).1 ha
  have hlu' : σ' u = some lu := by rw [hS u hu, hlu]
  exact ⟨(alive_iff h').2 ⟨lu, hlu'⟩, fun L hL => (contents_iff h' hlu').2 ((contents_iff h hlu).1 hL)⟩

theorem unchanged1 {x : Option (Lst V)} (h : Inv w σ) (h' : Inv w' (upd σ s x)) : Unchanged w w' [s] :=
  unchanged h h' fun u hu => upd_other _ _ (by simpa using hu)

theorem unchanged2 {x y : Option (Lst V)} (h : Inv w σ) (h' : Inv w' (upd (upd σ s x) t y)) : Unchanged w w' [s, t] :=
  unchanged h h' fun u hu => by
    simp at hu
    rw [upd_other _ _ hu.2, upd_other _ _ hu.1]

theorem unchanged0 (h : Inv w σ) (h' : Inv w' σ) : Unchanged w w' [] := unchanged h h' fun _ _ => rfl

def RemovedA (A : AState V) (c : Call V) (x : Ptr × V) : Prop :=
  match c with
  | .erase _ pos => x.1 = pos
  | .eraseRange s f l => ∃ a X M Y, A s = some (a, X ++ (M ++ Y)) ∧ f = posOf s (M ++ Y) ∧ l = posOf s Y ∧ x ∈ M
  | .popBack s => ∃ a X, A s = some (a, X ++ [x])
  | .popFront s => ∃ a Y, A s = some (a, x :: Y)
  | .clear s | .assignN s _ _ | .assignVals s _ | .assignRange s _ _ _ | .copy s _ | .moveAssign s _ | .destroy s =>
      ∃ a L, A s = some (a, L) ∧ x ∈ L
  | _ => False

/-- Elements are only removed by the calls of `Removed`. -/
theorem spec_stable {A A' : AState V} {c : Call V} {r : Res} {b : Bool} (hsp : Spec A c r b A')
    {a : Nat} {L : List (Ptr × V)} {x : Ptr × V} (hs : A s = some (a, L)) (hx : x ∈ L)
    (hnr : ¬ RemovedA A c x) :
    ∃ s' a' L', A' s' = some (a', L') ∧ x ∈ L' ∧ (¬ Relocates c → s' = s) := by
  -- lists whose elements are kept by the update of one list
  have one : ∀ {u : Ptr} {a0 : Nat} {L0 L1 : List (Ptr × V)}, A u = some (a0, L0) → (x ∈ L0 → x ∈ L1) →
      A' = upd A u (some (a0, L1)) → ∃ s' a' L', A' s' = some (a', L') ∧ x ∈ L' ∧ (¬ Relocates c → s' = s) := by
    intro u a0 L0 L1 hu hk hA
    by_cases hus : s = u
    · subst hus; rw [hs] at hu; cases hu
      exact ⟨s, a, L1, by rw [hA, upd_same], hk hx, fun _ => rfl⟩
    · exact ⟨s, a, L, by rw [hA, upd_other _ _ hus]; exact hs, hx, fun _ => rfl⟩
  have two : ∀ {u v : Ptr} {L0 L1 M0 M1 : List (Ptr × V)} {a0 a1 b1 b0 : Nat}, u ≠ v → A u = some (a0, L0) →
      A v = some (b0, M0) → (x ∈ L0 → x ∈ L1 ∨ x ∈ M1) → (x ∈ M0 → x ∈ L1 ∨ x ∈ M1) → Relocates c →
      A' = upd (upd A u (some (a1, L1))) v (some (b1, M1)) →
      ∃ s' a' L', A' s' = some (a', L') ∧ x ∈ L' ∧ (¬ Relocates c → s' = s) := by
    intro u v L0 L1 M0 M1 a0 a1 b1 b0 huv hu hv hL hM hrel hA
    have hfin : x ∈ L1 ∨ x ∈ M1 → ∃ s' a' L', A' s' = some (a', L') ∧ x ∈ L' ∧ (¬ Relocates c → s' = s) := by
      rintro (h1 | h1)
      · exact ⟨u, _, L1, by rw [hA, upd_other _ _ huv, upd_same], h1, fun h => absurd hrel h⟩
      · exact ⟨v, _, M1, by rw [hA, upd_same], h1, fun h => absurd hrel h⟩
    by_cases hus : s = u
    · subst hus; rw [hs] at hu; cases hu; exact hfin (hL hx)
    by_cases hvs : s = v
    · subst hvs; rw [hs] at hv; cases hv; exact hfin (hM hx)
    exact ⟨s, a, L, by rw [hA, upd_other _ _ hvs, upd_other _ _ hus]; exact hs, hx, fun _ => rfl⟩
  cases c with
  | create a0 =>
    obtain ⟨-, u, -, hn, rfl⟩ := hsp
    refine ⟨s, a, L, ?_, hx, fun _ => rfl⟩
    rw [upd_other, hs]; rintro rfl; rw [hs] at hn; cases hn
  | insert u pos v =>
    obtain ⟨a0, X, Y, h1, -, h2⟩ := hsp
    cases b with
    | true => exact ⟨s, a, L, by rw [h2.2, hs], hx, fun _ => rfl⟩
    | false =>
      obtain ⟨n, -, -, h3⟩ := h2
      exact one h1 (by simp; rintro (h | h) <;> simp [h]) h3
  | insertN u pos n v =>
    obtain ⟨a0, X, Y, k, N, h1, -, -, -, -, h3⟩ := hsp
    exact one h1 (by simp; rintro (h | h) <;> simp [h]) h3
  | insertRange u pos vs =>
    obtain ⟨a0, X, Y, k, N, h1, -, -, -, -, h3⟩ := hsp
    exact one h1 (by simp; rintro (h | h) <;> simp [h]) h3
  | erase u pos =>
    obtain ⟨-, a0, X, v, Y, h1, -, h3⟩ := hsp
    refine one h1 ?_ h3
    simp only [List.mem_append, List.mem_cons]
    rintro (h | rfl | h)
    · exact .inl h
    · exact (hnr rfl).elim
    · exact .inr h
  | eraseRange u f l =>
    obtain ⟨-, a0, X, M, Y, h1, h2, h4, -, h3⟩ := hsp
    refine one h1 ?_ h3
    simp only [List.mem_append]
    rintro (h | h | h)
    · exact .inl h
    · exact (hnr ⟨a0, X, M, Y, h1, h2, h4, h⟩).elim
    · exact .inr h
  | pushBack u v =>
    obtain ⟨a0, L0, h1, h2⟩ := hsp
    cases b with
    | true => exact ⟨s, a, L, by rw [h2, hs], hx, fun _ => rfl⟩
    | false =>
      obtain ⟨n, -, h3⟩ := h2
      exact one h1 (by simp; intro h; simp [h]) h3
  | pushFront u v =>
    obtain ⟨a0, L0, h1, h2⟩ := hsp
    cases b with
    | true => exact ⟨s, a, L, by rw [h2, hs], hx, fun _ => rfl⟩
    | false =>
      obtain ⟨n, -, h3⟩ := h2
      exact one h1 (by simp; intro h; simp [h]) h3
  | popBack u =>
    obtain ⟨-, a0, L0, y, h1, h3⟩ := hsp
    refine one h1 ?_ h3
    simp only [List.mem_append, List.mem_singleton]
    rintro (h | rfl)
    · exact h
    · exact (hnr ⟨_, _, h1⟩).elim
  | popFront u =>
    obtain ⟨-, a0, L0, y, h1, h3⟩ := hsp
    refine one h1 ?_ h3
    simp only [List.mem_cons]
    rintro (rfl | h)
    · exact (hnr ⟨_, _, h1⟩).elim
    · exact h
  | clear u =>
    obtain ⟨-, a0, L0, h1, h3⟩ := hsp
    exact one h1 (fun h => (hnr ⟨_, _, h1, h⟩).elim) h3
  | assignN u n v =>
    obtain ⟨a0, L0, k, N, h1, -, -, -, h3⟩ := hsp
    exact one h1 (fun h => (hnr ⟨_, _, h1, h⟩).elim) h3
  | assignVals u vs =>
    obtain ⟨a0, L0, k, N, h1, -, -, -, h3⟩ := hsp
    exact one h1 (fun h => (hnr ⟨_, _, h1, h⟩).elim) h3
  | assignRange u t f l =>
    obtain ⟨a0, L0, b0, X, M, Y, k, N, h1, -, -, -, -, -, -, h3⟩ := hsp
    exact one h1 (fun h => (hnr ⟨_, _, h1, h⟩).elim) h3
  | copy u t =>
    obtain ⟨a0, L0, b0, M, k, N, h1, -, -, -, -, h3⟩ := hsp
    exact one h1 (fun h => (hnr ⟨_, _, h1, h⟩).elim) h3
  | move u =>
    obtain ⟨-, d, a0, L0, -, hd, h1, h3⟩ := hsp
    by_cases hsu : s = u
    · subst hsu; rw [hs] at h1; cases h1
      exact ⟨d, a, L, by rw [h3, upd_same], hx, fun h => absurd trivial h⟩
    · have hsd : s ≠ d := by rintro rfl; rw [hs] at hd; cases hd
      exact ⟨s, a, L, by rw [h3, upd_other _ _ hsd, upd_other _ _ hsu, hs], hx, fun _ => rfl⟩
  | moveAssign u v =>
    obtain ⟨-, a0, L0, M0, h1, h2, h3⟩ := hsp
    by_cases huv : u = v
    · rw [if_pos huv] at h3
      exact one h1 (fun h => (hnr ⟨_, _, h1, h⟩).elim) h3
    · rw [if_neg huv] at h3
      exact two huv h1 h2 (fun h => (hnr ⟨_, _, h1, h⟩).elim) .inl trivial h3
  | swap u v =>
    obtain ⟨-, a0, L0, M0, h1, h2, h3⟩ := hsp
    by_cases huv : u = v
    · subst huv; rw [h1] at h2; cases h2
      rw [upd_upd] at h3
      exact one h1 id h3
    · exact two huv h1 h2 .inr .inl trivial h3
  | merge lt u v =>
    obtain ⟨-, a0, L0, M0, h1, h2, huv, N, hp, -, h3⟩ := hsp
    exact two huv h1 h2 (fun h => .inl (hp.mem_iff.2 (by simp [h]))) (fun h => .inl (hp.mem_iff.2 (by simp [h]))) trivial h3
  | spliceAll u pos v =>
    obtain ⟨-, huv, a0, X, Y, M, h1, -, h2, h3⟩ := hsp
    exact two huv h1 h2 (by simp; rintro (h | h) <;> simp [h]) (by intro h; simp [h]) trivial h3
  | spliceOne u pos v it =>
    obtain ⟨-, a0, ⟨huv, X, Y, C, y, D, h1, -, h2, -, h3⟩ | ⟨huv, X, y, Z, Y, h1, -, -, h3⟩ | ⟨huv, X, Z, y, Y, h1, -, -, h3⟩⟩ := hsp
    · exact two huv h1 h2 (by simp; rintro (h | h) <;> simp [h]) (by simp; rintro (h | h | h) <;> simp [h]) trivial h3
    · exact one h1 (by simp; rintro (h | h | h | h) <;> simp [h]) h3
    · exact one h1 (by simp; rintro (h | h | h | h) <;> simp [h]) h3
  | spliceRange u pos v f l =>
    obtain ⟨-, a0, ⟨huv, X, Y, C, M, D, h1, -, h2, -, -, h3⟩ | ⟨huv, X, M, Z, Y, h1, -, -, -, h3⟩ | ⟨huv, X, Z, M, Y, h1, -, -, -, h3⟩⟩ := hsp
    · exact two huv h1 h2 (by simp; rintro (h | h) <;> simp [h]) (by simp; rintro (h | h | h) <;> simp [h]) trivial h3
    · exact one h1 (by simp; rintro (h | h | h | h) <;> simp [h]) h3
    · exact one h1 (by simp; rintro (h | h | h | h) <;> simp [h]) h3
  | sort lt u =>
    obtain ⟨-, a0, L0, L1, h1, hst, h3⟩ := hsp
    exact one h1 (fun h => hst.1.mem_iff.2 h) h3
  | destroy u =>
    obtain ⟨-, a0, L0, h1, h3⟩ := hsp
    by_cases hus : s = u
    · subst hus; exact (hnr ⟨_, _, hs, hx⟩).elim
    · exact ⟨s, a, L, by rw [h3, upd_other _ _ hus]; exact hs, hx, fun _ => rfl⟩

end Nestl.LC
