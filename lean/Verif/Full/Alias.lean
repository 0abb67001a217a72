import Verif.RBTree.Alias
import Verif.Full.Props
set_option autoImplicit false
/-
C93: set functions accept references to elements, also to elements of the set they modify.
-/
namespace Nestl.Full
open Nestl.RB Nestl.Set Nestl.Multi
variable {K : Type} {lt : K → K → Bool} {w w' : W K} {s t p : Ptr} {k : K} {L : List (Ptr × K)}

/-- Calls with an argument that is a reference to an element `p` of a tree. -/
inductive RCall
  | insert (s : Ptr)                     -- `s.insert_nothrow(err, *p)`
  | erase (s : Ptr)                      -- `s.erase(*p)`
  | find (s : Ptr)                       -- `s.find(*p)`
  | equal (m : Mode) (s : Ptr)           -- `s.m_emplace_equal(err, *p)`, `s.m_insert_equal_lower(err, *p)`, `s.m_emplace_hint_equal(err, pos, *p)`
  | unique (m : UMode) (s : Ptr)         -- `s.m_insert_unique_at(err, pos, *p)`, `s.m_emplace_unique(err, *p)`, `s.m_emplace_hint_unique(err, pos, *p)`

/-- The same call with a key of the client's own. -/
def RCall.value (k : K) : RCall → FCall K
  | .insert s => .multi (.base (.insert s k))
  | .erase s => .multi (.base (.eraseKey s k))
  | .find s => .multi (.base (.find s k))
  | .equal m s => .multi (.equal m s k)
  | .unique m s => .unique m s k

/-- The program executed by a call with a reference to the element `p`: rbt.hpp:1443-1456, 1776-1791, 1877-1890, 2012-2114,
2170-2204. -/
def execRef (lt : K → K → Bool) (p : Ptr) : RCall → M (W K) (FRes K)
  | .insert s => do let r ← insertUniqueRef lt s p; pure (.multi ⟨.ins r.1 r.2, 0⟩)
  | .erase s => do let n ← eraseKeyRef lt s p; pure (.multi ⟨.num n, 0⟩)
  | .find s => do let q ← findRef lt s p; pure (.multi ⟨.pos q, 0⟩)
  | .equal .upper s => do let q ← emplaceEqualRef lt s p; pure (.multi ⟨.pos q, 0⟩)
  | .equal .lower s => do let q ← insertEqualLowerRef lt s p; pure (.multi ⟨.pos q, 0⟩)
  | .equal (.hint pos) s => do
      let L ← walkFrom (← begin_ s) pos
      let q ← emplaceHintEqualRef lt s pos p
      pure (.multi ⟨.pos q, L.length⟩)
  | .unique (.at pos) s => do pure (.pos (← insertUniqueAtRef lt s pos p))
  | .unique .emplace s => do let r ← emplaceUniqueRef lt s p; pure (.ins r.1 r.2)
  | .unique (.emplaceAt pos) s => do pure (.pos (← emplaceHintUniqueRef lt s pos p))

theorem agree_exec (c : RCall) : Agree (Holds p k) (execRef lt p c) (fexec lt (c.value k)) := by
  cases c with
  | insert s =>
    simp only [execRef, RCall.value, fexec, mexec, index, iterArg, mrun, exec, bind_assoc, pure_bind]
    exact .after (agree_insertUnique s)
  | erase s =>
    simp only [execRef, RCall.value, fexec, mexec, index, iterArg, mrun, exec, bind_assoc, pure_bind]
    exact .after (agree_eraseKey s)
  | find s =>
    simp only [execRef, RCall.value, fexec, mexec, index, iterArg, mrun, exec, bind_assoc, pure_bind]
    exact .after (agree_find s)
  | equal m s =>
    cases m with
    | upper =>
      simp only [execRef, RCall.value, fexec, mexec, index, iterArg, mrun, exec, bind_assoc, pure_bind]
      exact .after (agree_emplaceEqual s)
    | lower =>
      simp only [execRef, RCall.value, fexec, mexec, index, iterArg, mrun, exec, bind_assoc, pure_bind]
      exact .after (agree_insertEqualLower s)
    | hint pos =>
      simp only [execRef, RCall.value, fexec, mexec, index, iterArg, mrun, exec, bind_assoc, pure_bind]
      exact .bind .rfl' (ReadOnly.RB.begin_ _).keeps fun _ => .bind .rfl' (ReadOnly.Set.walkFrom _ _).keeps fun _ =>
        .after (agree_emplaceHintEqual s pos)
  | unique m s =>
    cases m with
    | «at» pos => exact .after (agree_insertUniqueAt s pos)
    | emplace => exact .after (agree_emplaceUnique s)
    | emplaceAt pos => exact .after (agree_emplaceHintUnique s pos)

theorem FReach.holds (hr : FReach lt w) (ht : Alive w t) (hc : Contents w t L) (hp : (p, k) ∈ L) : Holds p k (ready w) := by
  obtain ⟨o, u, hu, rfl⟩ := hr.tree ht hc
  obtain ⟨A, B, e⟩ := List.append_of_mem hp
  have hw : wp (keyOf p) w fun a w' => a = k ∧ w' = w := (wp_keyOf_mem hu e).2 ⟨rfl, rfl⟩
  have hrun : wp (rd p >>= fun n => pure n.val) w fun v w' => v = some k := by
    unfold keyOf at hw
    rw [wp_bind] at hw ⊢
    obtain ⟨n, w1, h1, h2⟩ := hw.runs
    refine wp_iff_runs.2 ⟨n, w1, h1, ?_⟩
    cases hv : n.val with
    | none => rw [hv] at h2; exact h2.elim
    | some a => rw [hv] at h2; rw [wp_pure] at h2; rw [wp_pure, h2.1]
  rw [wp_bind] at hrun
  unfold wp rd at hrun
  by_cases h0 : p = .null
  · simp [h0] at hrun
  · cases hc : w.heap p with
    | none => simp [h0, hc] at hrun
    | some c => 
      simp [h0, hc] at hrun
      exact ⟨h0, c, hc, hrun⟩

/-- C93: a call of a set function with a reference to an element `p` of any set (also of the set that it modifies) ends normally
and does exactly what the same call with a copy of that element does; in particular `s.erase(*it)` does not read the key after
the element has been destroyed. -/
theorem tree_reference_argument (hr : FReach lt w) (ht : Alive w t) (hc : Contents w t L) (hp : (p, k) ∈ L) {c : RCall}
    (hv : FValid lt w (c.value k)) :
    (∃ r w', Runs (execRef lt p c) (ready w) r w') ∧
      ∀ r w', Runs (execRef lt p c) (ready w) r w' ↔ Runs (fexec lt (c.value k)) (ready w) r w' := by
  have h2 := hr.holds ht hc hp
  have ha := agree_exec (lt := lt) (p := p) (k := k) c
  obtain ⟨r, w', h, _⟩ := tree_memory_safe hr hv
  exact ⟨⟨r, w', (ha.runs h2).2 h⟩, fun r w' => ha.runs h2⟩

/-- `FRHist lt env h w`: `w` is reached from the start by calls some of which got references to elements; `h` is the history in
which those calls appear with the key that the element had at the call. -/
inductive FRHist (lt : K → K → Bool) (env : Env (TNode K)) : List (FEntry K) → W K → Prop
  | start : FRHist lt env [] (start env)
  | call {h : List (FEntry K)} {w w' : W K} {c : FCall K} {r : FRes K} : FRHist lt env h w → FValid lt w c →
      Runs (fexec lt c) (ready w) r w' → FRHist lt env (⟨c, r, w'.err.isSome⟩ :: h) w'
  | ref {h : List (FEntry K)} {w w' : W K} {t p : Ptr} {k : K} {L : List (Ptr × K)} {c : RCall} {r : FRes K} :
      FRHist lt env h w → Alive w t → Contents w t L → (p, k) ∈ L → FValid lt w (c.value k) →
      Runs (execRef lt p c) (ready w) r w' → FRHist lt env (⟨c.value k, r, w'.err.isSome⟩ :: h) w'

theorem FHist.rhist {env : Env (TNode K)} {h : List (FEntry K)} (hh : FHist lt env h w) : FRHist lt env h w := by
  induction hh with
  | start => exact .start
  | call _ hv hr ih => exact .call ih hv hr

/-- C93: histories in which set functions get references to elements behave as the mathematical sequences do when they get the
keys. -/
theorem tree_reference_history {env : Env (TNode K)} {h : List (FEntry K)} (hh : FRHist lt env h w) :
    FHist lt env h w ∧ (SWO lt → ∀ s, Alive w s → ∃ L, Contents w s L ∧ L.map Prod.snd = famRun lt h s) := by
  have h1 : FHist lt env h w := by
    induction hh with
    | start => exact .start
    | call _ hv hr ih => exact .call ih hv hr
    | ref _ ht hc hp hv hr ih =>
      exact .call ih hv (((tree_reference_argument ⟨_, _, ih⟩ ht hc hp hv).2 _ _).1 hr)
  refine ⟨h1, fun hs s ha => ?_⟩
  obtain ⟨L, a, b, _⟩ := tree_history_refinement h1 hs ha
  exact ⟨L, a, b⟩

/-- C93: `s.erase(*it)` removes exactly the elements equivalent to `*it`, among them `*it` itself, and returns their number. -/
theorem set_erase_own_element (hr : FReach lt w) (hs : SWO lt) (ha : Alive w s) (hc : Contents w s L) (hp : (p, k) ∈ L) :
    ∃ A M B w', L = A ++ (M ++ B) ∧ (p, k) ∈ M ∧ (∀ x ∈ M, Equiv lt x.2 k) ∧ (∀ x ∈ A ++ B, ¬ Equiv lt x.2 k) ∧
      Runs (execRef lt p (.erase s)) (ready w) (.multi ⟨.num M.length, 0⟩) w' ∧ w'.err = none ∧ Contents w' s (A ++ B) ∧
      ∀ x ∈ M, w'.heap x.1 = none := by
  have hv : FValid lt w ((RCall.erase s).value k) := ha
  obtain ⟨r, w', h1, -, he⟩ := hr.step hv
  have h2 := ((tree_reference_argument hr ha hc hp hv).2 _ _).2 h1
  obtain ⟨o, t, ht, rfl⟩ := hr.tree ha hc
  cases he with
  | multi he =>
    cases he with
    | base he hidx =>
      cases he with
      | @eraseKey _ _ _ _ _ _ A M B ht0 ht' hn hn' hcut hch herr hgone _ =>
        obtain ⟨-, rfl⟩ := Tree.unique (by exact ht0) ht
        obtain ⟨c1, c2, c3⟩ := hcut hs
        have hirr : lt k k = false := hs.irrefl k
        refine ⟨A, M, B, w', hn, ?_, c2, ?_, ?_, herr, (contents_iff ht').2 hn'.symm, hgone⟩
        · rw [hn, List.mem_append, List.mem_append] at hp
          rcases hp with h | h | h
          · rw [c1 _ h] at hirr; cases hirr
          · exact h
          · rw [c3 _ h] at hirr; cases hirr
        · intro x hx hq
          rcases List.mem_append.1 hx with h | h
          · exact absurd (c1 _ h) (by rw [hq.1]; simp)
          · exact absurd (c3 _ h) (by rw [hq.2]; simp)
        · have h3 := h2
          unfold execRef at h3
          obtain ⟨_, _, _, h4⟩ := runs_steps h3
          cases h4
          exact h2

/-- `s.erase(*it)` for an element with an equivalent neighbour, `s.m_emplace_equal(err, *it)` for an element of `s` and
`t.insert_nothrow(err, *it)` for an element of another set. -/
example : ∃ env h w L p, FRHist pairLt env h w ∧ SWO pairLt ∧ Alive w (.stk 0) ∧ Contents w (.stk 0) L ∧ (p, (2, 1)) ∈ L ∧
    FValid pairLt w ((RCall.erase (.stk 0)).value (2, 1)) ∧ FValid pairLt w ((RCall.equal .upper (.stk 0)).value (2, 1)) ∧
    FValid pairLt w ((RCall.insert (.stk 1)).value (2, 1)) := by
  obtain ⟨w, L, M, ⟨env, h, h1⟩, _, h2, h3, h4, h5, h6, h7, h8, h9⟩ := fdemo 7
  have hm : (2, 1) ∈ L.map Prod.snd := by rw [h6]; simp
  obtain ⟨⟨p, k⟩, hp, rfl⟩ := List.mem_map.1 hm
  exact ⟨env, h, w, L, p, h1.rhist, pairLt_swo, h2, h4, hp, h2, h2, h3⟩

end Nestl.Full
