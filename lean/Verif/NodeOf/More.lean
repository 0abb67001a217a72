import Verif.NodeOf.Elems
set_option autoImplicit false
/-
Reading nodes, copies of objects outside of nodes, and recursive programs that construct elements.
-/
namespace Nestl.NO
open Nestl.VO (Elem ElemOps)
open Lean.Order Cell
open Classical

variable {N : Type → Type} [Cell N] {S A X α β : Type} {E : Elem S A X} {P : NS N S → Prop} {Q : α → NS N S → Prop} {p : Ptr}

/-- Reading a node. -/
theorem QSim.rd {k : N Ptr → M (NS N S) α} {l : N A → M (World (N A)) α}
    (h : ∀ f c, QSim E P (k c) (l (abs f c)) Q) : QSim E P (onO (rd p) >>= k) (Nestl.rd p >>= l) Q := by
  intro s w hR hP r w' hr
  obtain ⟨c, w1, h1, h2⟩ := runs_steps hr
  obtain ⟨h3, h4, rfl⟩ := runs_rd.1 h1
  obtain ⟨c', h5, rfl⟩ := hR.same.some h4
  obtain ⟨s', h6⟩ := h _ c' s _ hR hP r w' h2
  exact ⟨s', VO.runs_bind_iff.2 ⟨_, _, runs_onO (runs_rd.2 ⟨h3, h5, rfl⟩), h6.1⟩, h6.2⟩

/-- As `QSim.rd`, for recursive programs that construct elements. -/
theorem LSim.rd {k : N Ptr → M (NS N S) α} {l l₀ : N A → M (World (N A)) α}
    (h : ∀ f c, LSim E P (k c) (l (abs f c)) (l₀ (abs f c)) Q) :
    LSim E P (onO (rd p) >>= k) (Nestl.rd p >>= l) (Nestl.rd p >>= l₀) Q := by
  intro s w hR hP hA r w' hr
  obtain ⟨c, w1, h1, h2⟩ := runs_steps hr
  obtain ⟨h3, h4, rfl⟩ := runs_rd.1 h1
  have hrd : ∀ cc, Runs (Nestl.rd p) (oracle w cc) c (oracle w cc) := fun cc => runs_rd.2 ⟨h3, h4, rfl⟩
  obtain ⟨c', h5, rfl⟩ := hR.same.some h4
  obtain ⟨r', s', w'', h9, h10, h11, h12, h13⟩ := h _ c' s _ hR hP (fun cc hc => by
    obtain ⟨r1, w1, k1⟩ := hA cc hc
    obtain ⟨v', w2, k2, k3⟩ := runs_steps k1
    obtain ⟨rfl, rfl⟩ := Runs.det k2 (hrd cc)
    exact ⟨_, _, k3⟩) r w' h2
  exact ⟨r', s', w'', VO.runs_bind_iff.2 ⟨_, _, runs_onO (runs_rd.2 ⟨h3, h5, rfl⟩), h9⟩, h10, h11, h12,
    fun cc hc => VO.runs_bind_iff.2 ⟨_, _, hrd cc, h13 cc hc⟩⟩

/-- As `QSim.rd`, for programs that construct elements. -/
theorem Sim.rd {k : N Ptr → M (NS N S) α} {l : N A → M (World (N A)) α}
    (h : ∀ f c, Sim E P (k c) (l (abs f c)) Q) : Sim E P (onO (rd p) >>= k) (Nestl.rd p >>= l) Q :=
  LSim.sim (.rd fun f c => .of_sim (h f c))

/-- A copy of something that is not the element of a node succeeds or fails. -/
theorem Sim.tryCtor (hP : Grows E P) : Sim E P (onO tryCtor) (Nestl.tryCtor : M (World (N A)) Bool) fun _ s => P s := by
  intro s w hR h0 hA
  have hno : ∀ o' : World (N Ptr), o'.heap = s.o.heap → P ⟨o', s.i⟩ :=
    fun o' ho => hP s _ (outside_eq rfl fun p q => by simp only [Held, ho]) (fun _ _ h => h) h0
  have hS := hR.same
  cases hb : s.o.env.ctor s.o.nCtor with
  | true =>
    refine ⟨true, ⟨{ s.o with nCtor := s.o.nCtor + 1 }, s.i⟩,
      oracle { w with nCtor := w.nCtor + 1 } fun k => if k = w.nCtor then true else w.env.ctor k, runs_onO (runs_tryCtor true hb),
      ⟨hR.inv, ⟨hS.heap, hS.live, hS.typed, hS.addr, hS.junk, hS.nAlloc, hS.nCmp, hS.sp⟩, hR.uniq, hR.err⟩, hno _ rfl, ?_, fun c hc => ?_⟩
    · refine ⟨Nat.le_succ _, fun k hk => ?_, fun h => ⟨h, fun k h1 h2 => ?_⟩⟩
      · show (if _ then _ else _) = _
        rw [if_neg (by omega)]
      · show (if _ then _ else _) = _
        have h2 : k < w.nCtor + 1 := h2
        rw [if_pos (by omega)]
    · refine runs_tryCtor (w := oracle w c) true ((hc _ (Nat.lt_succ_self _)).trans ?_)
      simp [oracle]
  | false =>
    refine ⟨false, ⟨{ s.o with nCtor := s.o.nCtor + 1, err := some .ctorFailed }, s.i⟩, ctorFailed w, runs_onO (runs_tryCtor false hb),
      ⟨hR.inv, ⟨hS.heap, hS.live, hS.typed, hS.addr, hS.junk, hS.nAlloc, hS.nCmp, hS.sp⟩, hR.uniq, rfl⟩, hno _ rfl, ctorFailed.later,
      fun c hc => ?_⟩
    refine runs_tryCtor (w := oracle w c) false ((hc _ (Nat.lt_succ_self _)).trans ?_)
    simp [ctorFailed, oracle]

/-- `n` is an approximation of `n₀`: what it does, `n₀` does too. -/
def Approx (n n₀ : M (World (N A)) α) : Prop := ∀ w r w', Runs n w r w' → Runs n₀ w r w'

omit [Cell N] in
theorem Approx.admissible (n₀ : M (World (N A)) α) : admissible (fun n : M (World (N A)) α => Approx n n₀) := by
  have h1 : ∀ w : World (N A), Lean.Order.admissible (fun r : Option (Except Fault (α × World (N A))) =>
      ∀ a w', r = some (.ok (a, w')) → Runs n₀ w a w') :=
    fun w => admissible_flatOrder _ (by intro a w' h; cases h)
  have h2 := admissible_pi_apply _ h1
  intro c hc hQ
  exact fun w r w' hr => h2 c hc (fun x hx w a w' hr => hQ x hx w a w' hr) w r w' hr

omit [Cell N] in
theorem Approx.refl (n : M (World (N A)) α) : Approx n n := fun _ _ _ h => h

omit [Cell N] in
theorem Approx.bind {n n₀ : M (World (N A)) α} {l l₀ : α → M (World (N A)) β} (h1 : Approx n n₀) (h2 : ∀ r, Approx (l r) (l₀ r)) :
    Approx (n >>= l) (n₀ >>= l₀) := by
  intro w r w' h
  obtain ⟨a, t, k1, k2⟩ := VO.runs_bind_iff.1 h
  exact VO.runs_bind_iff.2 ⟨a, t, h1 _ _ _ k1, h2 _ _ _ _ k2⟩

omit [Cell N] in
theorem Approx.ite {n n₀ n' n₀' : M (World (N A)) α} {c : Prop} {i j : Decidable c} (h1 : c → Approx n n₀) (h2 : ¬ c → Approx n' n₀') :
    Approx (@_root_.ite _ c i n n') (@_root_.ite _ c j n₀ n₀') := by
  by_cases h : c
  · rw [if_pos h, if_pos h]; exact h1 h
  · rw [if_neg h, if_neg h]; exact h2 h

/-- A recursive call, after which the program ends if there is an error. -/
theorem LSim.call {m : M (NS N S) α} {n n₀ : M (World (N A)) α} {k : α → M (NS N S) β} {l l₀ : α → M (World (N A)) β}
    {R : β → NS N S → Prop} (h1 : LSim E P m n n₀ Q) (hn : Approx n n₀)
    (h2 : ∀ r, Sim E (fun s => Q r s ∧ ¬ NoErr s) (k r) (l₀ r) R) (h3 : ∀ r, LSim E (fun s => Q r s ∧ NoErr s) (k r) (l r) (l₀ r) R) :
    LSim E P (m >>= k) (n >>= l) (n₀ >>= l₀) R := by
  intro s w hR hP hA r0 w0 hr
  obtain ⟨a, t, j1, j2⟩ := VO.runs_bind_iff.1 hr
  obtain ⟨r, s', w', a1, a2, a3, a4, a6⟩ := h1 s w hR hP (fun c hc => by
    obtain ⟨r, w', h⟩ := hA c hc
    obtain ⟨a, t, h, -⟩ := VO.runs_bind_iff.1 h
    exact ⟨a, t, h⟩) a t j1
  have hA' : AllSafe (l₀ r) w' := by
    intro c hc
    have hc' : ∀ k, k < w.nCtor → c k = w.env.ctor k := fun k hk => (hc k (Nat.lt_of_lt_of_le hk a4.le)).trans (a4.past k hk)
    obtain ⟨r1, w1, h⟩ := hA c hc'
    obtain ⟨a, t, k1, k2⟩ := VO.runs_bind_iff.1 h
    obtain ⟨rfl, rfl⟩ := Runs.det k1 (a6 c hc)
    exact ⟨_, _, k2⟩
  have key : ∃ r' s'' w'', Runs (k r) s' r' s'' ∧ Rel E s'' w'' ∧ R r' s'' ∧ Later w' w'' ∧
      ∀ c, (∀ k, k < w''.nCtor → c k = w''.env.ctor k) → Runs (l₀ r) (oracle w' c) r' (oracle w'' c) := by
    by_cases he : NoErr s'
    · have he' : w'.err = none := by
        have := a2.err
        rw [show s'.o.err = none from he] at this
        simpa using this
      have hag : ∀ k, allTrue w k = allTrue w' k := by
        intro k
        unfold allTrue
        by_cases e1 : k < w.nCtor
        · rw [if_pos e1, if_pos (Nat.lt_of_lt_of_le e1 a4.le), a4.past k e1]
        · rw [if_neg e1]
          by_cases e2 : k < w'.nCtor
          · rw [if_pos e2, (a4.done he').2 k (by omega) e2]
          · rw [if_neg e2]
      obtain ⟨rfl, rfl⟩ := Runs.det (hn _ _ _ j1) (a6 _ fun k hk => by rw [hag]; simp [allTrue, hk])
      rw [funext hag] at j2
      exact h3 a s' w' a2 ⟨a3, he⟩ hA' r0 w0 j2
    · exact h2 r s' w' a2 ⟨a3, he⟩ hA'
  obtain ⟨r', s'', w'', b1, b2, b3, b4, b6⟩ := key
  exact ⟨r', s'', w'', VO.runs_bind_iff.2 ⟨_, _, a1, b1⟩, b2, b3, a4.trans b4,
    fun c hc => VO.runs_bind_iff.2 ⟨_, _, a6 c fun k hk => (hc k (Nat.lt_of_lt_of_le hk b4.le)).trans (b4.past k hk), b6 c hc⟩⟩

end Nestl.NO
