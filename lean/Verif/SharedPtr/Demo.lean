import Verif.SharedPtr.Count
set_option autoImplicit false
/-
A concrete program: an object `a` owns an object `b` through a `shared_ptr` member, `b` has a `weak_ptr` member back to
`a`, and there are two `shared_ptr` variables and a `weak_ptr` variable.  Used to show that the theorems are not vacuous.
-/
namespace Nestl.SP.Demo

/-- Memory is always available, construction always succeeds. -/
def env : Env (Cell Nat) := { addr := fun n => some n, ctor := fun _ => true, junk := fun _ => .lost }

/-- The state after a call. -/
def go (c : Call Nat) (w : W Nat) : W Nat :=
  match exec c (ready w) with
  | some (.ok (_, w')) => w'
  | _ => w

abbrev a : Ptr := .dyn 0
abbrev b : Ptr := .dyn 1
abbrev sa : Ptr := .stk 0
abbrev sb : Ptr := .stk 1
abbrev wa : Ptr := .stk 3

def d1 : W Nat := go (.makeShared 5 10 [.sh, .wk]) (start env)
def d2 : W Nat := go (.makeShared 0 20 [.sh, .wk]) d1
/-- `a->next = b` -/
def d3 : W Nat := go (.assignShared (.mem a 0) (.var sb)) d2
/-- `b->back = a` -/
def d4 : W Nat := go (.assignWeak .sh (.mem b 1) (.var sa)) d3
/-- `weak_ptr wa(a)` -/
def d5 : W Nat := go (.toWeak .sh (.var sa)) d4

theorem blk2 {x : Ptr} {c : Blk Nat} (h : d2.heap x = some (.blk c)) : x = a ∨ x = b := by
  rcases x with _ | i | i
  · cases h
  · rcases i with _ | _ | i <;> cases h
  · rcases i with _ | _ | i
    · exact .inl rfl
    · exact .inr rfl
    · cases h

theorem blk4 {x : Ptr} {c : Blk Nat} (h : d4.heap x = some (.blk c)) : x = a ∨ x = b := by
  rcases x with _ | i | i
  · cases h
  · rcases i with _ | _ | _ | i <;> cases h
  · rcases i with _ | _ | i
    · exact .inl rfl
    · exact .inr rfl
    · cases h

theorem blk5 {x : Ptr} {c : Blk Nat} (h : d5.heap x = some (.blk c)) : x = a ∨ x = b := by
  rcases x with _ | i | i
  · cases h
  · rcases i with _ | _ | _ | _ | i <;> cases h
  · rcases i with _ | _ | i
    · exact .inl rfl
    · exact .inr rfl
    · cases h

theorem calm_of_weak_vars {A : Hs} (h : ∀ x i z, A .wk (.mem x i) z → z.ref ≠ .null → ∃ p z', A .wk (.var p) z' ∧ z'.ref = z.ref) : Calm A := by
  intro b x i z hb _ hz e
  obtain ⟨p, z', h1, h2⟩ := h x i z hz (by rw [e]; exact hb)
  exact ⟨p, z', h1, by rw [h2, e]⟩

theorem r1 : Reach d1 := .step (c := .makeShared 5 10 [.sh, .wk]) (r := some sa) (.start env) trivial rfl
theorem r2 : Reach d2 := .step (c := .makeShared 0 20 [.sh, .wk]) (r := some sb) r1 trivial rfl

theorem wk2 (x : Ptr) (i : Nat) (z : Hnd) (h : At d2.heap .wk (.mem x i) z) : z.ref = .null := by
  obtain ⟨c, o, h1, h2, h3⟩ := h
  rcases blk2 h1 with rfl | rfl
  all_goals
    cases h1; cases h2
    rcases i with _ | _ | i <;> cases h3
    rfl

theorem v3 : Valid d2 (.assignShared (.mem a 0) (.var sb)) := by
  refine ⟨⟨.nil, _, _, rfl, rfl, rfl⟩, ⟨⟨b, b⟩, rfl⟩, ?_⟩
  intro y _ _
  refine calm_of_weak_vars ?_
  intro x i z hz hn
  unfold Hs.put at hz
  split at hz
  · cases hz.1
  · exact (hn (wk2 _ _ _ hz)).elim

theorem r3 : Reach d3 := .step (c := .assignShared (.mem a 0) (.var sb)) (r := none) r2 v3 rfl

theorem v4 : Valid d3 (.assignWeak .sh (.mem b 1) (.var sa)) :=
  ⟨⟨.nil, _, _, rfl, rfl, rfl⟩, ⟨⟨a, a⟩, rfl⟩, by intro h; cases h⟩

theorem r4 : Reach d4 := .step (c := .assignWeak .sh (.mem b 1) (.var sa)) (r := none) r3 v4 rfl

theorem r5 : Reach d5 := .step (c := .toWeak .sh (.var sa)) (r := some wa) r4 ⟨⟨a, a⟩, rfl⟩ rfl

/-- Handles and objects of the demonstration. -/
theorem facts : Refers d5 .sh (.var sa) a ∧ Refers d5 .sh (.var sb) b ∧ Refers d5 .sh (.mem a 0) b ∧ Refers d5 .wk (.mem b 1) a ∧
    Refers d5 .wk (.var wa) a ∧ Empty d5 .sh (.mem b 0) ∧ Empty d5 .wk (.mem a 1) ∧ Val d5.heap a 10 ∧ Val d5.heap b 20 := by
  refine ⟨⟨by simp, _, rfl, rfl⟩, ⟨by simp, _, rfl, rfl⟩, ⟨by simp, _, ⟨_, _, rfl, rfl, rfl⟩, rfl⟩,
    ⟨by simp, _, ⟨_, _, rfl, rfl, rfl⟩, rfl⟩, ⟨by simp, _, rfl, rfl⟩, ⟨_, _, rfl, rfl, rfl⟩, ⟨_, _, rfl, rfl, rfl⟩,
    ⟨_, _, rfl, rfl, rfl⟩, ⟨_, _, rfl, rfl, rfl⟩⟩

/-- The only weak member that refers to something refers to `a`. -/
theorem wk5 (x : Ptr) (i : Nat) (z : Hnd) (h : At d5.heap .wk (.mem x i) z) (hn : z.ref ≠ .null) : x = b ∧ i = 1 ∧ z.ref = a := by
  obtain ⟨c, o, h1, h2, h3⟩ := h
  rcases blk5 h1 with rfl | rfl
  all_goals
    cases h1; cases h2
    rcases i with _ | _ | i <;> cases h3
    first
      | exact (hn rfl).elim
      | exact ⟨rfl, rfl, rfl⟩

/-- Graphs obtained by changing shared handles of the demonstration are calm. -/
theorem calm5 (A : Hs) (h1 : ∀ x i z, A .wk (.mem x i) z → At d5.heap .wk (.mem x i) z) (h2 : A .wk (.var wa) ⟨a, a⟩) : Calm A := by
  refine calm_of_weak_vars ?_
  intro x i z hz hn
  obtain ⟨-, -, e⟩ := wk5 x i z (h1 _ _ _ hz) hn
  exact ⟨wa, _, h2, e.symm⟩

theorem calm_put (l : Loc) (y : Hnd) (hl : l ≠ .var wa) : Calm (Hs.put (At d5.heap) .sh l y) := by
  refine calm5 _ ?_ (Hs.put_ne (Ne.symm hl) rfl)
  intro x i z hz
  unfold Hs.put at hz
  split at hz
  · cases hz.1
  · exact hz

theorem calm_del (p : Ptr) (hl : p ≠ wa) : Calm (Hs.del (At d5.heap) (.var p)) :=
  calm5 _ (fun _ _ _ hz => hz.2) ⟨by intro e; cases e; exact hl rfl, rfl⟩

end Nestl.SP.Demo
