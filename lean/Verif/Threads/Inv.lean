import Verif.Threads.Model
set_option autoImplicit false
/-
The invariant of threads that hold a lock during every function of the control block.
-/
namespace Nestl.Th

/-- The state of the control block for `S` owners and `W` weak pointers when no thread is in one of its functions. -/
structure Rest (m : Mem) (S W : Nat) : Prop where
  use : m.use = S
  weak : m.weak = W
  died : m.died = if S = 0 then 1 else 0
  freed : m.freed = if S + W = 0 then 1 else 0

/-- The state of the control block when the only thread in one of its functions is at `pc`. -/
def At (m : Mem) (S W : Nat) : Pc → Prop
  | .add2 r => Rest m S W ∧ r = m.use
  | .wadd2 r => Rest m S W ∧ r = m.weak
  | .rel0 | .rel1 => m.use = S + 1 ∧ m.weak = W ∧ m.died = 0 ∧ m.freed = 0
  | .rel2 r => r = S + 1 ∧ m.weak = W ∧ m.died = 0 ∧ m.freed = 0
  | .rel3 => m.use = S ∧ m.weak = W ∧ m.died = 0 ∧ m.freed = 0
  | .rel4 => S = 0 ∧ m.use = 0 ∧ m.weak = W ∧ m.died = 0 ∧ m.freed = 0
  | .rel5 => S = 0 ∧ m.use = 0 ∧ m.weak = W ∧ m.died = 1 ∧ m.freed = 0
  | .rel6 => S = 0 ∧ m.use = 0 ∧ m.weak = W ∧ m.died = 1 ∧ m.freed = 0 ∧ W = 0
  | .wrel0 | .wrel1 => m.use = S ∧ m.weak = W + 1 ∧ m.died = (if S = 0 then 1 else 0) ∧ m.freed = 0
  | .wrel2 r => m.use = S ∧ r = W + 1 ∧ m.died = (if S = 0 then 1 else 0) ∧ m.freed = 0
  | .wrel3 => m.use = S ∧ m.weak = W ∧ m.died = (if S = 0 then 1 else 0) ∧ m.freed = 0
  | .wrel4 => m.use = S ∧ m.weak = W ∧ m.died = (if S = 0 then 1 else 0) ∧ m.freed = 0 ∧ W = 0
  | .wrel5 => m.use = S ∧ m.weak = W ∧ m.died = (if S = 0 then 1 else 0) ∧ m.freed = 0 ∧ W = 0 ∧ S = 0
  | _ => Rest m S W

/-- A thread in the middle of a call owns what the call needs. -/
def Own (t : Thread) : Prop :=
  match t.pc with
  | .deref | .add0 | .add1 | .add2 _ => 1 ≤ t.sh
  | .wadd0 | .wadd1 | .wadd2 _ | .count => 1 ≤ t.sh + t.wk
  | .expired | .alive => False
  | _ => True

/-- The calls of a program that locks a `weak_ptr` only if it owns the object anyway. -/
def Guarded (_ : Nat) (op : Op) (t : Thread) : Prop :=
  match op with
  | .lock => 1 ≤ t.sh
  | .lockIf => False
  | _ => True

variable {m m' : Mem} {t t' : Thread} {S W R Q : Nat} {op : Op}

theorem At.rest (h : At m S W t.pc) (hi : t.pc.inside = false) : Rest m S W := by
  cases hp : t.pc <;> rw [hp] at h hi <;> first | exact h | cases hi

theorem Rest.at_ (h : Rest m S W) (hi : t.pc.inside = false) : At m S W t.pc := by
  cases hp : t.pc <;> rw [hp] at hi <;> first | exact h | cases hi

theorem Own.deref (ho : Own t) (hp : t.pc ≠ .idle) (hi : t.pc.inside = false) : t.pc = .deref := by
  cases hq : t.pc <;> rw [hq] at hi hp <;>
    first | rfl | exact absurd rfl hp | (unfold Own at ho; rw [hq] at ho; exact ho.elim) | cases hi

/-- A dereferencing thread finds the object. -/
theorem At.died (h : At m S W t.pc) (hS : 0 < S) : m.died = 0 := by
  have h0 : (if S = 0 then 1 else 0) = 0 := by rw [if_neg (by omega)]
  cases hp : t.pc <;> rw [hp] at h <;> simp only [At] at h <;>
    first
    | exact h.died.trans h0
    | exact h.1.died.trans h0
    | (obtain ⟨-, -, h3, -⟩ := h; first | exact h3 | exact h3.trans h0)
    | (obtain ⟨h1, -⟩ := h; omega)

theorem rest_iff : Rest m S W ↔ m.use = S ∧ m.weak = W ∧ m.died = (if S = 0 then 1 else 0) ∧ m.freed = (if S + W = 0 then 1 else 0) :=
  ⟨fun ⟨a, b, c, d⟩ => ⟨a, b, c, d⟩, fun ⟨a, b, c, d⟩ => ⟨a, b, c, d⟩⟩

theorem onBlock_ok {α : Type} {r : Except Fault α} (h : m.freed = 0) : onBlock m r = r := if_pos h

theorem check_ok {α : Type} {b : Bool} {r : Except Fault α} (h : b = true) : check b r = r := if_pos h

/-- The block is there while a thread is in one of its functions. -/
theorem At.freed (h : At m (R + t.sh) (Q + t.wk) t.pc) (ho : Own t) (hi : t.pc.inside = true) : m.freed = 0 := by
  rcases t with ⟨pc, sh, wk⟩
  cases pc <;> simp [At, Own, rest_iff, Pc.inside] at h ho hi <;> grind

/-- A step of the only thread in a function. -/
def Next (R Q : Nat) (m : Mem) : Except Fault (Mem × Thread) → Prop
  | .ok (m', t') => At m' (R + t'.sh) (Q + t'.wk) t'.pc ∧ Own t' ∧ m'.boxSh = m.boxSh ∧ m'.boxWk = m.boxWk
  | .error _ => False

theorem micro_at (h : At m (R + t.sh) (Q + t.wk) t.pc) (ho : Own t) (hi : t.pc.inside = true) : Next R Q m (micro m t) := by
  have hf := h.freed ho hi
  rcases t with ⟨pc, sh, wk⟩
  cases pc <;> simp only [Pc.inside, Bool.false_eq_true] at hi <;> simp only [micro, onBlock_ok hf] <;>
    simp only [At, Own, rest_iff] at h ho
  case add0 | count | wadd0 | rel0 | wrel0 => rw [check_ok (by simp; omega)]; simp [Next, At, Own, rest_iff]; grind
  case rel3 | rel5 | wrel3 | wrel4 =>
    split <;> simp [Next, At, Own, rest_iff] <;> grind
  case rel4 => rw [if_pos h.2.2.2.1]; simp [Next, At, Own]; grind
  all_goals simp [Next, At, Own, rest_iff]; grind

/-- The control block, without the mailbox. -/
def Same (m m' : Mem) : Prop := m'.use = m.use ∧ m'.weak = m.weak ∧ m'.died = m.died ∧ m'.freed = m.freed

theorem At.same {p : Pc} (h : At m S W p) (hs : Same m m') : At m' S W p := by
  obtain ⟨a, b, c, d⟩ := hs
  cases p <;> simp only [At, rest_iff, a, b, c, d] at h ⊢ <;> exact h

theorem begin_at (hp : t.pc = .idle) (hg : Guarded 0 op t) (hb : begin_ op m t = some (m', t'))
    (h : Rest m (R + m.boxSh + t.sh) (Q + m.boxWk + t.wk)) :
    At m' (R + m'.boxSh + t'.sh) (Q + m'.boxWk + t'.wk) t'.pc ∧ Own t' := by
  rcases t with ⟨pc, sh, wk⟩
  cases op <;> simp [Guarded] at hg <;> simp only [begin_, Option.ite_none_right_eq_some, Option.some.injEq, Prod.mk.injEq] at hb <;>
    obtain ⟨hb, rfl, rfl⟩ := hb <;> simp only at hp <;> simp only [At, Own, rest_iff, hp] at h ⊢ <;> grind

theorem begin_outside (hp : t.pc = .idle) (hg : Guarded 0 op t) (hb : begin_ op m t = some (m', t')) (hi : t'.pc.inside = false) :
    Same m m' ∧ m'.boxSh + t'.sh = m.boxSh + t.sh ∧ m'.boxWk + t'.wk = m.boxWk + t.wk ∧ Own t' := by
  rcases t with ⟨pc, sh, wk⟩
  cases op <;> simp [Guarded] at hg <;> simp only [begin_, Option.ite_none_right_eq_some, Option.some.injEq, Prod.mk.injEq] at hb <;>
    obtain ⟨hb, rfl, rfl⟩ := hb <;> simp only at hp <;> simp only [Same, Own, hp, Pc.inside] at hi ⊢ <;> grind

/-- The invariant. -/
structure Inv (c : Cfg) : Prop where
  own : ∀ t ∈ c.ts, Own t
  one : ∀ l t r, c.ts = l ++ t :: r → t.pc.inside = true → ∀ u ∈ l ++ r, u.pc.inside = false
  at_ : ∀ t ∈ c.ts, t.pc.inside = true → At c.mem (owners c) (watchers c) t.pc
  rest : (∀ t ∈ c.ts, t.pc.inside = false) → Rest c.mem (owners c) (watchers c)
  some_ : c.ts ≠ []

variable {l r : List Thread} {c c' : Cfg}

/-- The owners outside a thread. -/
def oth (l r : List Thread) : Nat := (l.map Thread.sh).sum + (r.map Thread.sh).sum

def othW (l r : List Thread) : Nat := (l.map Thread.wk).sum + (r.map Thread.wk).sum

theorem owners_eq : owners ⟨m, l ++ t :: r⟩ = oth l r + m.boxSh + t.sh := by
  simp [owners, oth]; omega

theorem watchers_eq : watchers ⟨m, l ++ t :: r⟩ = othW l r + m.boxWk + t.wk := by
  simp [watchers, othW]; omega

theorem Inv.here (h : Inv ⟨m, l ++ t :: r⟩) (hu : ∀ u ∈ l ++ r, u.pc.inside = false) :
    At m (oth l r + m.boxSh + t.sh) (othW l r + m.boxWk + t.wk) t.pc := by
  rw [← owners_eq, ← watchers_eq]
  cases hi : t.pc.inside with
  | true => exact h.at_ t (by simp) hi
  | false =>
    refine (h.rest ?_).at_ hi
    intro u hm
    simp only [List.mem_append, List.mem_cons] at hm hu
    rcases hm with hm | rfl | hm
    · exact hu u (.inl hm)
    · exact hi
    · exact hu u (.inr hm)

/-- The invariant after a step of a thread while no other thread is in a function. -/
theorem Inv.put (h : Inv ⟨m, l ++ t :: r⟩) (hu : ∀ u ∈ l ++ r, u.pc.inside = false) (ho : Own t')
    (ha : At m' (oth l r + m'.boxSh + t'.sh) (othW l r + m'.boxWk + t'.wk) t'.pc) : Inv ⟨m', l ++ t' :: r⟩ := by
  have hu' : ∀ u ∈ l ++ t' :: r, u.pc.inside = true → u = t' := by
    intro u hm hi
    simp only [List.mem_append, List.mem_cons] at hm hu
    rcases hm with hm | rfl | hm
    · rw [hu u (.inl hm)] at hi; cases hi
    · rfl
    · rw [hu u (.inr hm)] at hi; cases hi
  refine ⟨?_, ?_, ?_, ?_, by simp⟩
  · intro u hm
    simp only [List.mem_append, List.mem_cons] at hm
    rcases hm with hm | rfl | hm
    · exact h.own u (by simp [hm])
    · exact ho
    · exact h.own u (by simp [hm])
  · intro l1 t1 r1 he hi u hm
    simp only at he
    have he1 : t1 = t' := hu' t1 (by rw [he]; simp) hi
    subst he1
    rcases List.append_eq_append_iff.1 he with ⟨x, h1, h2⟩ | ⟨x, h1, h2⟩
    · cases x with
      | nil => simp at h1 h2; obtain rfl := h1; obtain rfl := h2; exact hu u hm
      | cons y x =>
        simp only [List.cons_append, List.cons.injEq] at h2
        obtain ⟨rfl, rfl⟩ := h2
        have := hu t1 (by simp)
        rw [hi] at this; cases this
    · cases x with
      | nil => simp at h1 h2; obtain rfl := h1; obtain rfl := h2; exact hu u hm
      | cons y x =>
        simp only [List.cons_append, List.cons.injEq] at h2
        obtain ⟨rfl, rfl⟩ := h2
        have := hu t1 (by rw [h1]; simp)
        rw [hi] at this; cases this
  · intro u hm hi
    obtain rfl := hu' u hm hi
    rw [owners_eq, watchers_eq]
    exact ha
  · intro hn
    rw [owners_eq, watchers_eq]
    exact ha.rest (hn t' (by simp))

/-- The invariant after a step of a thread outside the functions. -/
theorem Inv.aside (h : Inv ⟨m, l ++ t :: r⟩) (h1 : t.pc.inside = false) (h2 : t'.pc.inside = false) (hs : Same m m')
    (hS : m'.boxSh + t'.sh = m.boxSh + t.sh) (hW : m'.boxWk + t'.wk = m.boxWk + t.wk) (ho : Own t') : Inv ⟨m', l ++ t' :: r⟩ := by
  have eS : owners ⟨m', l ++ t' :: r⟩ = owners ⟨m, l ++ t :: r⟩ := by rw [owners_eq, owners_eq]; omega
  have eW : watchers ⟨m', l ++ t' :: r⟩ = watchers ⟨m, l ++ t :: r⟩ := by rw [watchers_eq, watchers_eq]; omega
  refine ⟨?_, ?_, ?_, ?_, by simp⟩
  · intro u hm
    simp only [List.mem_append, List.mem_cons] at hm
    rcases hm with hm | rfl | hm
    · exact h.own u (by simp [hm])
    · exact ho
    · exact h.own u (by simp [hm])
  · intro l1 t1 r1 he hi u hm
    simp only at he
    rcases List.append_eq_append_iff.1 he with ⟨x, g1, g2⟩ | ⟨x, g1, g2⟩
    · cases x with
      | nil => simp at g2; obtain ⟨rfl, -⟩ := g2; rw [hi] at h2; cases h2
      | cons y x =>
        simp only [List.cons_append, List.cons.injEq] at g2
        obtain ⟨rfl, rfl⟩ := g2
        subst g1
        have := h.one (l ++ t :: x) t1 r1 (by simp) hi
        simp only [List.mem_append, List.mem_cons] at hm this
        rcases hm with (hm | rfl | hm) | hm
        · exact this u (.inl (.inl hm))
        · exact h2
        · exact this u (.inl (.inr (.inr hm)))
        · exact this u (.inr hm)
    · cases x with
      | nil => simp at g2; obtain ⟨rfl, -⟩ := g2; rw [hi] at h2; cases h2
      | cons y x =>
        simp only [List.cons_append, List.cons.injEq] at g2
        obtain ⟨rfl, rfl⟩ := g2
        subst g1
        have := h.one l1 t1 (x ++ t :: r) (by simp) hi
        simp only [List.mem_append, List.mem_cons] at hm this
        rcases hm with hm | hm | rfl | hm
        · exact this u (.inl hm)
        · exact this u (.inr (.inl hm))
        · exact h2
        · exact this u (.inr (.inr (.inr hm)))
  · intro u hm hi
    rw [eS, eW]
    refine (h.at_ u ?_ hi).same hs
    simp only [List.mem_append, List.mem_cons] at hm ⊢
    rcases hm with hm | rfl | hm
    · exact .inl hm
    · rw [hi] at h2; cases h2
    · exact .inr (.inr hm)
  · intro hn
    rw [eS, eW]
    have : Rest m (owners ⟨m, l ++ t :: r⟩) (watchers ⟨m, l ++ t :: r⟩) := by
      refine h.rest ?_
      intro u hm
      simp only [List.mem_append, List.mem_cons] at hm
      rcases hm with hm | rfl | hm
      · exact hn u (by simp [hm])
      · exact h1
      · exact hn u (by simp [hm])
    exact (this.at_ (t := ⟨.idle, 0, 0⟩) rfl).same hs

/-- Threads that do not use `weak_ptr::lock`. -/
theorem Inv.step {ok : Nat → Op → Thread → Prop} (hok : ∀ i op t, ok i op t → Guarded i op t) (h : Inv c)
    (hs : Step .functions ok c c') : Inv c' := by
  cases hs with
  | call hp ho hb hm =>
    have hg := hok _ _ _ ho
    rcases hm with ⟨h1, h2⟩ | hu
    · obtain ⟨a1, a2, a3, a4⟩ := begin_outside hp hg hb h2
      exact h.aside h1 h2 a1 a2 a3 a4
    · have ha := h.here hu
      obtain ⟨a1, a2⟩ := begin_at hp hg hb (ha.rest (by rw [hp]; rfl))
      exact h.put hu a2 a1
  | @run m m' l r t t' hp hb hm =>
    have ho := h.own t (by simp)
    cases hi : t.pc.inside with
    | true =>
      have hu := h.one l t r rfl hi
      have := micro_at (h.here hu) ho hi
      rw [hb] at this
      obtain ⟨a1, a2, a3, a4⟩ := this
      exact h.put hu a2 (by rw [a3, a4]; exact a1)
    | false =>
      have hd := ho.deref hp hi
      unfold micro at hb
      rw [hd] at hb
      simp only at hb
      split at hb
      · simp only [Except.ok.injEq, Prod.mk.injEq] at hb
        obtain ⟨rfl, rfl⟩ := hb
        exact h.aside hi rfl ⟨rfl, rfl, rfl, rfl⟩ rfl rfl (by simp [Own])
      · cases hb

theorem Inv.start (n : Nat) : Inv (start n) := by
  have h1 : ∀ t ∈ (Th.start n).ts, t.pc = .idle := by
    intro t ht
    simp only [Th.start, List.mem_cons, List.mem_replicate] at ht
    rcases ht with rfl | ⟨-, rfl⟩ <;> rfl
  refine ⟨?_, ?_, ?_, ?_, by simp [Th.start]⟩
  · intro t ht; unfold Own; rw [h1 t ht]; trivial
  · intro l t r he hi; rw [h1 t (by rw [he]; simp)] at hi; cases hi
  · intro t ht hi; rw [h1 t ht] at hi; cases hi
  · intro _
    have e1 : owners (Th.start n) = 1 := by simp [owners, Th.start]
    have e2 : watchers (Th.start n) = 0 := by simp [watchers, Th.start]
    rw [e1, e2]
    exact ⟨rfl, rfl, rfl, rfl⟩

theorem Reach.inv {ok : Nat → Op → Thread → Prop} (hok : ∀ i op t, ok i op t → Guarded i op t) {n : Nat}
    (h : Reach .functions ok n c) : Inv c := by
  induction h with
  | start => exact Inv.start n
  | step _ hs ih => exact ih.step hok hs

/-- While the object has owners it is there. -/
theorem Inv.died (h : Inv c) (ho : 0 < owners c) : c.mem.died = 0 := by
  by_cases hn : ∀ t ∈ c.ts, t.pc.inside = false
  · exact (((h.rest hn).at_ (t := ⟨.idle, 0, 0⟩) rfl)).died (t := ⟨.idle, 0, 0⟩) ho
  · simp only [Classical.not_forall] at hn
    obtain ⟨t, ht, hi⟩ := hn
    exact (h.at_ t ht (by simpa using hi)).died ho

theorem Inv.freed (h : Inv c) (ho : 0 < owners c + watchers c) : c.mem.freed = 0 := by
  by_cases hn : ∀ t ∈ c.ts, t.pc.inside = false
  · have := (h.rest hn).freed
    rwa [if_neg (by omega)] at this
  · simp only [Classical.not_forall] at hn
    obtain ⟨t, ht, hi⟩ := hn
    have hi : t.pc.inside = true := by simpa using hi
    have ha := h.at_ t ht hi
    obtain ⟨m, ts⟩ := c
    obtain ⟨l, r, rfl⟩ := List.append_of_mem ht
    have h2 := ha
    rw [owners_eq, watchers_eq] at h2
    exact h2.freed (h.own t ht) hi

theorem Inv.not_faulty (h : Inv c) {pol : Policy} (f : Fault) : ¬ Faulty pol c f := by
  rintro ⟨l, t, r, he, hp, hf, -⟩
  obtain ⟨m, ts⟩ := c
  simp only at he hf
  subst he
  have ho := h.own t (by simp)
  cases hi : t.pc.inside with
  | true =>
    have := micro_at (h.here (h.one l t r rfl hi)) ho hi
    rw [hf] at this
    exact this
  | false =>
    have hd := ho.deref hp hi
    have h1 : 1 ≤ t.sh := by unfold Own at ho; rw [hd] at ho; exact ho
    have := h.died (by rw [owners_eq]; omega)
    unfold micro at hf
    rw [hd] at hf
    simp only at hf this
    rw [if_pos this] at hf
    cases hf

end Nestl.Th
