import Verif.Vector.Local
import Verif.Vector.Told
import Verif.Vector.Query
import Verif.Vector.Demo
import Verif.Fixed
set_option autoImplicit false
/-
A call on vectors is a matter of the objects it is about: nothing else has any influence on it, and it has no influence on
anything else.
-/
namespace Nestl.VC
open Vec

section spec
variable {V : Type}

/-- The vector of which an argument is an element. -/
def ArgAbout : CArg V → Ptr → Prop
  | .val _, _ => False
  | .elem t _, x => x = t

/-- The objects that a call is about. -/
def About : Call V → Ptr → Prop
  | .create _, _ => False
  | .pushBack s a, x | .insert s _ a, x | .resize s _ a, x | .assignN s _ a, x => x = s ∨ ArgAbout a x
  | .insertVals s _ _, x | .clear s, x | .reserve s _, x | .shrink s, x | .assignVals s _, x | .assignInput s _, x
  | .move s, x | .destroy s, x => x = s
  | .assignSub s t _ _, x | .copy s t, x | .moveAssign s t, x | .swap s t, x => x = s ∨ x = t

/-- The memory cells of the objects that a call is about: the objects and their blocks. -/
def CallCell (w : W V) (c : Call V) (p : Ptr) : Prop :=
  ∃ s, About c s ∧ Alive w s ∧ (p = s ∨ p ≠ .null ∧ HasData w s p)

/-- Calls that neither obtain memory nor create objects or elements. -/
def Frugal : Call V → Prop
  | .clear _ | .swap _ _ | .destroy _ => True
  | _ => False

end spec

section
open Classical
variable {V : Type} [ElemSize V] {w : W V} {c : Call V} {σ : Sg V} {s : Ptr} {v : Vec V}

theorem callCell_iff (h : Inv w σ) {p : Ptr} :
    CallCell w c p ↔ ∃ s v, About c s ∧ σ s = some v ∧ p ∈ cells s v := by
  constructor
  · rintro ⟨s, h1, h2, h3⟩
    obtain ⟨v, hs⟩ := (alive_iff h).1 h2
    refine ⟨s, v, h1, hs, ?_⟩
    rw [mem_cells, ← hasData_iff h hs]
    exact h3
  · rintro ⟨s, v, h1, hs, hp⟩
    rw [mem_cells, ← hasData_iff h hs] at hp
    exact ⟨s, h1, (alive_iff h).2 ⟨v, hs⟩, hp⟩

theorem only_inv (h : Inv w σ) : Inv (w.only (CallCell w c)) fun p => if About c p then σ p else none := by
  have key : ∀ x vx, (if About c x then σ x else none) = some vx → σ x = some vx ∧
      ∀ p ∈ cells x vx, (w.only (CallCell w c)).heap p = w.heap p := by
    intro x vx hx
    split at hx
    · rename_i hc
      exact ⟨hx, fun p hp => if_pos ((callCell_iff h).2 ⟨x, vx, hc, hx, hp⟩)⟩
    · cases hx
  refine ⟨⟨?_, ?_, ?_, ?_⟩, ?_⟩
  · intro x vx hx
    obtain ⟨h1, h2⟩ := key x vx hx
    exact ⟨(h.st.obj x vx h1).1, (h2 x (mem_cells.2 (.inl rfl))).trans (h.st.obj x vx h1).2⟩
  · intro x vx hx
    obtain ⟨h1, h2⟩ := key x vx hx
    obtain ⟨g1, g2, g3⟩ := h.st.ok x vx h1
    refine ⟨g1, g2, g3.imp id fun ⟨g4, g5⟩ => ⟨g4, (h2 _ (mem_cells.2 (.inr ⟨?_, rfl⟩))).trans g5⟩⟩
    obtain ⟨a, ha⟩ := g4
    rw [ha]; simp
  · intro x y vx vy hx hy
    exact h.st.disj x y vx vy (key x vx hx).1 (key y vy hy).1
  · intro p hp
    have hm : CallCell w c p := by
      apply Classical.byContradiction
      intro hn
      exact hp (if_neg hn)
    obtain ⟨s, v, h1, hs, hm⟩ := (callCell_iff h).1 hm
    rcases mem_cells.1 hm with rfl | ⟨hn, rfl⟩
    · left; simp [h1, hs]
    · right; exact ⟨s, v, by simp [h1, hs], rfl, hn⟩
  · intro i hi
    have := h.top i hi
    show (if _ then _ else _) = none
    split
    · exact this
    · rfl

theorem only_valid (h : Inv w σ) (hv : Valid w c) : Valid (w.only (CallCell w c)) c := by
  have h' := only_inv (c := c) h
  have tr : ∀ {s}, Alive w s → About c s → ∃ v, σ s = some v ∧ (fun p => if About c p then σ p else none) s = some v := by
    intro s hs ha
    obtain ⟨v, hs⟩ := (alive_iff h).1 hs
    exact ⟨v, hs, by simp [ha, hs]⟩
  have al : ∀ {s}, Alive w s → About c s → Alive (w.only (CallCell w c)) s := by
    intro s hs ha
    obtain ⟨v, -, h2⟩ := tr hs ha
    exact (alive_iff h').2 ⟨v, h2⟩
  have ct : ∀ {s L}, Alive w s → About c s → (Contents (w.only (CallCell w c)) s L ↔ Contents w s L) := by
    intro s L hs ha
    obtain ⟨v, h1, h2⟩ := tr hs ha
    rw [contents_iff h h1, contents_iff h' h2]
  have cp : ∀ {s n}, Alive w s → About c s → (HasCap (w.only (CallCell w c)) s n ↔ HasCap w s n) := by
    intro s n hs ha
    obtain ⟨v, h1, h2⟩ := tr hs ha
    rw [hasCap_iff h h1, hasCap_iff h' h2]
  have ac : ∀ {s a}, Alive w s → About c s → (HasAlloc (w.only (CallCell w c)) s a ↔ HasAlloc w s a) := by
    intro s a hs ha
    obtain ⟨v, h1, h2⟩ := tr hs ha
    rw [hasAlloc_iff h h1, hasAlloc_iff h' h2]
  have dt : ∀ {s p}, Alive w s → About c s → (HasData (w.only (CallCell w c)) s p ↔ HasData w s p) := by
    intro s a hs ha
    obtain ⟨v, h1, h2⟩ := tr hs ha
    rw [hasData_iff h h1, hasData_iff h' h2]
  have ao : ∀ {a : CArg V}, (∀ x, ArgAbout a x → About c x) → ArgOk w a → ArgOk (w.only (CallCell w c)) a := by
    intro a hx ha
    cases a with
    | val _ => trivial
    | elem t i =>
      obtain ⟨h1, L, h2, h3⟩ := ha
      exact ⟨al h1 (hx t rfl), L, (ct h1 (hx t rfl)).2 h2, h3⟩
  have sp : ∀ {s}, Alive w s → About c s → VC.Spare w s → VC.Spare (w.only (CallCell w c)) s := by
    rintro s hs ha ⟨L, n, h1, h2, h3⟩
    exact ⟨L, n, (ct hs ha).2 h1, (cp hs ha).2 h2, h3⟩
  cases c with
  | create _ => trivial
  | pushBack s a =>
    obtain ⟨a1, a2, a3⟩ := hv
    exact ⟨al a1 (.inl rfl), ao (fun _ => .inr) a2, a3.imp_right (sp a1 (.inl rfl))⟩
  | insert s i a =>
    obtain ⟨a1, a2, ⟨L, a3, a4, a5⟩, a6⟩ := hv
    exact ⟨al a1 (.inl rfl), ao (fun _ => .inr) a2, ⟨L, (ct a1 (.inl rfl)).2 a3, a4, a5⟩,
      a6.imp_right fun ⟨a7, a8⟩ => ⟨sp a1 (.inl rfl) a7, a8⟩⟩
  | insertVals s i vs =>
    obtain ⟨a1, L, a3, a4, a5⟩ := hv
    exact ⟨al a1 rfl, L, (ct a1 rfl).2 a3, a4, a5⟩
  | clear s => exact al hv rfl
  | reserve s n => exact ⟨al hv.1 rfl, hv.2⟩
  | shrink s => exact al hv rfl
  | resize s n a =>
    obtain ⟨a1, a2, a3, a4⟩ := hv
    exact ⟨al a1 (.inl rfl), ao (fun _ => .inr) a2, a3, a4.imp_right fun ⟨L, a5, a6⟩ => ⟨L, (ct a1 (.inl rfl)).2 a5, a6⟩⟩
  | assignN s n a =>
    obtain ⟨a1, a2, a3⟩ := hv
    exact ⟨al a1 (.inl rfl), ao (fun _ => .inr) a2, a3⟩
  | assignVals s vs => exact ⟨al hv.1 rfl, hv.2⟩
  | assignInput s vs => exact al hv rfl
  | assignSub s t i n =>
    obtain ⟨a1, a2, L, a3, a4⟩ := hv
    exact ⟨al a1 (.inl rfl), al a2 (.inr rfl), L, (ct a2 (.inr rfl)).2 a3, a4⟩
  | copy d s => exact ⟨al hv.1 (.inl rfl), al hv.2 (.inr rfl)⟩
  | move s => exact al hv rfl
  | moveAssign s t =>
    obtain ⟨a1, a2, a3⟩ := hv
    refine ⟨al a1 (.inl rfl), al a2 (.inr rfl), a3.imp_right fun a4 => a4.imp (dt a2 (.inr rfl)).2 ?_⟩
    rintro ⟨a, a5, a6⟩
    exact ⟨a, (ac a1 (.inl rfl)).2 a5, (ac a2 (.inr rfl)).2 a6⟩
  | swap s t => exact ⟨al hv.1 (.inl rfl), al hv.2 (.inr rfl)⟩
  | destroy s => exact al hv rfl

/-- C95: in every state that can be reached by any history of calls, every call is a matter of the vectors it is about.  In every
other state in which these vectors and their blocks are the same, whatever else there is, it terminates without any fault, gives
the same result, reports the same, leaves the same content in the vectors it is about, and changes nothing else. -/
theorem vector_local (hr : Reach w) (hv : Valid w c) : OnlyAbout (CallCell w c) w (exec c) := by
  obtain ⟨σ, h⟩ := hr.inv
  obtain ⟨r, w', hr, -⟩ := (exec_sim (only_inv (c := c) h) rfl (only_valid h hv)).runs
  exact (Vec.Local.exec c).onlyAbout hr

theorem callCell_apart {c1 c2 : Call V} (h : Inv w σ) (hd : ∀ s, About c1 s → ¬ About c2 s) (p : Ptr)
    (h1 : CallCell w c1 p) : ¬ CallCell w c2 p := by
  intro h2
  obtain ⟨s, v, a1, a2, a3⟩ := (callCell_iff h).1 h1
  obtain ⟨t, u, b1, b2, b3⟩ := (callCell_iff h).1 h2
  have hne : s ≠ t := by rintro rfl; exact hd _ a1 b1
  have blk : ∀ {s v t u}, σ s = some v → σ t = some u → s ≠ .null → s ≠ u.start := by
    intro s v t u hs ht hn e
    obtain ⟨⟨i, rfl⟩, -⟩ := h.st.obj _ _ hs
    rcases (h.st.ok _ _ ht).blk with ⟨h3, _⟩ | ⟨⟨b, h3⟩, _⟩ <;> rw [h3] at e <;> cases e
  rw [mem_cells] at a3 b3
  rcases a3 with rfl | ⟨n3, a3⟩ <;> rcases b3 with b3 | ⟨m3, b3⟩
  · exact hne b3
  · exact blk a2 b2 m3 b3
  · subst b3; exact blk b2 a2 n3 a3
  · exact hne (h.st.disj s t v u a2 b2 (a3.symm.trans b3) (by rw [← a3]; exact n3))

theorem inv_stk (h : Inv w σ) (i : Nat) (hi : w.sp ≤ i) : w.heap (.stk i) = none := by
  apply Classical.byContradiction
  intro hn
  rcases h.st.cover _ hn with h1 | ⟨t, u, ht, h1, h2⟩
  · exact h1 (h.top i hi)
  · rcases (h.st.ok _ _ ht).blk with ⟨h3, _⟩ | ⟨⟨b, h3⟩, _⟩ <;> rw [h3] at h1 <;> cases h1

omit [ElemSize V] in
theorem fixed_rdObj (s : Ptr) : Fixed (rdObj s : M (W V) Obj) := by unfold rdObj; fixedly
omit [ElemSize V] in
theorem fixed_rdBlk (s : Ptr) : Fixed (rdBlk s : M (W V) (Blk V)) := by unfold rdBlk; fixedly
omit [ElemSize V] in
theorem fixed_setObj (s : Ptr) (o : Obj) : Fixed (setObj s o : M (W V) Unit) := .modCell _ _
macro_rules | `(tactic| fixed_leaf) => `(tactic| with_reducible exact fixed_rdObj _)
macro_rules | `(tactic| fixed_leaf) => `(tactic| with_reducible exact fixed_rdBlk _)
macro_rules | `(tactic| fixed_leaf) => `(tactic| with_reducible exact fixed_setObj _ _)
omit [ElemSize V] in
theorem fixed_destroySlot (p : Ptr) (i : Nat) : Fixed (destroySlot p i : M (W V) Unit) := by unfold destroySlot; fixedly
omit [ElemSize V] in
theorem fixed_destroyRange (p : Ptr) (i n : Nat) : Fixed (destroyRange p i n : M (W V) Unit) := by
  induction n generalizing i with
  | zero => exact .pure _
  | succ n ih => exact .bind (fixed_destroySlot _ _) fun _ => ih _
omit [ElemSize V] in
theorem fixed_deallocate (a : Nat) (p : Ptr) (n : Nat) : Fixed (deallocate a p n : M (W V) Unit) := .freeCell _ _
macro_rules | `(tactic| fixed_leaf) => `(tactic| with_reducible exact fixed_destroyRange _ _ _)
macro_rules | `(tactic| fixed_leaf) => `(tactic| with_reducible exact fixed_deallocate _ _ _)

theorem frugal_quiet (hf : Frugal c) : Quiet (exec c) ∧ Fixed (exec c) := by
  cases c with
  | clear s => exact ⟨.bind (Vec.Quiet.clear _) fun _ => .pure _, by unfold exec Vec.clear; fixedly⟩
  | swap s t => exact ⟨.bind (Vec.Quiet.swap _ _) fun _ => .pure _, by unfold exec Vec.swap Vec.swapData; fixedly⟩
  | destroy s => exact ⟨.bind (Vec.Quiet.destroyVec _) fun _ => .pure _, by unfold exec Vec.destroyVec; fixedly⟩
  | _ => exact hf.elim

/-- C95: two calls on different vectors that neither obtain memory nor create objects (clearing, destroying, exchanging) can be
exchanged: whichever is made first, both give the same results, neither reports an error, and the same memory is left. -/
theorem vector_exchange {c1 c2 : Call V} (hr : Reach w)
    (hoff : ∀ j a, w.nAlloc ≤ j → w.env.addr j = some a → w.heap (.dyn a) = none) (hv1 : Valid w c1) (hv2 : Valid w c2)
    (hf1 : Frugal c1) (hf2 : Frugal c2) (hd : ∀ s, About c1 s → ¬ About c2 s) :
    ∃ r1 r2 w1 w2 w', Runs (exec c1) (ready w) r1 w1 ∧ Runs (exec c2) w1 r2 w' ∧
      Runs (exec c2) (ready w) r2 w2 ∧ Runs (exec c1) w2 r1 w' ∧ w'.err = none := by
  obtain ⟨A, hsim⟩ := hr.sim
  obtain ⟨r1, w1, k1, -⟩ := (hsim.call hv1).runs
  obtain ⟨r2, w2, k2, -⟩ := (hsim.call hv2).runs
  obtain ⟨σ, hI, -⟩ := hsim
  obtain ⟨q1, f1⟩ := frugal_quiet hf1
  obtain ⟨q2, f2⟩ := frugal_quiet hf2
  have q1 := q1 _ _ _ k1
  have q2 := q2 _ _ _ k2
  have f1 := f1 _ _ _ k1
  have f2 := f2 _ _ _ k2
  exact OnlyAbout.exchange (vector_local hr hv1) (vector_local hr hv2) (callCell_apart hI hd) ⟨inv_stk hI, hoff⟩ k1
    ⟨q1.allocs, q1.ctors, f1⟩ q1.err k2 ⟨q2.allocs, q2.ctors, f2⟩ q2.err

omit [ElemSize V] in
theorem good_offers (hg : Good w) (j a : Nat) (hj : w.nAlloc ≤ j) (ha : w.env.addr j = some a) : w.heap (.dyn a) = none := by
  apply Classical.byContradiction
  intro hn
  obtain ⟨k, hk, e⟩ := hg.past a hn
  have := hg.inj j k (by rw [e, ha])
  omega

-- exchanging two vectors, and clearing a third one
example : ∃ (w : W Nat) (s t u : Ptr), Reach w ∧
    (∀ j a, w.nAlloc ≤ j → w.env.addr j = some a → w.heap (.dyn a) = none) ∧ Contents w s [3, 1, 2] ∧ Contents w t [2, 5] ∧
    Contents w u [9] ∧ Valid w (.swap s t) ∧ Valid w (.clear u) ∧ Frugal (.swap s t : Call Nat) ∧ Frugal (.clear u : Call Nat) ∧
    ∀ x, About (.swap s t : Call Nat) x → ¬ About (.clear u : Call Nat) x := by
  obtain ⟨w, s, t, u, hr, hg, hst, hsu, htu, ha, hb, hu, hc, hd, he, -, -, -, -, -, -⟩ := demo
  refine ⟨w, s, t, u, hr, good_offers hg, hc, hd, he, ⟨ha, hb⟩, hu, trivial, trivial, ?_⟩
  rintro x (rfl | rfl) h
  · exact hsu h
  · exact htu h

-- appending an element of one vector to another (which needs memory), in a state from which all other vectors are removed
example : ∃ (w w2 : W Nat) (s t u : Ptr), Reach w ∧ Valid w (.pushBack s (.elem t 1)) ∧ Alive w u ∧ ¬ Alive w2 u ∧
    Sees (CallCell w (.pushBack s (.elem t 1))) w w2 ∧ ∀ n, Nestl.Spare (CallCell w (.pushBack s (.elem t 1))) w2 n := by
  obtain ⟨w, s, t, u, hr, hg, hst, hsu, htu, ha, hb, hu, hc, hd, he, -, -, -, -, -, -⟩ := demo
  obtain ⟨σ, h⟩ := hr.inv
  refine ⟨w, w.only (CallCell w (.pushBack s (.elem t 1))), s, t, u, hr, ⟨ha, ⟨hb, _, hd, by decide⟩, .inl ?_⟩, hu, ?_,
    ⟨rfl, rfl, rfl, rfl, fun p hp => if_pos hp, ?_⟩, ?_⟩
  · exact hst.symm
  · intro h4
    obtain ⟨ls, h5⟩ := (alive_iff (only_inv h)).1 h4
    simp [About, ArgAbout, hsu.symm, htu.symm] at h5
  · intro i hi
    show (if _ then _ else _) = _
    split
    · exact inv_stk h i hi
    · rfl
  · intro n j a hj _ hja
    left
    show (if _ then _ else _) = _
    split
    · exact good_offers hg j a hj hja
    · rfl
end

end Nestl.VC
