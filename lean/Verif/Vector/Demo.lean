import Verif.Vector.Sim
set_option autoImplicit false
/-
Vocabulary of the vector property theorems, and concrete reachable states used by the examples beside them.
-/
namespace Nestl.VC
open Nestl.Vec
section vocabulary
variable {V : Type} [ElemSize V] {w w' : W V} {σ σ' : Sg V} {s t : Ptr} {v u : Vec V} {x : V} {L : List V}

/-- All vector objects other than those in `S` keep their elements, block, capacity and allocator. -/
def Unchanged (w w' : W V) (S : List Ptr) : Prop :=
  ∀ u, u ∉ S → Alive w u → Alive w' u ∧ (∀ L, Contents w u L → Contents w' u L) ∧ (∀ c, HasCap w u c → HasCap w' u c) ∧
    (∀ p, HasData w u p → HasData w' u p) ∧ (∀ a, HasAlloc w u a → HasAlloc w' u a)

/-- Everything in memory is a live vector object or the block of one. -/
def NoLeak (w : W V) : Prop := ∀ p, w.heap p ≠ none → Alive w p ∨ ∃ s, Alive w s ∧ HasData w s p

/-- No error was reported, no memory requested and no element constructed. -/
def Silent (w w' : W V) : Prop := w'.err = none ∧ w'.nAlloc = w.nAlloc ∧ w'.nCtor = w.nCtor

/-- The argument `a` denotes the value `x`. -/
def ArgVal (w : W V) (x : V) : CArg V → Prop
  | .val v => x = v
  | .elem t i => Alive w t ∧ ∃ L, Contents w t L ∧ L[i]? = some x

/-- A block of `n` elements is within the limit on the size of blocks. -/
def Modest (V : Type) [ElemSize V] (n : Nat) : Prop := n * ElemSize.size V ≤ maxBytes

theorem unchanged {S : List Ptr} (h : Inv w σ) (h' : Inv w' σ') (hS : ∀ u, u ∉ S → σ' u = σ u) : Unchanged w w' S := by
  intro u hu ha
  obtain ⟨v, hv⟩ := (alive_iff h).1 ha
  have hv' : σ' u = some v := by rw [hS u hu, hv]
  exact ⟨(alive_iff h').2 ⟨v, hv'⟩, fun L hL => (contents_iff h' hv').2 ((contents_iff h hv).1 hL),
    fun L hL => (hasCap_iff h' hv').2 ((hasCap_iff h hv).1 hL), fun L hL => (hasData_iff h' hv').2 ((hasData_iff h hv).1 hL),
    fun L hL => (hasAlloc_iff h' hv').2 ((hasAlloc_iff h hv).1 hL)⟩

theorem unchanged0 (h : Inv w σ) (h' : Inv w' σ) : Unchanged w w' [] := unchanged h h' fun _ _ => rfl

theorem unchanged1 {x : Option (Vec V)} (h : Inv w σ) (h' : Inv w' (upd σ s x)) : Unchanged w w' [s] :=
  unchanged h h' fun u hu => upd_other _ _ (by simpa using hu)

theorem unchanged2 {x y : Option (Vec V)} (h : Inv w σ) (h' : Inv w' (upd (upd σ s x) t y)) : Unchanged w w' [s, t] :=
  unchanged h h' fun u hu => by
    simp at hu
    rw [upd_other _ _ hu.2, upd_other _ _ hu.1]

theorem Inv.noLeak (h : Inv w σ) : NoLeak w := by
  intro p hp
  rcases h.st.cover p hp with h1 | ⟨s, v, hs, h2, _⟩
  · exact .inl ((alive_iff h).2 (Option.ne_none_iff_exists'.1 h1))
  · exact .inr ⟨s, (alive_iff h).2 ⟨v, hs⟩, (hasData_iff h hs).2 h2.symm⟩

theorem ArgVal.ok (h : Inv w σ) {a : CArg V} (ha : ArgVal w x a) : ArgOk w a := by
  cases a with
  | val v => trivial
  | elem t i =>
    obtain ⟨h1, L, h2, h3⟩ := ha
    exact ⟨h1, L, h2, (List.getElem?_eq_some_iff.1 h3).1⟩

theorem ArgVal.unique (h : Inv w σ) {a : CArg V} {y : V} (ha : ArgVal w x a) (hy : ArgIs (abs σ) y a) : y = x := by
  cases a with
  | val v => exact Eq.trans hy (Eq.symm ha)
  | elem t i =>
    obtain ⟨h1, L, h2, h3⟩ := ha
    obtain ⟨al, M, h4, h5⟩ := hy
    obtain ⟨u, hu, rfl, rfl⟩ := abs_inv h4
    rw [(contents_iff h hu).1 h2] at h3
    rw [h3] at h5; exact (Option.some.inj h5).symm

theorem ready_good (h : Good w) : Good (ready w) := ⟨h.some, h.inj, h.ctor, h.past⟩

theorem argOk_ready (h : Inv w σ) {a : CArg V} (ha : ArgOk w a) : ArgOk (ready w) a := by
  cases a with
  | val _ => trivial
  | elem t i =>
    obtain ⟨h1, L, h2, h3⟩ := ha
    obtain ⟨u, hu⟩ := (alive_iff h).1 h1
    exact ⟨h1, L, (contents_iff h.ready hu).2 ((contents_iff h hu).1 h2), h3⟩

end vocabulary

/-! ### Concrete states -/

instance : ElemSize Nat := ⟨8, by decide, by decide⟩

/-- An environment with unlimited memory whose constructors fail as given. -/
def envOf (c : Nat → Bool) : Env (VCell Nat) :=
  { addr := fun k => some k, ctor := c, junk := fun _ => .obj ⟨0, .null, 0, 0⟩ }

/-- A reachable state with known vectors. -/
structure Demo (c : Nat → Bool) (n : Nat) (w : W Nat) (σ : Sg Nat) : Prop where
  reach : Reach w
  env : w.env = envOf c
  past : ∀ a, w.heap (.dyn a) ≠ none → ∃ k, k < w.nAlloc ∧ w.env.addr k = some a
  ctors : w.nCtor = n
  inv : Inv w σ

variable {c : Nat → Bool} {n : Nat} {w : W Nat} {σ : Sg Nat} {s t : Ptr} {v u : Vec Nat}

theorem Demo.room (h : Demo c n w σ) {m : Nat} (hm : Fits Nat m) : ¬ NoRoom w m := by
  rintro (h1 | h1)
  · have := hm.noWrap
    unfold Fits at hm; unfold NoWrap at this; unfold wrap at h1
    rw [Nat.mod_eq_of_lt this] at h1; omega
  · have h2 := h1 w.nAlloc (by rw [h.env]; rfl)
    obtain ⟨k, h3, h4⟩ := h.past _ h2
    rw [h.env] at h4
    simp [envOf] at h4
    omega

theorem Demo.good (h : Demo c n w σ) (hc : ∀ k, c k = true) : Good w := by
  refine ⟨fun k => ⟨k, by rw [h.env]; rfl⟩, fun i j h1 => ?_, fun k => by rw [h.env]; exact hc k, h.past⟩
  rw [h.env] at h1; simpa [envOf] using h1

theorem Demo.create (h : Demo c n w σ) (a : Nat) : ∃ w', Demo c n w' (upd σ (.stk w.sp) (some (bare a))) ∧ w'.sp = w.sp + 1 ∧
    σ (.stk w.sp) = none := by
  have hd := h.inv.top w.sp (Nat.le_refl _)
  have : wp (exec (.create a)) (ready w) fun _ w' => w'.env = w.env ∧ w'.nAlloc = w.nAlloc ∧ w'.nCtor = w.nCtor ∧ w'.sp = w.sp + 1 ∧
      (∀ b, w'.heap (.dyn b) = w.heap (.dyn b)) ∧ Inv w' (upd σ (.stk w.sp) (some (bare a))) := by
    unfold exec; simp only [wp_bind]
    refine wp_newVec h.inv.ready.st hd a ?_
    intro h' hst hfr
    refine ⟨rfl, rfl, rfl, rfl, fun b => hfr _ (by simp), hst, ?_⟩
    intro i hi
    simp only at hi
    have hi : w.sp + 1 ≤ i := hi
    have : Ptr.stk i ≠ Ptr.stk w.sp := by simp; omega
    refine (upd_other _ _ this).trans (h.inv.top i (by omega))
  obtain ⟨r, w', hr, h1, h2, h3, h4, h5, h6⟩ := this.runs
  refine ⟨w', ⟨h.reach.next (c := .create a) trivial hr, h1.trans h.env, ?_, h3.trans h.ctors, h6⟩, h4, hd⟩
  intro b hb
  rw [h5] at hb
  rw [h2, h1]; exact h.past b hb

theorem Demo.push (h : Demo c n w σ) (hs : σ s = some v) (x : Nat) (hf : Fits Nat (growTo v.cap (v.cap + 1)))
    (hc : ∀ k, k ≤ relocs v → c (n + k) = true) : ∃ w' v', Demo c (n + relocs v + 1) w' (upd σ s (some v')) ∧
      v'.els = v.els ++ [x] ∧ v'.alloc = v.alloc ∧
      (v'.cap = if v.els.length = v.cap then growTo v.cap (v.cap + 1) else v.cap) ∧ w'.sp = w.sp := by
  have hal := (alive_iff h.inv).2 ⟨v, hs⟩
  have hv : Valid w (.pushBack s (.val x)) := ⟨hal, trivial, .inl trivial⟩
  have : wp (exec (.pushBack s (.val x))) (ready w) fun _ w' => ∃ v', Put (ready w) σ s v v.els.length x v' v.els.length w' := by
    unfold exec; simp only [wp_bind, evalArg, wp_pure]
    refine wp_mono (wp_pushBack (a := .lit x) (x := x) h.inv.ready.st rfl hs rfl trivial) ?_
    intro _ w' hp; exact hp
  obtain ⟨r, w', hr, v', hp⟩ := this.runs
  have he : w'.err = none := by
    refine Classical.byContradiction fun h0 => ?_
    rcases hp.cause.1 h0 with ⟨_, h1⟩ | ⟨k, h1, h2⟩
    · exact h.room hf h1
    · have h3 : w.env.ctor (w.nCtor + k) = false := h2
      rw [h.env, h.ctors] at h3
      have h4 := hc k (by omega)
      have : c (n + k) = false := h3
      rw [h4] at this; cases this
  refine ⟨w', v', ⟨h.reach.next hv hr, hp.adv.env.trans h.env, ?_, ?_, h.inv.ready.set hs hp.st hp.adv.sp⟩, hp.appended he, hp.alloc, ?_, hp.sp⟩
  · intro b hb
    rcases hp.adv.fresh b hb with h1 | ⟨k, h1, h2, h3⟩
    · obtain ⟨k, h4, h5⟩ := h.past b h1
      exact ⟨k, Nat.lt_of_lt_of_le h4 hp.adv.nAlloc, by rw [hp.adv.env]; exact h5⟩
    · exact ⟨k, h2, by rw [hp.adv.env]; exact h3⟩
  · have h1 := hp.ctors he
    have h2 : (ready w).nCtor = n := h.ctors
    rw [h1, h2]; omega
  · have hl := (h.inv.st.ok _ _ hs).len
    by_cases hfull : v.els.length = v.cap
    · rw [if_pos hfull]; exact (hp.grown hfull he).1
    · rw [if_neg hfull]; exact (hp.keep (by omega)).2.1

theorem Demo.start (c : Nat → Bool) : Demo c 0 (start (envOf c)) (fun _ => none) :=
  ⟨⟨_, _, Hist.start⟩, rfl, fun _ h => absurd rfl h, rfl, start_inv _⟩

theorem fits_small {m : Nat} (h : m ≤ 100) : Fits Nat m := by
  have e : ElemSize.size Nat = 8 := rfl
  unfold Fits maxBytes; rw [e]; omega

/-- Three vectors: [3, 1, 2] with capacity 3 and [2, 5] with capacity 3 with the default allocator, [9] with capacity 1 with
another one. -/
theorem demo_inv (hc : ∀ k, c k = true) : ∃ (w : W Nat) (s t u : Ptr) (σ : Sg Nat) (a b d : Vec Nat), Reach w ∧ Good w ∧ s ≠ t ∧ s ≠ u ∧ t ≠ u ∧
    Inv w σ ∧ σ s = some a ∧ σ t = some b ∧ σ u = some d ∧ a.els = [3, 1, 2] ∧ a.cap = 3 ∧ a.alloc = defaultAlloc ∧
    b.els = [2, 5] ∧ b.cap = 3 ∧ b.alloc = defaultAlloc ∧ d.els = [9] ∧ d.cap = 1 ∧ d.alloc = 7 := by
  obtain ⟨w1, d1, p1, -⟩ := (Demo.start c).create defaultAlloc
  obtain ⟨w2, d2, p2, hst⟩ := d1.create defaultAlloc
  obtain ⟨w3, d3, p3, htu⟩ := d2.create 7
  generalize hs : Ptr.stk (VC.start (envOf c)).sp = s at *
  generalize ht : Ptr.stk w1.sp = t at *
  generalize hu : Ptr.stk w2.sp = u at *
  have h1 : s ≠ t := by rintro rfl; rw [upd_same] at hst; cases hst
  have h2 : s ≠ u := by rintro rfl; rw [upd_other _ _ h1, upd_same] at htu; cases htu
  have h3 : t ≠ u := by rintro rfl; rw [upd_same] at htu; cases htu
  obtain ⟨w4, v4, d4, e4, a4, c4, -⟩ := d3.push (s := s) (v := bare defaultAlloc) (by simp [upd_apply, h1, h2]) 3
    (fits_small (by decide)) (fun _ _ => hc _)
  simp only [bare, growTo, List.nil_append, List.length_nil, if_pos] at e4 a4 c4
  obtain ⟨w5, v5, d5, e5, a5, c5, -⟩ := d4.push (s := s) (upd_same _ _ _) 1
    (fits_small (by rw [c4]; decide)) (fun _ _ => hc _)
  rw [e4, c4] at c5; rw [e4] at e5
  obtain ⟨w6, v6, d6, e6, a6, c6, -⟩ := d5.push (s := s) (upd_same _ _ _) 2
    (fits_small (by rw [c5]; decide)) (fun _ _ => hc _)
  rw [e5, c5] at c6; rw [e5] at e6
  obtain ⟨w7, v7, d7, e7, a7, c7, -⟩ := d6.push (s := t) (v := bare defaultAlloc) (by simp [upd_apply, h1.symm, h3]) 2
    (fits_small (by decide)) (fun _ _ => hc _)
  simp only [bare, growTo, List.nil_append, List.length_nil, if_pos] at e7 a7 c7
  obtain ⟨w8, v8, d8, e8, a8, c8, -⟩ := d7.push (s := t) (upd_same _ _ _) 5
    (fits_small (by rw [c7]; decide)) (fun _ _ => hc _)
  rw [e7, c7] at c8; rw [e7] at e8
  obtain ⟨w9, v9, d9, e9, a9, c9, -⟩ := d8.push (s := u) (v := bare 7) (by simp [upd_apply, h2.symm, h3.symm]) 9
    (fits_small (by decide)) (fun _ _ => hc _)
  simp only [bare, growTo, List.nil_append, List.length_nil, if_pos] at e9 a9 c9
  refine ⟨w9, s, t, u, _, v6, v8, v9, d9.reach, d9.good hc, h1, h2, h3, d9.inv, by simp [upd_apply, h1, h2],
    by simp [upd_apply, h3], by simp, e6, c6, by rw [a6, a5, a4], e8, c8, by rw [a8, a7], e9, c9, a9⟩

/-- Three vectors: [3, 1, 2] (full) and [2, 5] with room for one more with the default allocator, [9] (full) with another
one. -/
theorem demo : ∃ (w : W Nat) (s t u : Ptr), Reach w ∧ Good w ∧ s ≠ t ∧ s ≠ u ∧ t ≠ u ∧ Alive w s ∧ Alive w t ∧ Alive w u ∧
    Contents w s [3, 1, 2] ∧ Contents w t [2, 5] ∧ Contents w u [9] ∧ HasCap w s 3 ∧ HasCap w t 3 ∧ HasCap w u 1 ∧
    HasAlloc w s defaultAlloc ∧ HasAlloc w t defaultAlloc ∧ HasAlloc w u 7 := by
  obtain ⟨w, s, t, u, σ, a, b, d, hr, hg, h1, h2, h3, hi, hs, ht, hu, e1, c1, a1, e2, c2, a2, e3, c3, a3⟩ :=
    demo_inv (c := fun _ => true) fun _ => rfl
  exact ⟨w, s, t, u, hr, hg, h1, h2, h3, (alive_iff hi).2 ⟨_, hs⟩, (alive_iff hi).2 ⟨_, ht⟩, (alive_iff hi).2 ⟨_, hu⟩,
    (contents_iff hi hs).2 e1.symm, (contents_iff hi ht).2 e2.symm, (contents_iff hi hu).2 e3.symm, (hasCap_iff hi hs).2 c1.symm,
    (hasCap_iff hi ht).2 c2.symm, (hasCap_iff hi hu).2 c3.symm, (hasAlloc_iff hi hs).2 a1.symm, (hasAlloc_iff hi ht).2 a2.symm,
    (hasAlloc_iff hi hu).2 a3.symm⟩

/-- A vector [2, 5] with room for one more element; the constructor calls after the first three may fail. -/
theorem demo_ctor (h0 : c 0 = true) (h1 : c 1 = true) (h2 : c 2 = true) : ∃ (w : W Nat) (t : Ptr), Reach w ∧ Alive w t ∧
    Contents w t [2, 5] ∧ HasCap w t 3 ∧ HasAlloc w t defaultAlloc ∧ w.nCtor = 3 ∧ w.env.ctor = c := by
  obtain ⟨w1, d1, p1, -⟩ := (Demo.start c).create defaultAlloc
  obtain ⟨w4, v4, d4, e4, a4, c4, -⟩ := d1.push (v := bare defaultAlloc) (upd_same _ _ _) 2
    (fits_small (by decide)) (by
      intro k hk
      have hk : k = 0 := by simpa [relocs, bare] using hk
      rw [hk]; exact h0)
  simp only [bare, growTo, List.nil_append, List.length_nil, if_pos] at e4 a4 c4
  have hr0 : relocs (bare defaultAlloc : Vec Nat) = 0 := rfl
  have hr4 : relocs v4 = 1 := by unfold relocs; rw [e4, c4]; rfl
  obtain ⟨w5, v5, d5, e5, a5, c5, -⟩ := d4.push (upd_same _ _ _) 5
    (fits_small (by rw [c4]; decide)) (by
      intro k hk
      rw [hr0]
      rw [hr4] at hk
      rcases (by omega : k = 0 ∨ k = 1) with rfl | rfl
      · exact h1
      · exact h2)
  rw [e4, c4] at c5; rw [e4] at e5
  have hs := upd_same (upd (upd (fun _ => none) (Ptr.stk (VC.start (envOf c)).sp) (some (bare defaultAlloc))) (Ptr.stk (VC.start (envOf c)).sp) (some v4)) (Ptr.stk (VC.start (envOf c)).sp) (some v5)
  refine ⟨w5, _, d5.reach, (alive_iff d5.inv).2 ⟨v5, hs⟩, (contents_iff d5.inv hs).2 e5.symm, (hasCap_iff d5.inv hs).2 c5.symm,
    (hasAlloc_iff d5.inv hs).2 (by rw [a5, a4]), ?_, by rw [d5.env]; rfl⟩
  rw [d5.ctors, hr0, hr4]

end Nestl.VC
