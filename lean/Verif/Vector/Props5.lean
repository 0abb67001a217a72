import Verif.Vector.Props4
set_option autoImplicit false
/-
Property theorems of nestl::vector (C77), continued from `Verif/Vector/Props4.lean`.
-/
namespace Nestl.VC
open Nestl.Vec
variable {V : Type} [ElemSize V] {w w' : W V} {s : Ptr} {L : List V} {i : Nat}

/-! ### C77 -/

/-- C77: `insert_nothrow(err, begin() + i, first, last)` of values outside of the vector, at the end or with constructors that
do not fail: some first part of the range, in order, stands before the former element at `i` and the other elements keep
their order.  It is the whole range exactly if no error is reported, and no error is reported if nothing is refused.  The
allocator and all other vectors are untouched and nothing leaks. -/
theorem vector_insert_range (hr : Reach w) (ha : Alive w s) (hL : Contents w s L) (hi : i ≤ L.length)
    (hf : i = L.length ∨ Reliable w) (vs : List V) :
    ∃ k w', Runs (exec (.insertVals s i vs)) (ready w) .unit w' ∧ k ≤ vs.length ∧ (w'.err = none ↔ k = vs.length) ∧
      Alive w' s ∧ Contents w' s (L.take i ++ vs.take k ++ L.drop i) ∧
      (Good w → Modest V (2 * (L.length + vs.length)) → w'.err = none) ∧
      (∀ al, HasAlloc w s al → HasAlloc w' s al) ∧ Unchanged w w' [s] ∧ NoLeak w' := by
  obtain ⟨σ, h⟩ := hr.inv
  obtain ⟨v, hs⟩ := (alive_iff h).1 ha
  obtain rfl := (contents_iff h hs).1 hL
  have : wp (exec (.insertVals s i vs)) (ready w) fun r w' => r = .unit ∧ ∃ k v', PutAll (ready w) σ s v i vs k v' w' := by
    unfold exec; simp only [wp_bind]
    refine wp_mono (wp_insertRange h.ready.st rfl hs hi hf vs) ?_
    intro _ w' hp; exact ⟨rfl, hp⟩
  obtain ⟨r, w', hrun, rfl, k, v', hp⟩ := this.runs
  have hi' := h.ready.set hs hp.st hp.adv.sp
  refine ⟨k, w', hrun, hp.le, ?_, (alive_iff hi').2 ⟨_, upd_same _ _ _⟩, ?_, ?_, ?_, unchanged1 h hi', hi'.noLeak⟩
  · have h1 := hp.err; have h2 := hp.le
    constructor
    · intro h0; exact Classical.byContradiction fun h3 => h1.2 (by omega) h0
    · intro h0; exact Classical.byContradiction fun h3 => absurd (h1.1 h3) (by omega)
  · exact (contents_iff hi' (upd_same _ _ _)).2 hp.els.symm
  · intro hg hm; exact hp.good (ready_good hg) hm
  · intro al hal; exact (hasAlloc_iff hi' (upd_same _ _ _)).2 (((hasAlloc_iff h hs).1 hal).trans hp.alloc.symm)

/-- Insertion in the middle of a full vector. -/
example : ∃ (w : W Nat) (s : Ptr), Reach w ∧ Good w ∧ Alive w s ∧ Contents w s [3, 1, 2] ∧ HasCap w s 3 ∧ 1 ≤ [3, 1, 2].length ∧
    Reliable w ∧ Modest Nat (2 * ([3, 1, 2].length + [7, 8].length)) := by
  obtain ⟨w, s, t, u, hr, hg, h1, h2, h3, ha, hb, hu, c1, c2, c3, k1, k2, k3, al⟩ := demo
  exact ⟨w, s, hr, hg, ha, c1, k1, by decide, fun k _ => hg.ctor k, fits_small (by decide)⟩
/-- A state in which appending a range fails half way: the second next constructor call fails. -/
example : ∃ (w : W Nat) (t : Ptr), Reach w ∧ Alive w t ∧ Contents w t [2, 5] ∧ w.env.ctor w.nCtor = true ∧
    w.env.ctor (w.nCtor + 1) = false := by
  obtain ⟨w, t, hr, ha, hc, hk, al, h1, h2⟩ := demo_ctor (c := fun k => decide (k < 4)) rfl rfl rfl
  exact ⟨w, t, hr, ha, hc, by rw [h1, h2]; rfl, by rw [h1, h2]; rfl⟩

/-- C77: `clear()` destroys all elements; capacity, block, allocator and all other vectors stay as they are, nothing fails and
nothing is allocated or constructed. -/
theorem vector_clear (hr : Reach w) (ha : Alive w s) {c al : Nat} {p : Ptr} (hc : HasCap w s c) (hp : HasData w s p)
    (hal : HasAlloc w s al) :
    ∃ w', Runs (exec (.clear s)) (ready w) .unit w' ∧ Alive w' s ∧ Contents w' s [] ∧ HasCap w' s c ∧ HasData w' s p ∧
      HasAlloc w' s al ∧ Silent w w' ∧ Unchanged w w' [s] ∧ NoLeak w' := by
  obtain ⟨σ, h⟩ := hr.inv
  obtain ⟨v, hs⟩ := (alive_iff h).1 ha
  obtain rfl := (hasCap_iff h hs).1 hc
  obtain rfl := (hasData_iff h hs).1 hp
  obtain rfl := (hasAlloc_iff h hs).1 hal
  have : wp (exec (.clear s)) (ready w) fun r w' => r = .unit ∧ St w'.heap (upd σ s (some { v with els := [] })) ∧
      w'.sp = w.sp ∧ Silent w w' := by
    unfold exec; simp only [wp_bind]
    refine wp_clear h.ready.st hs ?_
    intro w' h1 h2 h3 h4 h5 h6
    exact ⟨rfl, h1, h4, h3, h5, h6⟩
  obtain ⟨r, w', hrun, rfl, h1, h2, h3⟩ := this.runs
  have hi' := h.set hs h1 (Nat.le_of_eq h2.symm)
  exact ⟨w', hrun, (alive_iff hi').2 ⟨_, upd_same _ _ _⟩, (contents_iff hi' (upd_same _ _ _)).2 rfl,
    (hasCap_iff hi' (upd_same _ _ _)).2 rfl, (hasData_iff hi' (upd_same _ _ _)).2 rfl, (hasAlloc_iff hi' (upd_same _ _ _)).2 rfl,
    h3, unchanged1 h hi', hi'.noLeak⟩

example : ∃ (w : W Nat) (s p : Ptr), Reach w ∧ Alive w s ∧ Contents w s [3, 1, 2] ∧ HasCap w s 3 ∧ HasData w s p ∧
    HasAlloc w s defaultAlloc := by
  obtain ⟨w, s, t, u, hr, hg, h1, h2, h3, ha, hb, hu, c1, c2, c3, k1, k2, k3, a1, a2, a3⟩ := demo
  obtain ⟨L, c, al, p, d1, d2, d3, d4, d5, d6⟩ := (vector_storage hr).2 s ha
  exact ⟨w, s, p, hr, ha, c1, k1, d4, a1⟩

end Nestl.VC
