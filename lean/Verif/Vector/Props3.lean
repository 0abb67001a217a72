import Verif.Vector.Props2
set_option autoImplicit false
/-
Property theorems of nestl::vector (C39-C43), continued from `Verif/Vector/Props2.lean`.
-/
namespace Nestl.VC
open Nestl.Vec
variable {V : Type} [ElemSize V] {w w' : W V} {σ : Sg V} {s t : Ptr} {L N : List V} {x : V} {a : CArg V} {i j n : Nat} {v : Vec V}

/-! ### C39 -/

/-- C39: after every history of calls, with any number of vectors and any pattern of failures, the vectors have exactly the
elements and allocators given by the mathematical specification `SpecRun`. -/
theorem vector_history_refinement {env : Env (VCell V)} {h : List (Entry V)} (hh : Hist env h w) :
    ∃ A, SpecRun h A ∧ (∀ s, Alive w s ↔ A s ≠ none) ∧
      ∀ s al L, A s = some (al, L) → Contents w s L ∧ HasAlloc w s al := by
  obtain ⟨A, h1, σ, hi, rfl⟩ := hh.sim
  refine ⟨_, h1, ?_, ?_⟩
  · intro s
    rw [alive_iff hi, ne_eq, abs_none]
    exact Option.ne_none_iff_exists'.symm
  · intro s al L hs
    obtain ⟨v, hv, rfl, rfl⟩ := abs_inv hs
    exact ⟨(contents_iff hi hv).2 rfl, (hasAlloc_iff hi hv).2 rfl⟩

/-- C39: every call whose precondition holds terminates without undefined behaviour: no element is read or destroyed outside
of its lifetime or overwritten, no block is freed twice, with a wrong size, through a wrong allocator or while it holds
elements, and no access is out of bounds. -/
theorem vector_calls_safe (hr : Reach w) {c : Call V} (hv : Valid w c) : ∃ r w', Runs (exec c) (ready w) r w' := by
  obtain ⟨A, hs⟩ := hr.sim
  obtain ⟨r, w', h1, _⟩ := (hs.call hv).runs
  exact ⟨r, w', h1⟩

example : ∃ env h, ∃ (w : W Nat) (s t : Ptr), Hist env h w ∧ Contents w s [3, 1, 2] ∧ Valid w (.insert s 1 (.elem t 0)) := by
  obtain ⟨w, s, t, u, ⟨env, h, hh⟩, hg, h1, h2, h3, ha, hb, hu, c1, c2, c3, k1, k2, k3, al⟩ := demo
  exact ⟨env, h, w, s, t, hh, c1, ha, ⟨hb, _, c2, by decide⟩, ⟨_, c1, by decide, .inr fun _ _ => hg.ctor _⟩, .inl h1.symm⟩

/-- C39: in every reachable state memory consists of the vector objects and their blocks.  Each vector that has storage has a
block of its own, from its own allocator and of the size it will be released with; its elements, and nothing else, are
alive in the block. -/
theorem vector_storage (hr : Reach w) : NoLeak w ∧ ∀ s, Alive w s → ∃ L c al p, Contents w s L ∧ HasCap w s c ∧ HasAlloc w s al ∧
    HasData w s p ∧ L.length ≤ c ∧ (p = .null ∧ c = 0 ∨
      w.heap p = some (.blk ⟨L.map some ++ List.replicate (c - L.length) none, al, c⟩) ∧
      ∀ t, Alive w t → HasData w t p → t = s) := by
  obtain ⟨σ, h⟩ := hr.inv
  refine ⟨h.noLeak, ?_⟩
  intro s ha
  obtain ⟨v, hs⟩ := (alive_iff h).1 ha
  have hok := h.st.ok _ _ hs
  refine ⟨v.els, v.cap, v.alloc, v.start, (contents_iff h hs).2 rfl, (hasCap_iff h hs).2 rfl, (hasAlloc_iff h hs).2 rfl,
    (hasData_iff h hs).2 rfl, hok.len, ?_⟩
  rcases hok.blk with h1 | ⟨⟨b, h1⟩, h2⟩
  · exact .inl h1
  · refine .inr ⟨h2, ?_⟩
    intro t hat hd
    obtain ⟨u, ht⟩ := (alive_iff h).1 hat
    exact (h.st.disj s t v u hs ht ((hasData_iff h ht).1 hd) (by rw [h1]; simp)).symm

example : ∃ (w : W Nat) (s t : Ptr), Reach w ∧ Alive w s ∧ Alive w t ∧ s ≠ t ∧ Contents w s [3, 1, 2] ∧ Contents w t [2, 5] ∧ HasCap w t 3 := by
  obtain ⟨w, s, t, u, hr, hg, h1, h2, h3, ha, hb, hu, c1, c2, c3, k1, k2, k3, a1, a2, a3⟩ := demo
  exact ⟨w, s, t, hr, ha, hb, h1, c1, c2, k2⟩

/-- C39: when all vectors have been destroyed, nothing is left. -/
theorem vector_all_destroyed (hr : Reach w) (hd : ∀ s, ¬ Alive w s) : ∀ p, w.heap p = none := by
  obtain ⟨σ, h⟩ := hr.inv
  intro p
  refine Classical.byContradiction fun h0 => ?_
  rcases h.noLeak p h0 with h1 | ⟨s, h1, _⟩
  · exact hd _ h1
  · exact hd _ h1

/-- A state in which all vectors, one of them with elements, have been destroyed. -/
example : ∃ (w : W Nat), Reach w ∧ w.nAlloc ≠ 0 ∧ ∀ s, ¬ Alive w s := by
  obtain ⟨w1, d1, -⟩ := (Demo.start fun _ => true).create 0
  generalize hs : Ptr.stk (VC.start (envOf fun _ => true)).sp = s at *
  obtain ⟨w2, v2, d2, e2, -, c2, -⟩ := d1.push (v := bare 0) (upd_same _ _ _) 2 (fits_small (by decide)) (fun _ _ => rfl)
  have hsv := upd_same (upd (fun _ => none) s (some (bare 0))) s (some v2)
  have hal := (alive_iff d2.inv).2 ⟨v2, hsv⟩
  have : wp (exec (.destroy s)) (ready w2) fun _ w' => w'.nAlloc = w2.nAlloc ∧ St w'.heap (upd (upd (upd (fun _ => none) s (some (bare 0))) s (some v2)) s none) ∧ w'.sp = w2.sp := by
    unfold exec; simp only [wp_bind]
    refine wp_destroyVec d2.inv.ready.st hsv ?_
    intro h' hst _ _
    exact ⟨rfl, hst, rfl⟩
  obtain ⟨r, w3, hrun, h1, h2, h3⟩ := this.runs
  have hr3 := d2.reach.next (c := .destroy s) hal hrun
  refine ⟨w3, hr3, ?_, ?_⟩
  · rw [h1]
    have hok := d2.inv.st.ok _ _ hsv
    rcases hok.blk with ⟨_, h4⟩ | ⟨⟨b, h4⟩, h5⟩
    · rw [h4] at c2; exact absurd c2 (by decide)
    · obtain ⟨k, h6, _⟩ := d2.past b (by rw [← h4, h5]; simp)
      omega
  · rintro q ⟨i, rfl, h4⟩
    have hi3 : Inv w3 (upd (upd (upd (fun _ => none) s (some (bare 0))) s (some v2)) s none) := by
      refine ⟨h2, ?_⟩
      intro i _
      rw [upd_apply]; split
      · rfl
      · rename_i hne; rw [upd_other _ _ hne, upd_other _ _ hne]
    obtain ⟨v, hv⟩ := (alive_iff hi3).1 ⟨i, rfl, h4⟩
    rw [upd_apply] at hv
    split at hv
    · cases hv
    · rename_i hne; rw [upd_other _ _ hne, upd_other _ _ hne] at hv; cases hv

/-! ### C40 -/

/-- C40: `s.swap(t)` exchanges elements, blocks, capacities and allocators; nothing is allocated or copied, nothing fails. -/
theorem vector_swap (hr : Reach w) (ha : Alive w s) (hb : Alive w t) (hst : s ≠ t) {c d : Nat} {p q : Ptr} {al bl : Nat}
    (hL : Contents w s L) (hN : Contents w t N) (hc : HasCap w s c) (hd : HasCap w t d) (hp : HasData w s p) (hq : HasData w t q)
    (hal : HasAlloc w s al) (hbl : HasAlloc w t bl) :
    ∃ w', Runs (exec (.swap s t)) (ready w) .unit w' ∧ Silent w w' ∧ Alive w' s ∧ Alive w' t ∧
      Contents w' s N ∧ Contents w' t L ∧ HasCap w' s d ∧ HasCap w' t c ∧ HasData w' s q ∧ HasData w' t p ∧
      HasAlloc w' s bl ∧ HasAlloc w' t al ∧ Unchanged w w' [s, t] := by
  obtain ⟨σ, h⟩ := hr.inv
  obtain ⟨v, hs⟩ := (alive_iff h).1 ha
  obtain ⟨u, ht⟩ := (alive_iff h).1 hb
  obtain rfl := (contents_iff h hs).1 hL
  obtain rfl := (contents_iff h ht).1 hN
  obtain rfl := (hasCap_iff h hs).1 hc
  obtain rfl := (hasCap_iff h ht).1 hd
  obtain rfl := (hasData_iff h hs).1 hp
  obtain rfl := (hasData_iff h ht).1 hq
  obtain rfl := (hasAlloc_iff h hs).1 hal
  obtain rfl := (hasAlloc_iff h ht).1 hbl
  have : wp (exec (.swap s t)) (ready w) fun r w' => r = .unit ∧ Silent w w' ∧ Inv w' (upd (upd σ s (some u)) t (some v)) := by
    unfold exec; simp only [wp_bind]
    refine wp_swap h.ready.st hs ht hst ?_
    intro h' hst' hfr
    refine ⟨rfl, ⟨rfl, rfl, rfl⟩, hst', ?_⟩
    intro i hi
    have h1 := h.top i hi
    rw [upd_other _ _ (by rintro rfl; rw [ht] at h1; cases h1), upd_other _ _ (by rintro rfl; rw [hs] at h1; cases h1)]
    exact h1
  obtain ⟨r, w', hrun, rfl, hsi, hi⟩ := this.runs
  have e1 : upd (upd σ s (some u)) t (some v) s = some u := by rw [upd_other _ _ hst, upd_same]
  have e2 := upd_same (upd σ s (some u)) t (some v)
  exact ⟨w', hrun, hsi, (alive_iff hi).2 ⟨_, e1⟩, (alive_iff hi).2 ⟨_, e2⟩, (contents_iff hi e1).2 rfl, (contents_iff hi e2).2 rfl,
    (hasCap_iff hi e1).2 rfl, (hasCap_iff hi e2).2 rfl, (hasData_iff hi e1).2 rfl, (hasData_iff hi e2).2 rfl,
    (hasAlloc_iff hi e1).2 rfl, (hasAlloc_iff hi e2).2 rfl, unchanged2 h hi⟩

example : ∃ (w : W Nat) (s u p q : Ptr), Reach w ∧ Alive w s ∧ Alive w u ∧ s ≠ u ∧ Contents w s [3, 1, 2] ∧ Contents w u [9] ∧
    HasCap w s 3 ∧ HasCap w u 1 ∧ HasData w s p ∧ HasData w u q ∧ HasAlloc w s defaultAlloc ∧ HasAlloc w u 7 := by
  obtain ⟨w, s, t, u, hr, hg, h1, h2, h3, ha, hb, hu, c1, c2, c3, k1, k2, k3, a1, a2, a3⟩ := demo
  obtain ⟨σ, h⟩ := hr.inv
  obtain ⟨v, hs⟩ := (alive_iff h).1 ha
  obtain ⟨y, hy⟩ := (alive_iff h).1 hu
  exact ⟨w, s, u, _, _, hr, ha, hu, h2, c1, c3, k1, k3, (hasData_iff h hs).2 rfl, (hasData_iff h hy).2 rfl, a1, a3⟩

/-- C40: `s.swap(s)` changes nothing. -/
theorem vector_swap_self (hr : Reach w) (ha : Alive w s) : Runs (exec (.swap s s)) (ready w) .unit (ready w) := by
  obtain ⟨σ, h⟩ := hr.inv
  obtain ⟨v, hs⟩ := (alive_iff h).1 ha
  have : wp (exec (.swap s s)) (ready w) fun r w' => r = .unit ∧ w' = ready w := by
    unfold exec; simp only [wp_bind]
    exact wp_swap_self h.ready.st hs ⟨rfl, rfl⟩
  obtain ⟨r, w', hrun, rfl, rfl⟩ := this.runs
  exact hrun

example : ∃ (w : W Nat) (s : Ptr), Reach w ∧ Alive w s ∧ Contents w s [3, 1, 2] := by
  obtain ⟨w, s, t, u, hr, hg, h1, h2, h3, ha, hb, hu, c1, c2, c3, k1, k2, k3, a1, a2, a3⟩ := demo
  exact ⟨w, s, hr, ha, c1⟩

/-- C40: `vector d(std::move(s))`: `d` has the elements, the block and the allocator of `s`; `s` is empty and keeps its
allocator; nothing is allocated or copied, nothing fails. -/
theorem vector_move_construct (hr : Reach w) (ha : Alive w s) {c al : Nat} {p : Ptr} (hL : Contents w s L) (hc : HasCap w s c)
    (hp : HasData w s p) (hal : HasAlloc w s al) :
    ∃ d w', Runs (exec (.move s)) (ready w) (.obj d) w' ∧ Silent w w' ∧ ¬ Alive w d ∧ Alive w' d ∧ Alive w' s ∧
      Contents w' d L ∧ Contents w' s [] ∧ HasCap w' d c ∧ HasCap w' s 0 ∧ HasData w' d p ∧ HasData w' s .null ∧
      HasAlloc w' d al ∧ HasAlloc w' s al ∧ Unchanged w w' [s] := by
  obtain ⟨σ, h⟩ := hr.inv
  obtain ⟨v, hs⟩ := (alive_iff h).1 ha
  obtain rfl := (contents_iff h hs).1 hL
  obtain rfl := (hasCap_iff h hs).1 hc
  obtain rfl := (hasData_iff h hs).1 hp
  obtain rfl := (hasAlloc_iff h hs).1 hal
  have hd := h.top w.sp (Nat.le_refl _)
  have : wp (exec (.move s)) (ready w) fun r w' => r = .obj (.stk w.sp) ∧ Silent w w' ∧
      Inv w' (upd (upd σ s (some (bare v.alloc))) (.stk w.sp) (some v)) := by
    unfold exec; simp only [wp_bind]
    refine wp_moveCtor h.ready.st hs hd ?_
    intro h' hst hfr
    refine ⟨rfl, ⟨rfl, rfl, rfl⟩, hst, ?_⟩
    intro i hi
    have hi : w.sp + 1 ≤ i := hi
    have h1 := h.top i (by omega)
    rw [upd_other _ _ (by simp only [ready, ne_eq, Ptr.stk.injEq]; omega), upd_other _ _ (by rintro rfl; rw [hs] at h1; cases h1)]
    exact h1
  obtain ⟨r, w', hrun, rfl, hsi, hi⟩ := this.runs
  have hne : s ≠ .stk w.sp := St.ne_new hs hd
  have e1 : upd (upd σ s (some (bare v.alloc))) (.stk w.sp) (some v) s = some (bare v.alloc) := by
    rw [upd_other _ _ hne, upd_same]
  have e2 := upd_same (upd σ s (some (bare v.alloc))) (.stk w.sp) (some v)
  refine ⟨_, w', hrun, hsi, ?_, (alive_iff hi).2 ⟨_, e2⟩, (alive_iff hi).2 ⟨_, e1⟩, (contents_iff hi e2).2 rfl, (contents_iff hi e1).2 rfl,
    (hasCap_iff hi e2).2 rfl, (hasCap_iff hi e1).2 rfl, (hasData_iff hi e2).2 rfl, (hasData_iff hi e1).2 rfl,
    (hasAlloc_iff hi e2).2 rfl, (hasAlloc_iff hi e1).2 rfl, ?_⟩
  · intro h1
    obtain ⟨u, hu⟩ := (alive_iff h).1 h1
    rw [hd] at hu; cases hu
  · intro u hu hau
    obtain ⟨y, hy⟩ := (alive_iff h).1 hau
    refine unchanged2 h hi u ?_ hau
    simp at hu ⊢
    exact ⟨hu, by rintro rfl; rw [hd] at hy; cases hy⟩

example : ∃ (w : W Nat) (s p : Ptr), Reach w ∧ Alive w s ∧ Contents w s [3, 1, 2] ∧ HasCap w s 3 ∧ HasData w s p ∧ HasAlloc w s defaultAlloc := by
  obtain ⟨w, s, t, u, hr, hg, h1, h2, h3, ha, hb, hu, c1, c2, c3, k1, k2, k3, a1, a2, a3⟩ := demo
  obtain ⟨σ, h⟩ := hr.inv
  obtain ⟨v, hs⟩ := (alive_iff h).1 ha
  exact ⟨w, s, _, hr, ha, c1, k1, (hasData_iff h hs).2 rfl, a1⟩

/-- C40: `s = std::move(t)` for vectors with equal allocators (C44 describes the other case): `s` has the elements and the
block of `t`, the former elements of `s` are destroyed and their block is released, `t` is empty; nothing is allocated or
copied, nothing fails. -/
theorem vector_move_assign (hr : Reach w) (ha : Alive w s) (hb : Alive w t) (hst : s ≠ t) {c al : Nat} {p : Ptr} (hN : Contents w t N)
    (hc : HasCap w t c) (hp : HasData w t p) (hal : HasAlloc w s al) (hbl : HasAlloc w t al) :
    ∃ w', Runs (exec (.moveAssign s t)) (ready w) .unit w' ∧ Silent w w' ∧ Alive w' s ∧ Alive w' t ∧
      Contents w' s N ∧ Contents w' t [] ∧ HasCap w' s c ∧ HasCap w' t 0 ∧ HasData w' s p ∧ HasData w' t .null ∧
      HasAlloc w' s al ∧ HasAlloc w' t al ∧ Unchanged w w' [s, t] ∧ NoLeak w' := by
  obtain ⟨σ, h⟩ := hr.inv
  obtain ⟨v, hs⟩ := (alive_iff h).1 ha
  obtain ⟨u, ht⟩ := (alive_iff h).1 hb
  obtain rfl := (contents_iff h ht).1 hN
  obtain rfl := (hasCap_iff h ht).1 hc
  obtain rfl := (hasData_iff h ht).1 hp
  obtain rfl := (hasAlloc_iff h hs).1 hal
  have hbl := (hasAlloc_iff h ht).1 hbl
  have hd := h.top w.sp (Nat.le_refl _)
  have : wp (exec (.moveAssign s t)) (ready w) fun r w' => r = .unit ∧ Silent w w' ∧
      Inv w' (upd (upd σ s (some { u with alloc := v.alloc })) t (some (bare u.alloc))) := by
    unfold exec; simp only [wp_bind]
    refine wp_moveAssign h.ready.st hs ht hd (.inr (.inr hbl)) ?_
    intro h' hst' hfr
    rw [if_neg hst] at hst'
    refine ⟨rfl, ⟨rfl, rfl, rfl⟩, hst', ?_⟩
    intro i hi
    have hi : w.sp + 1 ≤ i := hi
    have h1 := h.top i (by omega)
    rw [upd_other _ _ (by rintro rfl; rw [ht] at h1; cases h1), upd_other _ _ (by rintro rfl; rw [hs] at h1; cases h1)]
    exact h1
  obtain ⟨r, w', hrun, rfl, hsi, hi⟩ := this.runs
  have e1 : upd (upd σ s (some { u with alloc := v.alloc })) t (some (bare u.alloc)) s = some { u with alloc := v.alloc } := by
    rw [upd_other _ _ hst, upd_same]
  have e2 := upd_same (upd σ s (some { u with alloc := v.alloc })) t (some (bare u.alloc))
  exact ⟨w', hrun, hsi, (alive_iff hi).2 ⟨_, e1⟩, (alive_iff hi).2 ⟨_, e2⟩, (contents_iff hi e1).2 rfl, (contents_iff hi e2).2 rfl,
    (hasCap_iff hi e1).2 rfl, (hasCap_iff hi e2).2 rfl, (hasData_iff hi e1).2 rfl, (hasData_iff hi e2).2 rfl,
    (hasAlloc_iff hi e1).2 rfl, (hasAlloc_iff hi e2).2 hbl, unchanged2 h hi, hi.noLeak⟩

example : ∃ (w : W Nat) (s t p : Ptr), Reach w ∧ Alive w s ∧ Alive w t ∧ s ≠ t ∧ Contents w s [3, 1, 2] ∧ Contents w t [2, 5] ∧
    HasCap w t 3 ∧ HasData w t p ∧ HasAlloc w s defaultAlloc ∧ HasAlloc w t defaultAlloc := by
  obtain ⟨w, s, t, u, hr, hg, h1, h2, h3, ha, hb, hu, c1, c2, c3, k1, k2, k3, a1, a2, a3⟩ := demo
  obtain ⟨σ, h⟩ := hr.inv
  obtain ⟨v, hs⟩ := (alive_iff h).1 hb
  exact ⟨w, s, t, _, hr, ha, hb, h1, c1, c2, k2, (hasData_iff h hs).2 rfl, a1, a2⟩

/-- C40: after `s = std::move(s)` the vector is empty. -/
theorem vector_self_move_assign (hr : Reach w) (ha : Alive w s) {al : Nat} (hal : HasAlloc w s al) :
    ∃ w', Runs (exec (.moveAssign s s)) (ready w) .unit w' ∧ Silent w w' ∧ Alive w' s ∧ Contents w' s [] ∧ HasAlloc w' s al ∧
      Unchanged w w' [s] ∧ NoLeak w' := by
  obtain ⟨σ, h⟩ := hr.inv
  obtain ⟨v, hs⟩ := (alive_iff h).1 ha
  obtain rfl := (hasAlloc_iff h hs).1 hal
  have hd := h.top w.sp (Nat.le_refl _)
  have : wp (exec (.moveAssign s s)) (ready w) fun r w' => r = .unit ∧ Silent w w' ∧ Inv w' (upd σ s (some (bare v.alloc))) := by
    unfold exec; simp only [wp_bind]
    refine wp_moveAssign h.ready.st hs hs hd (.inl rfl) ?_
    intro h' hst' hfr
    rw [if_pos rfl] at hst'
    refine ⟨rfl, ⟨rfl, rfl, rfl⟩, hst', ?_⟩
    intro i hi
    have hi : w.sp + 1 ≤ i := hi
    have h1 := h.top i (by omega)
    rw [upd_other _ _ (by rintro rfl; rw [hs] at h1; cases h1)]
    exact h1
  obtain ⟨r, w', hrun, rfl, hsi, hi⟩ := this.runs
  have e2 := upd_same σ s (some (bare v.alloc : Vec V))
  exact ⟨w', hrun, hsi, (alive_iff hi).2 ⟨_, e2⟩, (contents_iff hi e2).2 rfl, (hasAlloc_iff hi e2).2 rfl, unchanged1 h hi, hi.noLeak⟩

example : ∃ (w : W Nat) (s : Ptr), Reach w ∧ Alive w s ∧ Contents w s [3, 1, 2] ∧ HasAlloc w s defaultAlloc := by
  obtain ⟨w, s, t, u, hr, hg, h1, h2, h3, ha, hb, hu, c1, c2, c3, k1, k2, k3, a1, a2, a3⟩ := demo
  exact ⟨w, s, hr, ha, c1, a1⟩

/-! ### C41 -/

omit [ElemSize V] in
theorem faults_slotRd_wild {p : Ptr} (h : w.heap p = none) (hp : p ≠ .null) : Faults (slotRd p i) w .wild := by
  unfold slotRd rdBlk
  refine Faults.bind (Faults.bind ?_)
  simp [Faults, rd, h, hp]

theorem faults_evalArg {A : Type} {k : Arg V → M (W V) A} {f : Fault} (h : Inv w σ) (hs : σ s = some v) (hj : j < v.els.length)
    (hk : Faults (k (.ref v.start j)) w f) : Faults (do k (← evalArg (.elem s j))) w f := by
  refine wp.faults_bind ?_
  unfold evalArg; simp only [wp_bind]
  rw [wp_rdObj (h.st.obj _ _ hs).2 (h.st.ne_null hs)]
  simp only [wp_assertM, decide_eq_true_eq, wp_pure]
  exact ⟨hj, hk⟩

/-- C41 is violated: `v.push_back_nothrow(err, v[j])` on a full vector reads the element through a reference into the block
that has just been released. -/
theorem vector_push_back_self_violated (hr : Reach w) (hg : Good w) (ha : Alive w s) (hL : Contents w s L) (hj : j < L.length)
    (hc : HasCap w s L.length) (hm : Modest V (2 * (L.length + 1))) :
    Faults (exec (.pushBack s (.elem s j))) (ready w) .wild := by
  obtain ⟨σ, h⟩ := hr.inv
  obtain ⟨v, hs⟩ := (alive_iff h).1 ha
  obtain rfl := (contents_iff h hs).1 hL
  have hc := (hasCap_iff h hs).1 hc
  unfold exec
  refine faults_evalArg h.ready hs hj ?_
  refine Faults.bind ?_
  unfold pushBack
  refine wp.faults_bind ?_
  rw [wp_rdObj (h.ready.st.obj _ _ hs).2 (h.ready.st.ne_null hs)]
  refine Faults.bind ?_
  refine faults_insertValue h.ready.st rfl hs (Nat.le_refl _) (ready_good hg) ?_ ?_
  · intro _
    refine Fits.mono (n := 2 * (v.els.length + 1)) hm ?_
    unfold growTo; omega
  · intro v1 w1 hroom h' n hgap
    obtain ⟨_, _, _, h1, h2, h3, _⟩ := hroom.grown hc
    have hn : v.start ≠ .null := by
      intro h0
      rcases (h.st.ok _ _ hs).blk with ⟨_, h4⟩ | ⟨⟨b, h4⟩, _⟩
      · omega
      · rw [h0] at h4; cases h4
    refine faults_slotRd_wild ?_ hn
    show h' v.start = none
    rw [hgap.1 _ (Ne.symm h1)]
    exact h3 hn

example : ∃ (w : W Nat) (s : Ptr), Reach w ∧ Good w ∧ Alive w s ∧ Contents w s [3, 1, 2] ∧ 0 < [3, 1, 2].length ∧
    HasCap w s [3, 1, 2].length ∧ Modest Nat (2 * ([3, 1, 2].length + 1)) := by
  obtain ⟨w, s, t, u, hr, hg, h1, h2, h3, ha, hb, hu, c1, c2, c3, k1, k2, k3, a1, a2, a3⟩ := demo
  exact ⟨w, s, hr, hg, ha, c1, by decide, k1, fits_small (by decide)⟩

/-- C41, the part that holds: with `size() < capacity()` a copy of the vector's own element is appended, or, with an error,
nothing changes.  Missing: a full vector. -/
theorem vector_push_back_self_partial (hr : Reach w) (ha : Alive w s) (hL : Contents w s L) (hj : L[j]? = some x) (hsp : Spare w s) :
    ∃ w', Runs (exec (.pushBack s (.elem s j))) (ready w) .unit w' ∧ (w'.err = none → Contents w' s (L ++ [x])) ∧
      (w'.err ≠ none → Contents w' s L) ∧ (∀ p, HasData w s p → HasData w' s p) ∧ Unchanged w w' [s] ∧ NoLeak w' := by
  obtain ⟨σ, h⟩ := hr.inv
  obtain ⟨v, hs⟩ := (alive_iff h).1 ha
  obtain rfl := (contents_iff h hs).1 hL
  have hjl := (List.getElem?_eq_some_iff.1 hj).1
  have hcap := (spare_iff h hs).1 hsp
  have : wp (exec (.pushBack s (.elem s j))) (ready w) fun r w' => r = .unit ∧ ∃ v', Put (ready w) σ s v v.els.length x v' v.els.length w' := by
    unfold exec; simp only [wp_bind]
    unfold evalArg; simp only [wp_bind]
    rw [wp_rdObj (h.ready.st.obj _ _ hs).2 (h.ready.st.ne_null hs)]
    simp only [wp_assertM, decide_eq_true_eq, wp_pure]
    refine ⟨hjl, ?_⟩
    refine wp_mono (wp_pushBack h.ready.st rfl hs (h.ready.st.val hs hj) (fun _ => ⟨hcap, hjl⟩)) ?_
    intro _ w' hp; exact ⟨trivial, hp⟩
  obtain ⟨r, w', hrun, rfl, v', hp⟩ := this.runs
  have hi := h.ready.set hs hp.st hp.adv.sp
  refine ⟨w', hrun, ?_, ?_, ?_, unchanged1 h hi, hi.noLeak⟩
  · intro h0; exact (contents_iff hi (upd_same _ _ _)).2 (hp.appended h0).symm
  · intro h0; exact (contents_iff hi (upd_same _ _ _)).2 (hp.bad h0).1.symm
  · intro p hd; exact (hasData_iff hi (upd_same _ _ _)).2 (((hasData_iff h hs).1 hd).trans (hp.keep hcap).1.symm)

example : ∃ (w : W Nat) (t : Ptr), Reach w ∧ Alive w t ∧ Contents w t [2, 5] ∧ [2, 5][1]? = some 5 ∧ Spare w t := by
  obtain ⟨w, s, t, u, hr, hg, h1, h2, h3, ha, hb, hu, c1, c2, c3, k1, k2, k3, a1, a2, a3⟩ := demo
  exact ⟨w, t, hr, hb, c2, rfl, _, _, c2, k2, by decide⟩

/-! ### C42 -/

/-- C42 is violated, full vector: `v.insert_nothrow(err, v.begin() + i, v[j])` reads a released block. -/
theorem vector_insert_self_full_violated (hr : Reach w) (hg : Good w) (ha : Alive w s) (hL : Contents w s L) (hi : i ≤ L.length)
    (hj : j < L.length) (hc : HasCap w s L.length) (hm : Modest V (2 * (L.length + 1))) :
    Faults (exec (.insert s i (.elem s j))) (ready w) .wild := by
  obtain ⟨σ, h⟩ := hr.inv
  obtain ⟨v, hs⟩ := (alive_iff h).1 ha
  obtain rfl := (contents_iff h hs).1 hL
  have hc := (hasCap_iff h hs).1 hc
  unfold exec
  refine faults_evalArg h.ready hs hj ?_
  refine Faults.bind ?_
  refine faults_insertValue h.ready.st rfl hs hi (ready_good hg) ?_ ?_
  · intro _
    refine Fits.mono (n := 2 * (v.els.length + 1)) hm ?_
    unfold growTo; omega
  · intro v1 w1 hroom h' n hgap
    obtain ⟨_, _, _, h1, h2, h3, _⟩ := hroom.grown hc
    have hn : v.start ≠ .null := by
      intro h0
      rcases (h.st.ok _ _ hs).blk with ⟨_, h4⟩ | ⟨⟨b, h4⟩, _⟩
      · omega
      · rw [h0] at h4; cases h4
    refine faults_slotRd_wild ?_ hn
    show h' v.start = none
    rw [hgap.1 _ (Ne.symm h1)]
    exact h3 hn

example : ∃ (w : W Nat) (s : Ptr), Reach w ∧ Good w ∧ Alive w s ∧ Contents w s [3, 1, 2] ∧ 2 ≤ [3, 1, 2].length ∧ 0 < [3, 1, 2].length ∧
    HasCap w s [3, 1, 2].length ∧ Modest Nat (2 * ([3, 1, 2].length + 1)) := by
  obtain ⟨w, s, t, u, hr, hg, h1, h2, h3, ha, hb, hu, c1, c2, c3, k1, k2, k3, a1, a2, a3⟩ := demo
  exact ⟨w, s, hr, hg, ha, c1, by decide, by decide, k1, fits_small (by decide)⟩

/-- C42 is violated, spare capacity: `v.insert_nothrow(err, v.begin() + i, v[i])` reads the element after it was destroyed. -/
theorem vector_insert_self_at_violated (hr : Reach w) (hg : Good w) (ha : Alive w s) (hL : Contents w s L) (hi : i < L.length)
    (hsp : Spare w s) : Faults (exec (.insert s i (.elem s i))) (ready w) .rawRead := by
  obtain ⟨σ, h⟩ := hr.inv
  obtain ⟨v, hs⟩ := (alive_iff h).1 ha
  obtain rfl := (contents_iff h hs).1 hL
  have hcap := (spare_iff h hs).1 hsp
  unfold exec
  refine faults_evalArg h.ready hs hi ?_
  refine Faults.bind ?_
  refine faults_insertValue h.ready.st rfl hs (Nat.le_of_lt hi) (ready_good hg) (fun h0 => by omega) ?_
  intro v1 w1 hroom h' n hgap
  obtain ⟨rfl, rfl⟩ := hroom.keep hcap
  exact faults_slotRd hgap.2 hroom.some (getElem?_mid (by simp; omega))

example : ∃ (w : W Nat) (t : Ptr), Reach w ∧ Good w ∧ Alive w t ∧ Contents w t [2, 5] ∧ 0 < [2, 5].length ∧ Spare w t := by
  obtain ⟨w, s, t, u, hr, hg, h1, h2, h3, ha, hb, hu, c1, c2, c3, k1, k2, k3, a1, a2, a3⟩ := demo
  exact ⟨w, t, hr, hg, hb, c2, by decide, _, _, c2, k2, by decide⟩

/-- C42 is violated, spare capacity: for `i < j`, `v.insert_nothrow(err, v.begin() + i, v[j])` succeeds but inserts the old
`v[j - 1]`. -/
theorem vector_insert_self_after_violated (hr : Reach w) (hg : Good w) (ha : Alive w s) (hL : Contents w s L) (hi : i ≤ j)
    (hx : L[j]? = some x) (hj : j + 1 < L.length) (hsp : Spare w s) :
    ∃ w', Runs (exec (.insert s i (.elem s (j + 1)))) (ready w) (.pos i) w' ∧ w'.err = none ∧
      Contents w' s (L.take i ++ x :: L.drop i) := by
  obtain ⟨σ, h⟩ := hr.inv
  obtain ⟨v, hs⟩ := (alive_iff h).1 ha
  obtain rfl := (contents_iff h hs).1 hL
  have hcap := (spare_iff h hs).1 hsp
  have : wp (exec (.insert s i (.elem s (j + 1)))) (ready w) fun r w' => ∃ k, r = .pos k ∧ Inserted (ready w) σ s v i x k w' := by
    unfold exec; simp only [wp_bind]
    unfold evalArg; simp only [wp_bind]
    rw [wp_rdObj (h.ready.st.obj _ _ hs).2 (h.ready.st.ne_null hs)]
    simp only [wp_assertM, decide_eq_true_eq, wp_pure]
    refine ⟨hj, ?_⟩
    refine wp_mono (wp_insertValue' (x := x) h.ready.st rfl hs (by omega) ?_) ?_
    · intro v1 w1 hroom h' hgap
      obtain ⟨rfl, rfl⟩ := hroom.keep hcap
      refine ⟨hroom.some, _, hgap.2, ?_⟩
      simp only
      rw [List.getElem?_append_right (by simp; omega)]
      have e : j + 1 - ((v1.els.take i).map some).length = (j - i) + 1 := by simp; omega
      rw [e, List.getElem?_cons_succ, List.getElem?_append_left (by simp; omega), List.getElem?_map, List.getElem?_drop]
      have e2 : i + (j - i) = j := by omega
      rw [e2, hx]; rfl
    · intro k w' hp; exact ⟨k, rfl, hp⟩
  obtain ⟨r, w', hrun, k, rfl, hp⟩ := this.runs
  obtain ⟨v', hput⟩ := hp.put h.ready.st hs rfl (by omega) (.inr fun k _ => hg.ctor k)
  have he : w'.err = none := by
    refine Classical.byContradiction fun h0 => ?_
    rcases hput.cause.1 h0 with ⟨h1, _⟩ | ⟨m, h1, h2⟩
    · omega
    · have h3 : w.env.ctor (w.nCtor + m) = false := h2
      rw [hg.ctor] at h3; cases h3
  obtain ⟨h1, rfl⟩ := hput.ok he
  have hi' := h.ready.set hs hput.st hput.adv.sp
  exact ⟨w', hrun, he, (contents_iff hi' (upd_same _ _ _)).2 h1.symm⟩

example : ∃ (w : W Nat) (t : Ptr), Reach w ∧ Good w ∧ Alive w t ∧ Contents w t [2, 5] ∧ 0 ≤ 0 ∧ [2, 5][0]? = some 2 ∧
    0 + 1 < [2, 5].length ∧ Spare w t := by
  obtain ⟨w, s, t, u, hr, hg, h1, h2, h3, ha, hb, hu, c1, c2, c3, k1, k2, k3, a1, a2, a3⟩ := demo
  exact ⟨w, t, hr, hg, hb, c2, by decide, rfl, by decide, _, _, c2, k2, by decide⟩

/-- C42 is violated, resizing: `v.resize_nothrow(err, n, v[j])` with `n > size()` always moves the elements to a new block
(even if the capacity suffices) and then reads the old one. -/
theorem vector_resize_self_violated (hr : Reach w) (hg : Good w) (ha : Alive w s) (hL : Contents w s L) (hj : j < L.length)
    (hn : L.length < n) {c : Nat} (hc : HasCap w s c) (hm : Modest V (max (2 * (c + 1)) n)) :
    Faults (exec (.resize s n (.elem s j))) (ready w) .wild := by
  obtain ⟨σ, h⟩ := hr.inv
  obtain ⟨v, hs⟩ := (alive_iff h).1 ha
  obtain rfl := (contents_iff h hs).1 hL
  obtain rfl := (hasCap_iff h hs).1 hc
  have hfit : Fits V (growTo v.cap n) := by
    refine Fits.mono (n := max (2 * (v.cap + 1)) n) hm ?_
    unfold growTo; omega
  have hl := (h.st.ok _ _ hs).len
  have hvn : v.start ≠ .null := by
    intro h0
    rcases (h.st.ok _ _ hs).blk with ⟨_, h4⟩ | ⟨⟨b, h4⟩, _⟩
    · omega
    · rw [h0] at h4; cases h4
  unfold exec
  refine faults_evalArg h.ready hs hj ?_
  refine Faults.bind ?_
  unfold resize
  refine wp.faults_bind ?_
  rw [wp_rdObj (h.ready.st.obj _ _ hs).2 (h.ready.st.ne_null hs)]
  refine Faults.if_neg (by simp only; omega) ?_
  refine wp.faults_bind (wp_mono (wp_grow h.ready.st rfl hs ?_) ?_)
  · exact Fits.noWrap (Fits.mono hfit (by unfold growTo; omega))
  · intro _ w1 hres
    refine wp.faults_bind ?_
    rw [wp_hasErr]
    cases hres with
    | noRoom h4 => exact absurd h4 (Good.room (ready_good hg) hfit)
    | copyFailed k h4 h5 h6 h7 =>
      have h7 : w.env.ctor (w.nCtor + k) = false := h7
      rw [hg.ctor] at h7; cases h7
    | ok b h' h1 h2 h3 h4 h5 h6 h7 h8 =>
      refine Faults.if_neg (by simp [ready]) ?_
      obtain ⟨m, hmn⟩ : ∃ m, n - v.els.length = m + 1 := ⟨n - v.els.length - 1, by omega⟩
      simp only [hmn]
      unfold resizeLoop
      refine wp.faults_bind ?_
      rw [wp_rdObj (by exact (h5.obj _ _ (upd_same _ _ _)).2) (h.st.ne_null hs)]
      refine Faults.bind ?_
      unfold construct
      refine Faults.bind ?_
      exact faults_slotRd_wild (by exact h8 hvn) hvn

/-- [2, 5] with room for a third element. -/
example : ∃ (w : W Nat) (t : Ptr), Reach w ∧ Good w ∧ Alive w t ∧ Contents w t [2, 5] ∧ 0 < [2, 5].length ∧ [2, 5].length < 3 ∧
    HasCap w t 3 ∧ Modest Nat (max (2 * (3 + 1)) 3) := by
  obtain ⟨w, s, t, u, hr, hg, h1, h2, h3, ha, hb, hu, c1, c2, c3, k1, k2, k3, a1, a2, a3⟩ := demo
  exact ⟨w, t, hr, hg, hb, c2, by decide, by decide, k2, fits_small (by decide)⟩

/-- C42, the part that holds: with `size() < capacity()` and `j < i`, `v.insert_nothrow(err, v.begin() + i, v[j])` that
reports no error has inserted a copy of `v[j]`; it reports none if nothing is refused.  Missing: full vectors, `j >= i`, growing
by `resize_nothrow` with an own element (`assign_nothrow` with an own element works, see `vector_assign_n`). -/
theorem vector_insert_self_partial (hr : Reach w) (ha : Alive w s) (hL : Contents w s L) (hi : i ≤ L.length) (hj : L[j]? = some x)
    (hji : j < i) (hsp : Spare w s) :
    ∃ r w', Runs (exec (.insert s i (.elem s j))) (ready w) (.pos r) w' ∧
      (w'.err = none → r = i ∧ Contents w' s (L.take i ++ x :: L.drop i) ∧ Unchanged w w' [s] ∧ NoLeak w') ∧
      (Good w → w'.err = none) := by
  obtain ⟨σ, h⟩ := hr.inv
  obtain ⟨v, hs⟩ := (alive_iff h).1 ha
  obtain rfl := (contents_iff h hs).1 hL
  have hjl := (List.getElem?_eq_some_iff.1 hj).1
  have hcap := (spare_iff h hs).1 hsp
  have : wp (exec (.insert s i (.elem s j))) (ready w) fun r w' => ∃ k, r = .pos k ∧ Inserted (ready w) σ s v i x k w' := by
    unfold exec; simp only [wp_bind]
    unfold evalArg; simp only [wp_bind]
    rw [wp_rdObj (h.ready.st.obj _ _ hs).2 (h.ready.st.ne_null hs)]
    simp only [wp_assertM, decide_eq_true_eq, wp_pure]
    refine ⟨hjl, ?_⟩
    refine wp_mono (wp_insertValue h.ready.st rfl hs hi (h.ready.st.val hs hj) (fun _ => ⟨hcap, hji⟩)) ?_
    intro k w' hp; exact ⟨k, rfl, hp⟩
  obtain ⟨r, w', hrun, k, rfl, hp⟩ := this.runs
  refine ⟨k, w', hrun, ?_, ?_⟩
  · intro h0
    cases hp with
    | refused _ _ _ h1 => exact absurd h0 h1
    | failed => simp at h0
    | broken => simp at h0
    | ok v1 w1 h' h1 h2 h3 h4 =>
      have hi' : Inv { w1 with heap := h', nCtor := w1.nCtor + (v.els.length - i + 1) }
          (upd σ s (some { v1 with els := v.els.take i ++ x :: v.els.drop i })) := h.ready.set hs h3 h1.adv.sp
      exact ⟨rfl, (contents_iff hi' (upd_same _ _ _)).2 rfl, unchanged1 h hi', hi'.noLeak⟩
  · intro hg
    obtain ⟨v', hput⟩ := hp.put h.ready.st hs rfl hi (.inr fun k _ => hg.ctor k)
    refine Classical.byContradiction fun h0 => ?_
    rcases hput.cause.1 h0 with ⟨h1, _⟩ | ⟨m, h1, h2⟩
    · omega
    · have h3 : w.env.ctor (w.nCtor + m) = false := h2
      rw [hg.ctor] at h3; cases h3

example : ∃ (w : W Nat) (t : Ptr), Reach w ∧ Good w ∧ Alive w t ∧ Contents w t [2, 5] ∧ 1 ≤ [2, 5].length ∧ [2, 5][0]? = some 2 ∧
    0 < 1 ∧ Spare w t := by
  obtain ⟨w, s, t, u, hr, hg, h1, h2, h3, ha, hb, hu, c1, c2, c3, k1, k2, k3, a1, a2, a3⟩ := demo
  exact ⟨w, t, hr, hg, hb, c2, by decide, rfl, by decide, _, _, c2, k2, by decide⟩

/-! ### C43 -/

/-- C43: `operator[]`, iteration from `begin()` to `end()`, `front()`, `back()`, `size()` and `empty()` all describe the same
sequence and change nothing; `v[i]` with `i >= size()` is stopped by the assertion. -/
theorem vector_access (hr : Reach w) (ha : Alive w s) (hL : Contents w s L) :
    Runs (iterate s) w L w ∧ Runs (size s) w L.length w ∧ Runs (empty s) w L.isEmpty w ∧
      (∀ i x, L[i]? = some x → Runs (at_ s i) w x w) ∧ (∀ i, L.length ≤ i → Faults (at_ s i) w .assertFail) ∧
      (∀ x T, L = x :: T → Runs (front s) w x w) ∧ (∀ x T, L = T ++ [x] → Runs (back s) w x w) ∧
      (∃ c, HasCap w s c ∧ L.length ≤ c) := by
  obtain ⟨σ, h⟩ := hr.inv
  obtain ⟨v, hs⟩ := (alive_iff h).1 ha
  obtain rfl := (contents_iff h hs).1 hL
  have run : ∀ {α : Type} {m : M (W V) α} {a : α}, wp m w (fun r w' => r = a ∧ w' = w) → Runs m w a w := by
    intro α m a hm
    obtain ⟨r, w', hr, rfl, rfl⟩ := hm.runs
    exact hr
  have hsn := h.st.ne_null hs
  have hob := (h.st.obj _ _ hs).2
  have hemp : wp (empty s) w fun r w' => r = v.els.isEmpty ∧ w' = w := by
    unfold empty; simp only [wp_bind]
    rw [wp_rdObj hob hsn]
    refine ⟨?_, rfl⟩
    cases v.els <;> simp
  refine ⟨run (wp_iterate h hs), run ?_, run hemp, ?_, ?_, ?_, ?_, v.cap, (hasCap_iff h hs).2 rfl, (h.st.ok _ _ hs).len⟩
  · unfold size; simp only [wp_bind]
    rw [wp_rdObj hob hsn]
    exact ⟨rfl, rfl⟩
  · intro i x hx
    exact run (wp_at h.st hs hx ⟨rfl, rfl⟩)
  · intro i hi
    unfold at_
    refine wp.faults_bind ?_
    rw [wp_rdObj hob hsn]
    exact Faults.bind (Faults.assertM (by simp; omega))
  · intro x T hx
    refine run ?_
    unfold front; simp only [wp_bind]
    refine wp_mono hemp ?_
    rintro _ _ ⟨rfl, rfl⟩
    simp only [wp_assertM]
    refine ⟨by simp [hx], ?_⟩
    rw [wp_rdObj hob hsn]
    exact (wp_slot h.st hs (by rw [hx]; rfl)).2 ⟨rfl, rfl⟩
  · intro x T hx
    refine run ?_
    unfold back; simp only [wp_bind]
    refine wp_mono hemp ?_
    rintro _ _ ⟨rfl, rfl⟩
    simp only [wp_assertM]
    refine ⟨by simp [hx], ?_⟩
    rw [wp_rdObj hob hsn]
    refine (wp_slot h.st hs ?_).2 ⟨rfl, rfl⟩
    simp [hx]

example : ∃ (w : W Nat) (s : Ptr), Reach w ∧ Alive w s ∧ Contents w s [3, 1, 2] := by
  obtain ⟨w, s, t, u, hr, hg, h1, h2, h3, ha, hb, hu, c1, c2, c3, k1, k2, k3, a1, a2, a3⟩ := demo
  exact ⟨w, s, hr, ha, c1⟩

/-- C43: `operator==` holds iff the vectors are equally long and corresponding elements are equal; it changes nothing. -/
theorem vector_equality (hr : Reach w) (ha : Alive w s) (hb : Alive w t) (hL : Contents w s L) (hN : Contents w t N) (eq : V → V → Bool) :
    ∃ b, Runs (equal eq s t) w b w ∧ (b = true ↔ L.length = N.length ∧ ∀ z ∈ L.zip N, eq z.1 z.2 = true) := by
  obtain ⟨σ, h⟩ := hr.inv
  obtain ⟨v, hs⟩ := (alive_iff h).1 ha
  obtain ⟨u, ht⟩ := (alive_iff h).1 hb
  obtain rfl := (contents_iff h hs).1 hL
  obtain rfl := (contents_iff h ht).1 hN
  obtain ⟨b, w', h1, rfl, rfl⟩ := (wp_equal h.st hs ht eq (Q := fun r w' => r = _ ∧ w' = w) ⟨rfl, rfl⟩).runs
  refine ⟨_, h1, ?_⟩
  simp

example : ∃ (w : W Nat) (s t : Ptr), Reach w ∧ Alive w s ∧ Alive w t ∧ Contents w s [3, 1, 2] ∧ Contents w t [2, 5] := by
  obtain ⟨w, s, t, u, hr, hg, h1, h2, h3, ha, hb, hu, c1, c2, c3, k1, k2, k3, a1, a2, a3⟩ := demo
  exact ⟨w, s, t, hr, ha, hb, c1, c2⟩

end Nestl.VC
