import Verif.Vector.Props3
set_option autoImplicit false
/-
Property theorems of nestl::vector (C44, C45, C63), continued from `Verif/Vector/Props3.lean`.
-/
namespace Nestl.VC
open Nestl.Vec
section
variable {V : Type} [ElemSize V] {w w' : W V} {σ : Sg V} {s t : Ptr} {L N : List V} {x : V} {a : CArg V} {i j n : Nat} {v : Vec V}

/-! ### C44 -/

/-- The calls that replace the contents by way of a temporary vector: `assign_nothrow`, `copy_nothrow`. -/
def Assigns (s : Ptr) : Call V → Prop
  | .assignN d _ _ => d = s
  | .assignVals d _ => d = s
  | .assignInput d _ => d = s
  | .assignSub d _ _ _ => d = s
  | .copy d _ => d = s
  | _ => False

/-- C44 is violated: whatever the allocator of a vector was, after `assign_nothrow` or `copy_nothrow` it is a default
constructed one. -/
theorem vector_assign_allocator_violated (hr : Reach w) {c : Call V} (hv : Valid w c) (hc : Assigns s c) :
    ∃ r w', Runs (exec c) (ready w) r w' ∧ HasAlloc w' s defaultAlloc := by
  obtain ⟨A, hs⟩ := hr.sim
  obtain ⟨r, w', h1, A', h2, ⟨σ', hi, rfl⟩, -⟩ := (hs.call hv).runs
  refine ⟨r, w', h1, ?_⟩
  have key : ∀ (d : Ptr) (l : List V), abs σ' = upd A d (some (defaultAlloc, l)) → d = s → HasAlloc w' s defaultAlloc := by
    rintro d l h3 rfl
    obtain ⟨v, hv, h4, _⟩ := abs_inv (by rw [h3]; exact upd_same _ _ _)
    exact (hasAlloc_iff hi hv).2 h4.symm
  cases c <;> simp only [Assigns] at hc <;> simp only [Spec] at h2
  · obtain ⟨_, _, _, _, _, _, _, _, h3⟩ := h2; exact key _ _ h3 hc
  · obtain ⟨_, _, _, _, _, _, h3⟩ := h2; exact key _ _ h3 hc
  · obtain ⟨_, _, _, _, _, _, h3⟩ := h2; exact key _ _ h3 hc
  · obtain ⟨_, _, _, _, _, _, _, _, _, _, h3⟩ := h2; exact key _ _ h3 hc
  · obtain ⟨_, _, _, _, _, _, _, _, _, h3⟩ := h2; exact key _ _ h3 hc

/-- A vector with another allocator. -/
example : ∃ (w : W Nat) (u : Ptr), Reach w ∧ HasAlloc w u 7 ∧ Valid w (.assignVals u [1, 2]) ∧ Assigns (V := Nat) u (.assignVals u [1, 2]) := by
  obtain ⟨w, s, t, u, hr, hg, h1, h2, h3, ha, hb, hu, c1, c2, c3, k1, k2, k3, a1, a2, a3⟩ := demo
  exact ⟨w, u, hr, a3, ⟨hu, (by decide : 2 * 8 < 2 ^ 64)⟩, rfl⟩

/-- C44, the part that holds: each block is owned by the vector's allocator as long as move assignment is only used between
vectors with equal allocators (this is part of `Valid`), and no call other than assignment, copying and swapping changes the
allocator of an existing vector. -/
theorem vector_own_allocator_partial (hr : Reach w) (ha : Alive w s) {al : Nat} (hal : HasAlloc w s al) :
    (∀ p b, HasData w s p → w.heap p = some (.blk b) → b.owner = al) ∧
    ∀ c, Valid w c → ¬ Assigns s c → (∀ t u, c ≠ .swap t u) → ∃ r w', Runs (exec c) (ready w) r w' ∧ (Alive w' s → HasAlloc w' s al) := by
  obtain ⟨σ, h⟩ := hr.inv
  obtain ⟨v, hs⟩ := (alive_iff h).1 ha
  obtain rfl := (hasAlloc_iff h hs).1 hal
  refine ⟨?_, ?_⟩
  · intro p b hp hb
    obtain rfl := (hasData_iff h hs).1 hp
    rcases (h.st.ok _ _ hs).blk with ⟨h1, _⟩ | ⟨_, h1⟩
    · rw [h1, h.st.null] at hb; cases hb
    · rw [h1] at hb; cases hb; rfl
  · intro c hv hna hns
    have hsim : Sim w (abs σ) := ⟨σ, h, rfl⟩
    obtain ⟨r, w', h1, A', h2, ⟨σ', hi, rfl⟩, -⟩ := (hsim.call hv).runs
    refine ⟨r, w', h1, ?_⟩
    intro ha'
    obtain ⟨v', hs'⟩ := (alive_iff hi).1 ha'
    have e1 : abs σ s = some (v.alloc, v.els) := abs_some hs
    have e2 : abs σ' s = some (v'.alloc, v'.els) := abs_some hs'
    refine (hasAlloc_iff hi hs').2 ?_
    have key : ∀ (d : Ptr) (l : List V) (k : Nat) (m : List V), abs σ d = some (k, m) → abs σ' = upd (abs σ) d (some (k, l)) → v.alloc = v'.alloc := by
      intro d l k m h3 h4
      rw [h4, upd_apply] at e2
      split at e2
      · rename_i hd; subst hd; rw [e1] at h3; cases h3; exact congrArg Prod.fst (Option.some.inj e2)
      · rw [e1] at e2; exact congrArg Prod.fst (Option.some.inj e2)
    have same : abs σ' = abs σ → v.alloc = v'.alloc := by
      intro h3; rw [h3, e1] at e2; exact congrArg Prod.fst (Option.some.inj e2)
    have other : ∀ (d : Ptr) (z : Option (Nat × List V)), d ≠ s → abs σ' = upd (abs σ) d z → v.alloc = v'.alloc := by
      intro d z hd h4
      rw [h4, upd_other _ _ (Ne.symm hd), e1] at e2; exact congrArg Prod.fst (Option.some.inj e2)
    cases c <;> simp only [Spec] at h2
    case create =>
      obtain ⟨_, d, _, h3, h4⟩ := h2
      exact other d _ (by rintro rfl; rw [e1] at h3; cases h3) h4
    case pushBack =>
      obtain ⟨_, _, _, h3, _, h4⟩ := h2
      split at h4
      · exact same h4
      · exact key _ _ _ _ h3 h4
    case insert =>
      obtain ⟨_, _, _, h3, _, _, h4⟩ := h2
      split at h4
      · exact same h4.2
      · exact key _ _ _ _ h3 h4.2
    case insertVals => obtain ⟨_, _, _, h3, _, _, _, h4⟩ := h2; exact key _ _ _ _ h3 h4
    case clear => obtain ⟨_, _, _, h3, h4⟩ := h2; exact key _ _ _ _ h3 h4
    case reserve => exact same h2.choose_spec.choose_spec.2
    case shrink => exact same h2.choose_spec.choose_spec.2
    case resize =>
      obtain ⟨_, _, _, h3, _, h4⟩ := h2
      split at h4
      · exact key _ _ _ _ h3 h4.2
      · obtain ⟨k, _, _, h4⟩ := h4; exact key _ _ _ _ h3 h4
    case assignN => obtain ⟨_, _, _, _, _, _, _, _, h3⟩ := h2; exact other _ _ hna h3
    case assignVals => obtain ⟨_, _, _, _, _, _, h3⟩ := h2; exact other _ _ hna h3
    case assignInput => obtain ⟨_, _, _, _, _, _, h3⟩ := h2; exact other _ _ hna h3
    case assignSub => obtain ⟨_, _, _, _, _, _, _, _, _, _, h3⟩ := h2; exact other _ _ hna h3
    case copy => obtain ⟨_, _, _, _, _, _, _, _, _, h3⟩ := h2; exact other _ _ hna h3
    case move q =>
      obtain ⟨_, d, al, l, _, h3, h4, h5⟩ := h2
      have hds : s ≠ d := by rintro rfl; rw [e1] at h3; cases h3
      rw [h5, upd_other _ _ hds, upd_apply] at e2
      split at e2
      · rename_i hd; subst hd; rw [e1] at h4; cases h4; exact congrArg Prod.fst (Option.some.inj e2)
      · rw [e1] at e2; exact congrArg Prod.fst (Option.some.inj e2)
    case moveAssign p q =>
      obtain ⟨_, al, l, bl, m, h3, h4, h5⟩ := h2
      split at h5
      · exact key _ _ _ _ h3 h5
      · rw [h5, upd_apply] at e2
        split at e2
        · rename_i hd; subst hd; rw [e1] at h4; cases h4; exact congrArg Prod.fst (Option.some.inj e2)
        · rw [upd_apply] at e2
          split at e2
          · rename_i hd; subst hd; rw [e1] at h3; cases h3; exact congrArg Prod.fst (Option.some.inj e2)
          · rw [e1] at e2; exact congrArg Prod.fst (Option.some.inj e2)
    case swap => exact absurd rfl (hns _ _)
    case destroy d =>
      obtain ⟨_, al, l, h3, h4⟩ := h2
      by_cases hd : d = s
      · subst hd; rw [h4, upd_same] at e2; cases e2
      · exact other _ _ hd h4

example : ∃ (w : W Nat) (s t : Ptr) (p : Ptr) (b : Blk Nat), Reach w ∧ Alive w s ∧ HasAlloc w s defaultAlloc ∧ HasData w s p ∧
    w.heap p = some (.blk b) ∧ Valid w (.moveAssign s t) ∧ ¬ Assigns s (Call.moveAssign (V := Nat) s t) := by
  obtain ⟨w, s, t, u, hr, hg, h1, h2, h3, ha, hb, hu, c1, c2, c3, k1, k2, k3, a1, a2, a3⟩ := demo
  obtain ⟨L, c, al, p, d1, d2, d3, d4, d5, d6⟩ := (vector_storage hr).2 s ha
  rcases d6 with ⟨_, rfl⟩ | ⟨h4, _⟩
  · exact absurd (k1.det d2).1 (by decide)
  · exact ⟨w, s, t, p, _, hr, ha, a1, d4, h4, ⟨ha, hb, .inr (.inr ⟨_, a1, a2⟩)⟩, fun h => h⟩

theorem wp_moveAssign_foreign (hst : St w.heap σ) (hs : σ s = some v) {u : Vec V} (ht : σ t = some u) (hd : σ (.stk w.sp) = none)
    (hne : s ≠ t) (hu : u.start ≠ .null) {Q : Unit → W V → Prop}
    (hq : ∀ h', h' s = some (.obj ⟨v.alloc, u.start, u.els.length, u.cap⟩) → h' u.start = some u.blk → Q () { w with sp := w.sp + 1, heap := h' }) :
    wp (moveAssign s t) w Q := by
  have hsd : s ≠ .stk w.sp := St.ne_new hs hd
  have htd : t ≠ .stk w.sp := St.ne_new ht hd
  unfold moveAssign; simp only [wp_bind]
  refine wp_moveCtor hst hs hd ?_
  intro h1 hst1 hfr1
  have e1 : upd (upd σ s (some (bare v.alloc))) (.stk w.sp) (some v) s = some (bare v.alloc) := by
    rw [upd_other _ _ hsd, upd_same]
  have e2 : upd (upd σ s (some (bare v.alloc))) (.stk w.sp) (some v) t = some u := by
    rw [upd_other _ _ htd, upd_other _ _ (Ne.symm hne)]; exact ht
  have e3 := upd_same (upd σ s (some (bare v.alloc))) (.stk w.sp) (some v)
  have hsn := hst1.ne_null e1
  have htn := hst1.ne_null e2
  have g1 := (hst1.obj _ _ e1).2
  have g2 := (hst1.obj _ _ e2).2
  have g3 := (hst1.obj _ _ e3).2
  have hub : h1 u.start = some u.blk := by
    rcases (hst1.ok _ _ e2).blk with ⟨h2, _⟩ | ⟨_, h2⟩
    · exact absurd h2 hu
    · exact h2
  unfold swapData; simp only [wp_bind]
  rw [wp_rdObj (by exact g1) hsn, wp_rdObj (by exact g2) htn, wp_setObj (by exact g1) hsn]
  rw [wp_rdObj (o := ⟨u.alloc, u.start, u.els.length, u.cap⟩) (by simp only [World.setHeap_heap, upd_other _ _ (Ne.symm hne)]; exact g2) htn]
  rw [wp_setObj (c := u.obj) (by simp only [World.setHeap_heap, upd_other _ _ (Ne.symm hne)]; exact g2) htn]
  unfold destroyVec; simp only [wp_bind]
  rw [wp_rdObj (o := ⟨v.alloc, v.start, v.els.length, v.cap⟩) (by
    simp only [World.setHeap_heap, upd_other _ _ (Ne.symm htd), upd_other _ _ (Ne.symm hsd)]; exact g3) (by simp)]
  have n1 : s ≠ v.start := hst1.stk_ne e1 e3
  have n2 : t ≠ v.start := hst1.stk_ne e2 e3
  have n3 : Ptr.stk w.sp ≠ v.start := hst1.stk_ne e3 e3
  have m1 : s ≠ u.start := hst1.stk_ne e1 e2
  have m2 : t ≠ u.start := hst1.stk_ne e2 e2
  have m3 : Ptr.stk w.sp ≠ u.start := hst1.stk_ne e3 e2
  have n4 : u.start ≠ v.start := fun h0 => htd (hst1.disj _ _ _ _ e2 e3 h0 hu)
  have hok := hst1.ok _ _ e3
  refine wp_destroyAll (v := v) ⟨hok.len, hok.fits, ?_⟩ rfl ⟨?_, ?_⟩
  · rcases hok.blk with h2 | ⟨h2, h3⟩
    · exact .inl h2
    · refine .inr ⟨h2, ?_⟩
      simp only [World.setHeap_heap, upd_other _ _ (Ne.symm n2), upd_other _ _ (Ne.symm n1)]; exact h3
  · intro h0
    simp only [h0, wp_deallocate_null]
    rw [wp_dropObj (c := v.obj) (by
      simp only [World.setHeap_heap, upd_other _ _ (Ne.symm htd), upd_other _ _ (Ne.symm hsd)]; exact g3)]
    refine hq _ ?_ ?_
    · simp only [World.setHeap_heap]
      rw [upd_other _ _ hsd, upd_other _ _ hne, upd_same]; rfl
    · simp only [World.setHeap_heap]
      rw [upd_other _ _ (Ne.symm m3), upd_other _ _ (Ne.symm m2), upd_other _ _ (Ne.symm m1)]; exact hub
  · intro h0
    obtain ⟨b, h1⟩ : ∃ b, v.start = .dyn b := by
      rcases hok.blk with ⟨h1, _⟩ | ⟨h1, _⟩
      · exact absurd h1 h0
      · exact h1
    simp only [h1] at n1 n2 n3 n4 ⊢
    rw [wp_deallocate (i := v.cap) (by simp)]
    rw [wp_dropObj (c := v.obj) (by
      simp only [World.setHeap_heap]
      rw [upd_other _ _ n3, upd_other _ _ n3, upd_other _ _ (Ne.symm htd), upd_other _ _ (Ne.symm hsd)]; exact g3)]
    refine hq _ ?_ ?_
    · simp only [World.setHeap_heap]
      rw [upd_other _ _ hsd, upd_other _ _ n1, upd_other _ _ n1, upd_other _ _ hne, upd_same]; rfl
    · simp only [World.setHeap_heap]
      rw [upd_other _ _ (Ne.symm m3), upd_other _ _ n4, upd_other _ _ n4, upd_other _ _ (Ne.symm m2), upd_other _ _ (Ne.symm m1)]; exact hub

/-- C44 is violated: after `s = std::move(t)` for vectors with different allocators, `s` has its own allocator and the block of
`t`; its destructor gives the block back to an allocator it does not come from. -/
theorem vector_move_assign_wrong_allocator_violated (hr : Reach w) (ha : Alive w s) (hb : Alive w t) (hne : s ≠ t) {al bl : Nat}
    (hal : HasAlloc w s al) (hbl : HasAlloc w t bl) (hab : al ≠ bl) {p : Ptr} (hp : HasData w t p) (hpn : p ≠ .null) :
    ∃ w', Runs (exec (.moveAssign s t)) (ready w) .unit w' ∧ w'.err = none ∧ HasAlloc w' s al ∧ HasData w' s p ∧
      Faults (exec (.destroy s)) (ready w') .wrongAllocator := by
  obtain ⟨σ, h⟩ := hr.inv
  obtain ⟨v, hs⟩ := (alive_iff h).1 ha
  obtain ⟨u, ht⟩ := (alive_iff h).1 hb
  obtain rfl := (hasAlloc_iff h hs).1 hal
  obtain rfl := (hasAlloc_iff h ht).1 hbl
  obtain rfl := (hasData_iff h ht).1 hp
  have : wp (exec (.moveAssign s t)) (ready w) fun r w' => r = .unit ∧ w'.err = none ∧
      w'.heap s = some (.obj ⟨v.alloc, u.start, u.els.length, u.cap⟩) ∧ w'.heap u.start = some u.blk := by
    unfold exec; simp only [wp_bind]
    refine wp_moveAssign_foreign h.ready.st hs ht (h.top _ (Nat.le_refl _)) hne hpn ?_
    intro h' h1 h2
    exact ⟨rfl, rfl, h1, h2⟩
  obtain ⟨r, w', hrun, rfl, he, h1, h2⟩ := this.runs
  have hsn := h.st.ne_null hs
  have run : ∀ {α : Type} {m : M (W V) α} {a : α}, wp m w' (fun r w1 => r = a ∧ w1 = w') → Runs m w' a w' := by
    intro α m a hm
    obtain ⟨r, w', hr, rfl, rfl⟩ := hm.runs
    exact hr
  refine ⟨w', hrun, he, run ?_, run ?_, ?_⟩
  · unfold getAlloc; simp only [wp_bind]
    rw [wp_rdObj h1 hsn]; exact ⟨rfl, rfl⟩
  · unfold begin_; simp only [wp_bind]
    rw [wp_rdObj h1 hsn]; exact ⟨rfl, rfl⟩
  · have hok := h.st.ok _ _ ht
    obtain ⟨b, hb⟩ : ∃ b, u.start = .dyn b := by
      rcases hok.blk with ⟨h1, _⟩ | ⟨h1, _⟩
      · exact absurd h1 hpn
      · exact h1
    unfold exec
    refine Faults.bind ?_
    unfold destroyVec
    refine wp.faults_bind ?_
    rw [wp_rdObj (w := ready w') h1 hsn]
    refine wp.faults_bind ?_
    refine wp_destroyAll (w := ready w') (v := u) ⟨hok.len, hok.fits, .inr ⟨⟨b, hb⟩, h2⟩⟩ rfl ⟨fun h0 => absurd h0 hpn, ?_⟩
    intro _
    refine Faults.bind ?_
    simp [hb, Faults, deallocate, freeCell, Ne.symm hab]

/-- Vectors with elements and with different allocators. -/
example : ∃ (w : W Nat) (s u : Ptr) (p : Ptr), Reach w ∧ Alive w s ∧ Alive w u ∧ s ≠ u ∧ HasAlloc w s defaultAlloc ∧ HasAlloc w u 7 ∧
    defaultAlloc ≠ 7 ∧ HasData w u p ∧ p ≠ .null := by
  obtain ⟨w, s, t, u, hr, hg, h1, h2, h3, ha, hb, hu, c1, c2, c3, k1, k2, k3, a1, a2, a3⟩ := demo
  obtain ⟨L, c, al, p, d1, d2, d3, d4, d5, d6⟩ := (vector_storage hr).2 u hu
  refine ⟨w, s, u, p, hr, ha, hu, h2, a1, a3, by decide, d4, ?_⟩
  rintro rfl
  rcases d6 with ⟨_, rfl⟩ | ⟨h4, _⟩
  · exact absurd (k3.det d2).1 (by decide)
  · obtain ⟨σ, h⟩ := hr.inv
    rw [h.st.null] at h4; cases h4

end

/-! ### C45 -/

/-- The caller passes an error object that already holds an error. -/
def stale {V : Type} (w : W V) : W V := { w with err := some .badAlloc }

/-- C45 is violated: `push_back_nothrow` on a full vector with an error object that already holds an error allocates a block
and forgets it; the block is still there after the only vector has been destroyed. -/
theorem vector_stale_error_leak_violated : ∃ (s : Ptr) (w1 w2 w3 : W Nat) (b : Blk Nat),
    Runs (exec (.create defaultAlloc)) (start (envOf fun _ => true)) (.obj s) w1 ∧
    Runs (exec (.pushBack s (.val 5))) (stale w1) .unit w2 ∧ Contents w2 s [] ∧
    Runs (exec (.destroy s)) (ready w2) .unit w3 ∧ w3.heap (.dyn 0) = some (.blk b) :=
  ⟨_, _, _, _, _, rfl, rfl, rfl, rfl, rfl⟩

/-- C45 is violated: `push_back_nothrow` with spare capacity and an error object that already holds an error constructs an
element that does not belong to the vector: its destructor releases the block while the element is alive. -/
theorem vector_stale_error_element_violated : ∃ (s : Ptr) (w1 w2 w3 : W Nat),
    Runs (exec (.create defaultAlloc)) (start (envOf fun _ => true)) (.obj s) w1 ∧
    Runs (exec (.reserve s 2)) (ready w1) .unit w2 ∧ w2.err = none ∧
    Runs (exec (.pushBack s (.val 5))) (stale w2) .unit w3 ∧ Contents w3 s [] ∧
    Faults (exec (.pushBack s (.val 6))) (ready w3) .overwriteLive ∧
    Faults (exec (.destroy s)) (ready w3) .freeLive :=
  ⟨_, _, _, _, rfl, rfl, rfl, rfl, rfl, rfl, rfl⟩

section
variable {V : Type} [ElemSize V] {w w' : W V} {σ : Sg V} {s t : Ptr} {L N : List V} {x : V} {a : CArg V} {i j n : Nat} {v : Vec V}

/-- C45, the part that holds: a stale error is harmless if nothing has to be allocated and no element has to be constructed, i.e.
for `reserve_nothrow` within the capacity, `shrink_to_fit_nothrow` of a full vector and shrinking by `resize_nothrow`.
Missing: all other operations. -/
theorem vector_stale_error_partial (hr : Reach w) (ha : Alive w s) (hL : Contents w s L) {c : Nat} (hc : HasCap w s c) :
    (n ≤ c → Runs (exec (.reserve s n)) (stale w) .unit (stale w)) ∧
    (c = L.length → Runs (exec (.shrink s)) (stale w) .unit (stale w)) ∧
    (n ≤ L.length → ArgVal w x a → ∃ w', Runs (exec (.resize s n a)) (stale w) .unit w' ∧ w'.err = (stale w).err ∧ Contents w' s (L.take n) ∧
      Unchanged w w' [s] ∧ NoLeak w') := by
  obtain ⟨σ, h⟩ := hr.inv
  obtain ⟨v, hs⟩ := (alive_iff h).1 ha
  obtain rfl := (contents_iff h hs).1 hL
  obtain rfl := (hasCap_iff h hs).1 hc
  have hi : Inv (stale w) σ := ⟨h.st, h.top⟩
  have run : ∀ {m : M (W V) Res}, wp m (stale w) (fun r w' => r = .unit ∧ w' = stale w) → Runs m (stale w) .unit (stale w) := by
    intro m hm
    obtain ⟨r, w', hr, rfl, rfl⟩ := hm.runs
    exact hr
  refine ⟨?_, ?_, ?_⟩
  · intro hn
    refine run ?_
    unfold exec Vec.reserve; simp only [wp_bind]
    rw [wp_rdObj (hi.st.obj _ _ hs).2 (hi.st.ne_null hs)]
    exact wp_if_pos hn ⟨rfl, rfl⟩
  · intro hn
    refine run ?_
    unfold exec shrinkToFit; simp only [wp_bind]
    rw [wp_rdObj (hi.st.obj _ _ hs).2 (hi.st.ne_null hs)]
    exact wp_if_neg (by simp only; omega) ⟨rfl, rfl⟩
  · intro hn hx
    have hok : ArgOk (stale w) a := by
      have := hx.ok h
      cases a with
      | val => trivial
      | elem t i =>
        obtain ⟨h1, M, h2, h3⟩ := this
        obtain ⟨u, ht⟩ := (alive_iff h).1 h1
        obtain rfl := (contents_iff h ht).1 h2
        exact ⟨(alive_iff hi).2 ⟨u, ht⟩, _, (contents_iff hi ht).2 rfl, h3⟩
    have : wp (exec (.resize s n a)) (stale w) fun r w' => r = .unit ∧ w'.err = (stale w).err ∧
        Inv w' (upd σ s (some { v with els := v.els.take n })) := by
      unfold exec; simp only [wp_bind]
      refine wp_evalArg hi hok ?_
      intro b y hb hy _ href
      refine wp_resize_cut hi.st hs hn ?_
      intro w' h1 h2 h3 h4 h5 h6
      exact ⟨rfl, h3, hi.set hs h1 h2.sp⟩
    obtain ⟨r, w', hrun, rfl, he, hi'⟩ := this.runs
    exact ⟨w', hrun, he, (contents_iff hi' (upd_same _ _ _)).2 rfl, unchanged1 h hi', hi'.noLeak⟩

example : ∃ (w : W Nat) (s : Ptr), Reach w ∧ Alive w s ∧ Contents w s [3, 1, 2] ∧ HasCap w s 3 ∧ 1 ≤ [3, 1, 2].length ∧ ArgVal w 2 (.elem s 2) := by
  obtain ⟨w, s, t, u, hr, hg, h1, h2, h3, ha, hb, hu, c1, c2, c3, k1, k2, k3, a1, a2, a3⟩ := demo
  exact ⟨w, s, hr, ha, c1, k1, by decide, ha, _, c1, rfl⟩

/-! ### C63 -/

/-- C63, the part that holds: appending and inserting with `size() < capacity()`, `reserve_nothrow(err, n)` with `n <= capacity()`
and shrinking by `resize_nothrow` leave the elements in the same block, whether they fail or not.  Missing: growing by
`resize_nothrow` within the capacity. -/
theorem vector_stability_partial (hr : Reach w) (ha : Alive w s) (hL : Contents w s L) {c : Nat} (hc : HasCap w s c) {p : Ptr}
    (hp : HasData w s p) :
    (∀ a, L.length < c → Valid w (.pushBack s a) → ∃ w', Runs (exec (.pushBack s a)) (ready w) .unit w' ∧ HasData w' s p ∧ HasCap w' s c) ∧
    (∀ i a, L.length < c → Valid w (.insert s i a) → ∃ r w', Runs (exec (.insert s i a)) (ready w) (.pos r) w' ∧ HasData w' s p ∧ HasCap w' s c) ∧
    (∀ n, n ≤ c → Runs (exec (.reserve s n)) (ready w) .unit (ready w)) ∧
    (∀ n a, n ≤ L.length → ArgOk w a → ∃ w', Runs (exec (.resize s n a)) (ready w) .unit w' ∧ HasData w' s p ∧ HasCap w' s c) := by
  obtain ⟨σ, h⟩ := hr.inv
  obtain ⟨v, hs⟩ := (alive_iff h).1 ha
  obtain rfl := (contents_iff h hs).1 hL
  obtain rfl := (hasCap_iff h hs).1 hc
  obtain rfl := (hasData_iff h hs).1 hp
  refine ⟨?_, ?_, ?_, ?_⟩
  · rintro a hlt ⟨-, hok, hf⟩
    have : wp (exec (.pushBack s a)) (ready w) fun r w' => r = .unit ∧ ∃ x v', Put (ready w) σ s v v.els.length x v' v.els.length w' := by
      unfold exec; simp only [wp_bind]
      refine wp_evalArg h.ready (argOk_ready h hok) ?_
      intro b x hb hx _ href
      refine wp_mono (wp_pushBack h.ready.st rfl hs hb (apart_push h hs hf href)) ?_
      intro _ w' hp; exact ⟨rfl, x, hp⟩
    obtain ⟨r, w', hrun, rfl, x, v', hp⟩ := this.runs
    have hi := h.ready.set hs hp.st hp.adv.sp
    exact ⟨w', hrun, (hasData_iff hi (upd_same _ _ _)).2 (hp.keep hlt).1.symm, (hasCap_iff hi (upd_same _ _ _)).2 (hp.keep hlt).2.1.symm⟩
  · rintro i a hlt ⟨-, hok, ⟨L, hL, hil, hnb⟩, hf⟩
    obtain rfl := (contents_iff h hs).1 hL
    have : wp (exec (.insert s i a)) (ready w) fun r w' => ∃ k x v', r = .pos k ∧ Put (ready w) σ s v i x v' k w' := by
      unfold exec; simp only [wp_bind]
      refine wp_evalArg h.ready (argOk_ready h hok) ?_
      intro b x hb hx _ href
      refine wp_mono (wp_insert h.ready.st rfl hs hil hb (apart_insert h hs hf href) hnb) ?_
      rintro k w' ⟨v', hp⟩; exact ⟨k, x, v', rfl, hp⟩
    obtain ⟨r, w', hrun, k, x, v', rfl, hp⟩ := this.runs
    have hi := h.ready.set hs hp.st hp.adv.sp
    exact ⟨k, w', hrun, (hasData_iff hi (upd_same _ _ _)).2 (hp.keep hlt).1.symm, (hasCap_iff hi (upd_same _ _ _)).2 (hp.keep hlt).2.1.symm⟩
  · intro n hn
    have : wp (exec (.reserve s n)) (ready w) fun r w' => r = .unit ∧ w' = ready w := by
      unfold exec Vec.reserve; simp only [wp_bind]
      rw [wp_rdObj (h.ready.st.obj _ _ hs).2 (h.ready.st.ne_null hs)]
      exact wp_if_pos hn ⟨rfl, rfl⟩
    obtain ⟨r, w', hr, rfl, rfl⟩ := this.runs
    exact hr
  · intro n a hn hx
    have : wp (exec (.resize s n a)) (ready w) fun r w' => r = .unit ∧
        Inv w' (upd σ s (some { v with els := v.els.take n })) := by
      unfold exec; simp only [wp_bind]
      refine wp_evalArg h.ready (argOk_ready h hx) ?_
      intro b y hb hy _ href
      refine wp_resize_cut h.ready.st hs hn ?_
      intro w' h1 h2 h3 h4 h5 h6
      exact ⟨rfl, h.ready.set hs h1 h2.sp⟩
    obtain ⟨r, w', hrun, rfl, hi'⟩ := this.runs
    exact ⟨w', hrun, (hasData_iff hi' (upd_same _ _ _)).2 rfl, (hasCap_iff hi' (upd_same _ _ _)).2 rfl⟩

example : ∃ (w : W Nat) (t p : Ptr), Reach w ∧ Alive w t ∧ Contents w t [2, 5] ∧ HasCap w t 3 ∧ HasData w t p ∧ [2, 5].length < 3 ∧
    Valid w (.pushBack t (.elem t 1)) ∧ Valid w (.insert t 1 (.val 4)) := by
  obtain ⟨w, s, t, u, hr, hg, h1, h2, h3, ha, hb, hu, c1, c2, c3, k1, k2, k3, a1, a2, a3⟩ := demo
  obtain ⟨σ, h⟩ := hr.inv
  obtain ⟨v, hs⟩ := (alive_iff h).1 hb
  exact ⟨w, t, _, hr, hb, c2, k2, (hasData_iff h hs).2 rfl, by decide, ⟨hb, ⟨hb, _, c2, by decide⟩, .inr ⟨_, _, c2, k2, by decide⟩⟩,
    hb, trivial, ⟨_, c2, by decide, .inr fun _ _ => hg.ctor _⟩, .inl trivial⟩

end

/-- C63 is violated: `resize_nothrow(err, 1)` of a vector with capacity 2 moves it to another block. -/
theorem vector_stability_violated : ∃ (s : Ptr) (w1 w2 w3 : W Nat),
    Runs (exec (.create defaultAlloc)) (start (envOf fun _ => true)) (.obj s) w1 ∧
    Runs (exec (.reserve s 2)) (ready w1) .unit w2 ∧ w2.err = none ∧ HasCap w2 s 2 ∧ HasData w2 s (.dyn 0) ∧
    Runs (exec (.resize s 1 (.val 5))) (ready w2) .unit w3 ∧ Contents w3 s [5] ∧ HasCap w3 s 4 ∧ HasData w3 s (.dyn 1) :=
  ⟨_, _, _, _, rfl, rfl, rfl, rfl, rfl, rfl, rfl, rfl, rfl⟩

end Nestl.VC
