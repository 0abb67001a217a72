import Verif.VectorOf.Client
import Verif.VectorOf.Funs
import Verif.Vector.Demo
set_option autoImplicit false
/-
The invariant of vectors of objects, and its relation to vectors of values.
-/
namespace Nestl.VO
open Nestl.Vec (W VCell Obj Blk Sg St rdObj slotsOf ElemSize)
open Classical
variable {S A X : Type} [ElemSize Ptr] {E : Elem S A X} {s : NS S} {σ : Sg Ptr}

/-- The state `s` holds the vectors `σ` of live, distinct objects. -/
structure NInv (E : Elem S A X) (s : NS S) (σ : Sg Ptr) : Prop where
  outer : VC.Inv s.o σ
  inv : E.inv s.i
  live : ∀ t v q, σ t = some v → q ∈ v.els → E.val s.i q ≠ none
  uniq : ∀ t v (j : Nat) t' v' (j' : Nat) q, σ t = some v → σ t' = some v' → v.els[j]? = some q → v'.els[j']? = some q → t = t' ∧ j = j'

omit [ElemSize Ptr] in
theorem slotsOf_get {V : Type} {xs : List V} {n j : Nat} {x : V} : (slotsOf xs n)[j]? = some (some x) ↔ xs[j]? = some x := by
  unfold slotsOf
  rw [List.getElem?_append]
  split
  · simp
  · rename_i h
    simp only [List.length_map] at h
    rw [List.getElem?_eq_none (l := xs) (by omega)]
    simp [List.getElem?_replicate]

theorem NInv.slot (h : NInv E s σ) {p q : Ptr} {j : Nat} : Slot s.o p j q ↔ ∃ t v, σ t = some v ∧ v.start = p ∧ v.els[j]? = some q := by
  have hs := h.outer.st
  constructor
  · rintro ⟨b, h1, h2⟩
    rcases hs.cover p (by rw [h1]; simp) with h3 | ⟨t, v, h3, rfl, h4⟩
    · obtain ⟨v, hv⟩ := Option.ne_none_iff_exists'.1 h3
      rw [(hs.obj _ _ hv).2] at h1; cases h1
    · rcases (hs.ok _ _ h3).blk with ⟨h5, -⟩ | ⟨-, h5⟩
      · exact (h4 h5).elim
      · rw [h1] at h5; cases h5
        exact ⟨t, v, h3, rfl, slotsOf_get.1 h2⟩
  · rintro ⟨t, v, h1, rfl, h2⟩
    have hok := hs.ok _ _ h1
    have hlt : j < v.els.length := by
      apply Classical.byContradiction; intro hn
      rw [List.getElem?_eq_none (by omega)] at h2; cases h2
    rcases hok.blk with ⟨-, h3⟩ | ⟨-, h3⟩
    · have := hok.len; omega
    · exact ⟨_, h3, slotsOf_get.2 h2⟩

theorem NInv.owned (h : NInv E s σ) {q : Ptr} : Owned s.o q ↔ ∃ t v, σ t = some v ∧ q ∈ v.els := by
  constructor
  · rintro ⟨p, j, hs⟩
    obtain ⟨t, v, h1, -, h2⟩ := h.slot.1 hs
    exact ⟨t, v, h1, List.mem_of_getElem? h2⟩
  · rintro ⟨t, v, h1, h2⟩
    obtain ⟨j, h3⟩ := List.getElem?_of_mem h2
    exact ⟨_, j, h.slot.2 ⟨t, v, h1, rfl, h3⟩⟩

theorem NInv.isElem (h : NInv E s σ) {q : Ptr} : IsElem s q ↔ Owned s.o q := by
  rw [h.owned]
  constructor
  · rintro ⟨v, qs, h1, h2, h3⟩
    obtain ⟨u, hu⟩ := (VC.alive_iff h.outer).1 h1
    rw [(VC.contents_iff h.outer hu).1 h2] at h3
    exact ⟨v, u, hu, h3⟩
  · rintro ⟨t, v, h1, h2⟩
    exact ⟨t, v.els, (VC.alive_iff h.outer).2 ⟨v, h1⟩, (VC.contents_iff h.outer h1).2 rfl, h2⟩

/-- Vectors of values. -/
def lift (f : Ptr → Option A) (σ : Sg Ptr) : Sg A := fun t => (σ t).map fun v => ⟨v.alloc, v.start, v.els.filterMap f, v.cap⟩

/-- The memory with values in place of objects. -/
noncomputable def absW (E : Elem S A X) (s : NS S) : W A where
  heap p := (s.o.heap p).map (absCell (E.val s.i))
  env := ⟨s.o.env.addr, fun _ => true, fun _ => .obj ⟨0, .null, 0, 0⟩⟩
  nAlloc := s.o.nAlloc
  nCtor := 0
  nCmp := 0
  sp := s.o.sp
  err := s.o.err

theorem NInv.rel (h : NInv E s σ) : Rel E s (absW E s) where
  inv := h.inv
  heap _ := rfl
  live q hq := by
    obtain ⟨t, v, h1, h2⟩ := h.owned.1 hq
    exact h.live _ _ _ h1 h2
  typed p b hb := by
    rcases h.outer.st.cover p (by rw [hb]; simp) with h3 | ⟨t, v, h3, rfl, h4⟩
    · obtain ⟨v, hv⟩ := Option.ne_none_iff_exists'.1 h3
      rw [(h.outer.st.obj _ _ hv).2] at hb; cases hb
    · rcases (h.outer.st.ok _ _ h3).blk with ⟨h5, -⟩ | ⟨h5, -⟩
      · exact (h4 h5).elim
      · exact h5
  uniq p j p' j' q h1 h2 := by
    obtain ⟨t, v, a1, a2, a3⟩ := h.slot.1 h1
    obtain ⟨t', v', b1, b2, b3⟩ := h.slot.1 h2
    obtain ⟨rfl, rfl⟩ := h.uniq _ _ _ _ _ _ _ a1 b1 a3 b3
    rw [a1] at b1; cases b1
    exact ⟨a2.symm.trans b2, rfl⟩
  addr := rfl
  nAlloc := rfl
  sp := rfl
  err := rfl

omit [ElemSize Ptr] in
theorem map_live {f : Ptr → Option A} {qs : List Ptr} (h : ∀ q, q ∈ qs → f q ≠ none) : (qs.filterMap f).map some = qs.map f := by
  induction qs with
  | nil => rfl
  | cons q qs ih =>
    obtain ⟨x, hx⟩ := Option.ne_none_iff_exists'.1 (h q (by simp))
    simp [hx, ih fun q hq => h q (by simp [hq])]

omit [ElemSize Ptr] in
theorem length_live {f : Ptr → Option A} {qs : List Ptr} (h : ∀ q, q ∈ qs → f q ≠ none) : (qs.filterMap f).length = qs.length := by
  rw [← List.length_map (f := some), map_live h, List.length_map]

omit [ElemSize Ptr] in
theorem map_slotsOf {f : Ptr → Option A} {qs : List Ptr} (h : ∀ q, q ∈ qs → f q ≠ none) (n : Nat) :
    ((slotsOf qs n).map fun x => x.bind f) = slotsOf (qs.filterMap f) n := by
  unfold slotsOf
  rw [length_live h, map_live h]
  simp

theorem NInv.lift (h : NInv E s σ) : @VC.Inv A (valueSize A) (absW E s) (lift (E.val s.i) σ) := by
  have hs := h.outer.st
  letI := valueSize A
  have key : ∀ t v, VO.lift (E.val s.i) σ t = some v → ∃ u, σ t = some u ∧ v = ⟨u.alloc, u.start, u.els.filterMap (E.val s.i), u.cap⟩ := by
    intro t v hv
    unfold VO.lift at hv
    obtain ⟨u, h1, h2⟩ := Option.map_eq_some_iff.1 hv
    exact ⟨u, h1, h2.symm⟩
  refine ⟨⟨?_, ?_, ?_, ?_⟩, ?_⟩
  · intro t v hv
    obtain ⟨u, hu, rfl⟩ := key t v hv
    refine ⟨(hs.obj _ _ hu).1, ?_⟩
    show ((s.o.heap t).map _) = _
    rw [(hs.obj _ _ hu).2]
    simp only [Option.map_some, Vec.Vec.obj, absCell, length_live fun q hq => h.live _ _ _ hu hq]
  · intro t v hv
    obtain ⟨u, hu, rfl⟩ := key t v hv
    have hok := hs.ok _ _ hu
    have hl := length_live fun q hq => h.live _ _ _ hu hq
    refine ⟨by simp only [hl]; exact hok.len, hok.fits, ?_⟩
    rcases hok.blk with h1 | ⟨h1, h2⟩
    · exact .inl h1
    · refine .inr ⟨h1, ?_⟩
      show ((s.o.heap u.start).map _) = _
      rw [h2]
      simp only [Option.map_some, Vec.Vec.blk, absCell, map_slotsOf fun q hq => h.live _ _ _ hu hq]
  · intro t t' v v' hv hv' h1 h2
    obtain ⟨u, hu, rfl⟩ := key t v hv
    obtain ⟨u', hu', rfl⟩ := key t' v' hv'
    exact hs.disj _ _ _ _ hu hu' h1 h2
  · intro p hp
    have : s.o.heap p ≠ none := by
      intro e; apply hp; show ((s.o.heap p).map _) = _; rw [e]; rfl
    rcases hs.cover p this with h1 | ⟨t, v, h1, h2, h3⟩
    · refine .inl ?_
      obtain ⟨v, hv⟩ := Option.ne_none_iff_exists'.1 h1
      simp [VO.lift, hv]
    · exact .inr ⟨t, ⟨v.alloc, v.start, v.els.filterMap (E.val s.i), v.cap⟩, by simp [VO.lift, h1], h2, h3⟩
  · intro i hi
    simp [VO.lift, h.outer.top i hi]

omit [ElemSize Ptr] in
theorem slots_split {f : Ptr → Option A} {n : Nat} : ∀ {xs : List A} {l : List (Option Ptr)},
    (∀ q, some q ∈ l → f q ≠ none) → (l.map fun x => x.bind f) = xs.map some ++ List.replicate n none →
    ∃ qs : List Ptr, l = qs.map some ++ List.replicate n none ∧ qs.map f = xs.map some := by
  intro xs
  induction xs with
  | nil =>
    intro l hl h
    refine ⟨[], ?_, rfl⟩
    simp only [List.map_nil, List.nil_append] at h ⊢
    rw [List.eq_replicate_iff] at h ⊢
    obtain ⟨h1, h2⟩ := h
    refine ⟨by simpa using h1, ?_⟩
    intro x hx
    cases x with
    | none => rfl
    | some q =>
      have := h2 (f q) (List.mem_map.2 ⟨_, hx, rfl⟩)
      exact (hl q hx this).elim
  | cons x xs ih =>
    intro l hl h
    cases l with
    | nil => cases h
    | cons y l =>
      simp only [List.map_cons, List.cons_append, List.cons.injEq] at h
      obtain ⟨qs, h1, h2⟩ := ih (fun q hq => hl q (by simp [hq])) h.2
      cases y with
      | none => cases h.1
      | some q => exact ⟨q :: qs, by simp [h1], by simp [h2]; exact h.1⟩

/-- The objects in the block at `p`. -/
def elsAt (o : W Ptr) (p : Ptr) : List Ptr :=
  match o.heap p with
  | some (.blk b) => b.slots.filterMap id
  | _ => []

/-- Back from values to objects. -/
theorem NInv.of_rel {w : W A} (hR : Rel E s w) {τ : Sg A} (hi : @VC.Inv A (valueSize A) w τ) :
    ∃ σ, NInv E s σ ∧ τ = VO.lift (E.val s.i) σ := by
  letI := valueSize A
  have hs := hi.st
  have hb : ∀ t v, τ t = some v → (v.els.length ≤ v.cap) ∧ (elsAt s.o v.start).map (E.val s.i) = v.els.map some ∧
      (v.start = .null ∧ v.cap = 0 ∨ (∃ a, v.start = .dyn a) ∧
        s.o.heap v.start = some (.blk ⟨slotsOf (elsAt s.o v.start) v.cap, v.alloc, v.cap⟩)) := by
    intro t v hv
    have hok := hs.ok _ _ hv
    refine ⟨hok.len, ?_⟩
    rcases hok.blk with ⟨h1, h2⟩ | ⟨h1, h2⟩
    · have h3 : s.o.heap v.start = none := (hR.heap_none _).1 (by rw [h1]; exact hs.null)
      have h4 : v.els = [] := List.eq_nil_of_length_eq_zero (by have := hok.len; omega)
      refine ⟨by simp [elsAt, h3, h4], .inl ⟨h1, h2⟩⟩
    · obtain ⟨b, h3, h4⟩ := hR.heap_blk h2
      have h5 : (b.slots.map fun x => x.bind (E.val s.i)) = v.els.map some ++ List.replicate (v.cap - v.els.length) none := by
        have := congrArg Blk.slots h4
        exact this.symm
      have h6 : v.alloc = b.owner := congrArg Blk.owner h4
      have h7 : v.cap = b.count := congrArg Blk.count h4
      obtain ⟨qs, h8, h9⟩ := slots_split (fun q hq => by
        obtain ⟨j, hj⟩ := List.getElem?_of_mem hq
        exact hR.live q ⟨_, j, b, h3, hj⟩) h5
      have h10 : elsAt s.o v.start = qs := by
        unfold elsAt
        rw [h3]
        simp only
        rw [h8, List.filterMap_append, List.filterMap_map]
        simp
      have h11 : qs.length = v.els.length := by rw [← List.length_map (f := E.val s.i), h9, List.length_map]
      refine ⟨by rw [h10]; exact h9, .inr ⟨h1, ?_⟩⟩
      rw [h3, h10]
      cases b
      simp only at h6 h7 h8
      rw [h6, h7, h8, slotsOf, ← h11, h7]
  have hlen : ∀ t v, τ t = some v → (elsAt s.o v.start).length = v.els.length := by
    intro t v hv
    rw [← List.length_map (f := E.val s.i), (hb t v hv).2.1, List.length_map]
  let σ : Sg Ptr := fun t => (τ t).map fun v => ⟨v.alloc, v.start, elsAt s.o v.start, v.cap⟩
  have key : ∀ t u, σ t = some u → ∃ v, τ t = some v ∧ u = ⟨v.alloc, v.start, elsAt s.o v.start, v.cap⟩ := by
    intro t u hu
    obtain ⟨v, h1, h2⟩ := Option.map_eq_some_iff.1 hu
    exact ⟨v, h1, h2.symm⟩
  have hslot : ∀ t u (j : Nat) q, σ t = some u → u.els[j]? = some q → Slot s.o u.start j q := by
    intro t u j q hu hj
    obtain ⟨v, hv, rfl⟩ := key t u hu
    obtain ⟨h1, h2, h3⟩ := hb t v hv
    rcases h3 with ⟨h3, h4⟩ | ⟨-, h3⟩
    · have h5 := hlen t v hv
      simp only at hj
      rw [List.getElem?_eq_none (by omega)] at hj
      cases hj
    · exact ⟨_, h3, slotsOf_get.2 hj⟩
  have hinv : VC.Inv s.o σ := by
    refine ⟨⟨?_, ?_, ?_, ?_⟩, ?_⟩
    · intro t u hu
      obtain ⟨v, hv, rfl⟩ := key t u hu
      refine ⟨(hs.obj _ _ hv).1, ?_⟩
      rw [hR.heap_obj (hs.obj _ _ hv).2]
      simp only [Vec.Vec.obj, hlen t v hv]
    · intro t u hu
      obtain ⟨v, hv, rfl⟩ := key t u hu
      refine ⟨by simp only [hlen t v hv]; exact (hs.ok _ _ hv).len, (hs.ok _ _ hv).fits, (hb t v hv).2.2⟩
    · intro t t' u u' hu hu' h1 h2
      obtain ⟨v, hv, rfl⟩ := key t u hu
      obtain ⟨v', hv', rfl⟩ := key t' u' hu'
      exact hs.disj _ _ _ _ hv hv' h1 h2
    · intro p hp
      rcases hs.cover p (fun e => hp ((hR.heap_none _).1 e)) with h1 | ⟨t, v, h1, h2, h3⟩
      · obtain ⟨v, hv⟩ := Option.ne_none_iff_exists'.1 h1
        exact .inl (by simp [σ, hv])
      · exact .inr ⟨t, ⟨v.alloc, v.start, elsAt s.o v.start, v.cap⟩, by simp only [σ, h1, Option.map_some], h2, h3⟩
    · intro i h
      simp [σ, hi.top i (by rw [hR.sp]; exact h)]
  refine ⟨σ, ⟨hinv, hR.inv, ?_, ?_⟩, ?_⟩
  · intro t u q hu hq
    obtain ⟨j, hj⟩ := List.getElem?_of_mem hq
    exact hR.live q ⟨_, j, hslot t u j q hu hj⟩
  · intro t u j t' u' j' q hu hu' hj hj'
    have h1 := hslot _ _ _ _ hu hj
    have h2 := hslot _ _ _ _ hu' hj'
    obtain ⟨h3, rfl⟩ := hR.uniq _ _ _ _ _ h1 h2
    refine ⟨hinv.st.disj _ _ _ _ hu hu' h3 ?_, rfl⟩
    intro e
    obtain ⟨b, h4, -⟩ := h1
    rw [e, hinv.st.null] at h4
    cases h4
  · funext t
    simp only [VO.lift, σ, Option.map_map]
    cases hv : τ t with
    | none => rfl
    | some v =>
      obtain ⟨h1, h2, -⟩ := hb t v hv
      have : (elsAt s.o v.start).filterMap (E.val s.i) = v.els := by
        have h3 : (elsAt s.o v.start).filterMap (E.val s.i) = ((elsAt s.o v.start).map (E.val s.i)).filterMap id := by
          rw [List.filterMap_map]; rfl
        rw [h3, h2, List.filterMap_map]
        simp
      simp only [Option.map_some, Function.comp, this]

end Nestl.VO
