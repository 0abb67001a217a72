import Verif.VectorOf.Rel
set_option autoImplicit false
/-
The single steps of the code of the vector do with objects what they do with values.
-/
namespace Nestl.VO
open Nestl.Vec (W VCell Obj Blk rdObj setObj rdBlk slotRd slotPut deallocate allocate newVec swapData)
open Classical

section runs
variable {V : Type} {w w' : W V} {s p : Ptr} {j : Nat}

theorem runs_rd {r : VCell V} : Runs (rd s) w r w' ↔ s ≠ .null ∧ w.heap s = some r ∧ w' = w := by
  unfold Runs rd
  by_cases hs : s = .null
  · rw [if_pos hs]
    exact ⟨fun h => by (cases h), fun h => (h.1 hs).elim⟩
  · rw [if_neg hs]
    rcases h : w.heap s with _ | c
    · exact ⟨fun h => by (cases h), fun h => by (cases h.2.1)⟩
    · constructor
      · intro h; cases h; exact ⟨hs, rfl, rfl⟩
      · rintro ⟨-, h2, h3⟩; cases h2; rw [h3]

theorem runs_rdObj {r : Obj} : Runs (rdObj s) w r w' ↔ s ≠ .null ∧ w.heap s = some (.obj r) ∧ w' = w := by
  unfold rdObj
  rw [runs_bind_iff]
  simp only [runs_rd]
  constructor
  · rintro ⟨c, t, ⟨h1, h2, rfl⟩, h3⟩
    cases c with
    | obj o => cases h3; exact ⟨h1, h2, rfl⟩
    | blk b => cases h3
  · rintro ⟨h1, h2, rfl⟩
    exact ⟨_, _, ⟨h1, h2, rfl⟩, rfl⟩

theorem runs_modCell {f : VCell V → VCell V} {r : Unit} : Runs (modCell s f) w r w' ↔
    s ≠ .null ∧ ∃ c, w.heap s = some c ∧ w' = w.setHeap (upd w.heap s (some (f c))) := by
  unfold Runs modCell
  by_cases hs : s = .null
  · rw [if_pos hs]
    exact ⟨fun h => by (cases h), fun h => (h.1 hs).elim⟩
  · rw [if_neg hs]
    rcases h : w.heap s with _ | c
    · exact ⟨fun h => by (cases h), fun ⟨_, _, h, _⟩ => by (cases h)⟩
    · constructor
      · intro h; cases h; exact ⟨hs, c, rfl, rfl⟩
      · rintro ⟨-, c', h2, h3⟩; cases h2; rw [h3]

theorem runs_rdBlk {r : Blk V} : Runs (rdBlk s) w r w' ↔ s ≠ .null ∧ w.heap s = some (.blk r) ∧ w' = w := by
  unfold rdBlk
  rw [runs_bind_iff]
  simp only [runs_rd]
  constructor
  · rintro ⟨c, t, ⟨h1, h2, rfl⟩, h3⟩
    cases c with
    | blk o => cases h3; exact ⟨h1, h2, rfl⟩
    | obj b => cases h3
  · rintro ⟨h1, h2, rfl⟩
    exact ⟨_, _, ⟨h1, h2, rfl⟩, rfl⟩

theorem runs_slotRd {v : V} : Runs (slotRd p j) w v w' ↔
    p ≠ .null ∧ (∃ b, w.heap p = some (.blk b) ∧ b.slots[j]? = some (some v)) ∧ w' = w := by
  unfold slotRd
  rw [runs_bind_iff]
  simp only [runs_rdBlk]
  constructor
  · rintro ⟨b, t, ⟨h1, h2, rfl⟩, h3⟩
    rcases e : b.slots[j]? with _ | (_ | x)
    · simp only [e] at h3; cases h3
    · simp only [e] at h3; cases h3
    · simp only [e] at h3; cases h3; exact ⟨h1, ⟨b, h2, e⟩, rfl⟩
  · rintro ⟨h1, ⟨b, h2, h3⟩, rfl⟩
    exact ⟨b, _, ⟨h1, h2, rfl⟩, by simp only [h3]; rfl⟩

/-- The block with slot `j` changed. -/
def putSlot (b : Blk V) (j : Nat) (x : Option V) : VCell V := .blk { b with slots := b.slots.set j x }

theorem runs_slotPut {v : V} {r : Unit} : Runs (slotPut p j v) w r w' ↔
    p ≠ .null ∧ ∃ b, w.heap p = some (.blk b) ∧ b.slots[j]? = some none ∧
      w' = w.setHeap (upd w.heap p (some (putSlot b j (some v)))) := by
  unfold slotPut
  rw [runs_bind_iff]
  simp only [runs_rdBlk]
  constructor
  · rintro ⟨b, t, ⟨h1, h2, rfl⟩, h3⟩
    rcases e : b.slots[j]? with _ | (_ | x)
    · simp only [e] at h3; cases h3
    · simp only [e] at h3
      obtain ⟨-, c, h4, h5⟩ := runs_modCell.1 h3
      exact ⟨h1, b, h2, e, h5⟩
    · simp only [e] at h3; cases h3
  · rintro ⟨h1, b, h2, h3, h4⟩
    exact ⟨b, _, ⟨h1, h2, rfl⟩, by simp only [h3]; exact runs_modCell.2 ⟨h1, _, h2, h4⟩⟩

theorem runs_destroySlot {r : Unit} : Runs (Vec.destroySlot p j : M (W V) Unit) w r w' ↔
    p ≠ .null ∧ ∃ b v, w.heap p = some (.blk b) ∧ b.slots[j]? = some (some v) ∧
      w' = w.setHeap (upd w.heap p (some (putSlot b j none))) := by
  unfold Vec.destroySlot
  rw [runs_bind_iff]
  simp only [runs_rdBlk]
  constructor
  · rintro ⟨b, t, ⟨h1, h2, rfl⟩, h3⟩
    rcases e : b.slots[j]? with _ | (_ | x)
    · simp only [e] at h3; cases h3
    · simp only [e] at h3; cases h3
    · simp only [e] at h3
      obtain ⟨-, c, h4, h5⟩ := runs_modCell.1 h3
      exact ⟨h1, b, x, h2, e, h5⟩
  · rintro ⟨h1, b, v, h2, h3, h4⟩
    exact ⟨b, _, ⟨h1, h2, rfl⟩, by simp only [h3]; exact runs_modCell.2 ⟨h1, _, h2, h4⟩⟩

end runs

variable {S A X α β : Type} {E : Elem S A X} {P : NS S → Prop} {u : (Ptr → Option A) × X}

/-- Predicates that only depend on the objects outside of vectors and on the error object. -/
def Stable (E : Elem S A X) (P : NS S → Prop) : Prop :=
  ∀ s s' : NS S, outside E s' = outside E s → s'.o.err = s.o.err → P s → P s'

/-- The objects outside of vectors are `u`. -/
def Keep (E : Elem S A X) (u : (Ptr → Option A) × X) (s : NS S) : Prop := outside E s = u

theorem Keep.stable : Stable E (Keep E u) := fun _ _ h1 _ h2 => h1.trans h2

theorem outside_eq {s s' : NS S} (hi : s'.i = s.i) (hs : ∀ p j q, Slot s'.o p j q ↔ Slot s.o p j q) :
    outside E s' = outside E s := by
  unfold outside Owned
  simp only [hi, hs]

/-- The vectors change, not their elements. -/
theorem Rel.mono {s s' : NS S} {w w' : W A} (h : Rel E s w) (hi : s'.i = s.i)
    (hs : ∀ p j q, Slot s'.o p j q ↔ Slot s.o p j q) (hh : ∀ p, w'.heap p = (s'.o.heap p).map (absCell (E.val s'.i)))
    (ht : ∀ p b, s'.o.heap p = some (.blk b) → ∃ a, p = .dyn a)
    (h1 : w'.env.addr = s'.o.env.addr) (h2 : w'.nAlloc = s'.o.nAlloc) (h3 : w'.sp = s'.o.sp)
    (h4 : w'.err.isSome = s'.o.err.isSome) : Rel E s' w' := by
  refine ⟨hi ▸ h.inv, hh, fun q hq => ?_, ht, fun p j p' j' q a b => ?_, h1, h2, h3, h4⟩
  · obtain ⟨p, j, hq⟩ := hq
    rw [hi]
    exact h.live q ⟨p, j, (hs _ _ _).1 hq⟩
  · exact h.uniq p j p' j' q ((hs _ _ _).1 a) ((hs _ _ _).1 b)

theorem sim_rdObj (p : Ptr) : Sim E P (onO (rdObj p)) (rdObj p) fun _ => P := by
  apply Sim.step
  intro s w hR hP r w' hr
  obtain ⟨h1, h2, rfl⟩ := runs_rdObj.1 hr
  exact ⟨s, runs_onO (runs_rdObj.2 ⟨h1, hR.heap_obj h2, rfl⟩), hR, hP, rfl, rfl, fun c => runs_rdObj.2 ⟨h1, h2, rfl⟩⟩

theorem sim_failed : Sim E P failed hasErr fun b s => P s ∧ s.o.err.isSome = b := by
  apply Sim.step
  intro s w hR hP r w' hr
  cases hr
  exact ⟨s, by rw [hR.err]; rfl, hR, ⟨hP, hR.err.symm⟩, rfl, rfl, fun _ => rfl⟩

theorem slot_upd {o : W Ptr} {p q x : Ptr} {j : Nat} {c : Option (VCell Ptr)}
    (h1 : ∀ b, o.heap p = some (.blk b) → ∀ (j : Nat) x, b.slots[j]? ≠ some (some x))
    (h2 : ∀ b, c = some (.blk b) → ∀ (j : Nat) x, b.slots[j]? ≠ some (some x)) {o' : W Ptr} (ho : o'.heap = upd o.heap p c) :
    Slot o' q j x ↔ Slot o q j x := by
  unfold Slot
  rw [ho, upd_apply]
  split
  · rename_i e; subst e
    constructor
    · rintro ⟨b, h3, h4⟩; exact (h2 b h3 j x h4).elim
    · rintro ⟨b, h3, h4⟩; exact (h1 b h3 j x h4).elim
  · rfl

theorem sim_setObj (hP : Stable E P) (k : Nat) (o : Obj) :
    Sim E P (onO (setObj (.stk k) o)) (setObj (.stk k) o) fun _ => P := by
  apply Sim.step
  intro s w hR h0 r w' hr
  obtain ⟨h1, c, h2, rfl⟩ := runs_modCell.1 hr
  obtain ⟨c', h3⟩ : ∃ c', s.o.heap (.stk k) = some c' := by
    cases e : s.o.heap (.stk k) with
    | none => rw [(hR.heap_none _).2 e] at h2; cases h2
    | some c' => exact ⟨c', rfl⟩
  have hs : ∀ p j q, Slot (s.o.setHeap (upd s.o.heap (.stk k) (some (.obj o)))) p j q ↔ Slot s.o p j q := by
    intro p j q
    apply slot_upd (p := .stk k) _ _ rfl
    · intro b hb
      obtain ⟨a, ha⟩ := hR.typed _ _ hb
      cases ha
    · intro b hb; cases hb
  refine ⟨⟨s.o.setHeap (upd s.o.heap (.stk k) (some (.obj o))), s.i⟩, runs_onO (runs_modCell.2 ⟨h1, c', h3, rfl⟩), ?_,
    hP s _ (outside_eq rfl hs) rfl h0, rfl, rfl, fun c => runs_modCell.2 ⟨h1, _, h2, rfl⟩⟩
  refine hR.mono rfl hs ?_ ?_ hR.addr hR.nAlloc hR.sp hR.err
  · intro p
    simp only [World.setHeap_heap, upd_apply]
    split
    · rfl
    · exact hR.heap p
  · intro p b hb
    simp only [World.setHeap_heap, upd_apply] at hb
    split at hb
    · cases hb
    · exact hR.typed _ _ hb

theorem sim_newVec (hP : Stable E P) (a : Nat) :
    Sim E P (onO (newVec a)) (newVec a) fun r s => P s ∧ ∃ k, r = .stk k := by
  apply Sim.step
  intro s w hR h0 r w' hr
  cases hr
  have hs : ∀ p j q, Slot { s.o with sp := s.o.sp + 1, heap := upd s.o.heap (.stk s.o.sp) (some (.obj ⟨a, .null, 0, 0⟩)) } p j q ↔
      Slot s.o p j q := by
    intro p j q
    apply slot_upd (p := .stk s.o.sp) _ _ rfl
    · intro b hb
      obtain ⟨a, ha⟩ := hR.typed _ _ hb
      cases ha
    · intro b hb; cases hb
  refine ⟨⟨{ s.o with sp := s.o.sp + 1, heap := upd s.o.heap (.stk s.o.sp) (some (.obj ⟨a, .null, 0, 0⟩)) }, s.i⟩,
    ?_, ?_, ⟨hP s _ (outside_eq rfl hs) rfl h0, _, rfl⟩, rfl, rfl, fun c => rfl⟩
  · rw [hR.sp]; exact runs_onO rfl
  refine hR.mono rfl hs ?_ ?_ hR.addr hR.nAlloc (by simp [hR.sp]) hR.err
  · intro p
    simp only [upd_apply, hR.sp]
    split
    · rfl
    · exact hR.heap p
  · intro p b hb
    simp only [upd_apply] at hb
    split at hb
    · cases hb
    · exact hR.typed _ _ hb

theorem sim_dropObj (hP : Stable E P) (k : Nat) :
    Sim E P (onO (dropObj (.stk k))) (dropObj (.stk k)) fun _ => P := by
  apply Sim.step
  intro s w hR h0 r w' hr
  have hn : w.heap (.stk k) ≠ none := by
    intro e; unfold Runs dropObj at hr; rw [e] at hr; cases hr
  obtain ⟨c, hc⟩ := Option.ne_none_iff_exists'.1 hn
  have : Runs (dropObj (.stk k)) w () (w.setHeap (upd w.heap (.stk k) none)) := by unfold Runs dropObj; rw [hc]
  obtain ⟨-, rfl⟩ := Runs.det hr this
  obtain ⟨c', h3⟩ : ∃ c', s.o.heap (.stk k) = some c' := by
    cases e : s.o.heap (.stk k) with
    | none => rw [(hR.heap_none _).2 e] at hc; cases hc
    | some c' => exact ⟨c', rfl⟩
  have hs : ∀ p j q, Slot (s.o.setHeap (upd s.o.heap (.stk k) none)) p j q ↔ Slot s.o p j q := by
    intro p j q
    apply slot_upd (p := .stk k) _ _ rfl
    · intro b hb
      obtain ⟨a, ha⟩ := hR.typed _ _ hb
      cases ha
    · intro b hb; cases hb
  refine ⟨⟨s.o.setHeap (upd s.o.heap (.stk k) none), s.i⟩, runs_onO (by unfold Runs dropObj; rw [h3]), ?_,
    hP s _ (outside_eq rfl hs) rfl h0, rfl, rfl, fun c => by unfold Runs dropObj oracle; simp only [hc]; rfl⟩
  refine hR.mono rfl hs ?_ ?_ hR.addr hR.nAlloc hR.sp hR.err
  · intro p
    simp only [World.setHeap_heap, upd_apply]
    split
    · rfl
    · exact hR.heap p
  · intro p b hb
    simp only [World.setHeap_heap, upd_apply] at hb
    split at hb
    · cases hb
    · exact hR.typed _ _ hb

theorem runs_deallocate {V : Type} {w w' : W V} {a n : Nat} {p : Ptr} {r : Unit} : Runs (deallocate a p n) w r w' ↔
    p = .null ∧ w' = w ∨ ∃ d b, p = .dyn d ∧ w.heap p = some (.blk b) ∧ b.owner = a ∧ b.count = n ∧
      b.slots.any Option.isSome = false ∧ w' = w.setHeap (upd w.heap p none) := by
  unfold Runs deallocate freeCell
  cases p with
  | null =>
    constructor
    · intro h; cases h; exact .inl ⟨rfl, rfl⟩
    · rintro (⟨-, rfl⟩ | ⟨d, b, h, -⟩)
      · rfl
      · cases h
  | stk k =>
    constructor
    · intro h; cases h
    · rintro (⟨h, -⟩ | ⟨d, b, h, -⟩) <;> cases h
  | dyn d =>
    simp only
    rcases h : w.heap (.dyn d) with _ | (o | b)
    · constructor
      · intro h; cases h
      · rintro (⟨h, -⟩ | ⟨d, b, -, h, -⟩) <;> cases h
    · constructor
      · intro h; cases h
      · rintro (⟨h, -⟩ | ⟨d, b, -, h, -⟩) <;> cases h
    · by_cases e1 : b.owner = a
      · by_cases e2 : b.count = n
        · cases e3 : b.slots.any Option.isSome
          · simp only [e1, e2, e3, ne_eq, not_true, if_false]
            constructor
            · intro h; cases h; exact .inr ⟨d, b, rfl, rfl, e1, e2, e3, rfl⟩
            · rintro (⟨h, -⟩ | ⟨d, b, h1, h2, h3, h4, h5, h6⟩)
              · cases h
              · cases h1; rw [h6]; rfl
          · simp only [e1, e2, e3, ne_eq, not_true, if_false, if_true]
            constructor
            · intro h; cases h
            · rintro (⟨h, -⟩ | ⟨d, b, h1, h2, h3, h4, h5, h6⟩)
              · cases h
              · cases h2; rw [e3] at h5; cases h5
        · simp only [e1, e2, ne_eq, not_true, if_false, not_false_eq_true, if_true]
          constructor
          · intro h; cases h
          · rintro (⟨h, -⟩ | ⟨d, b, h1, h2, h3, h4, h5, h6⟩)
            · cases h
            · cases h2; exact (e2 h4).elim
      · simp only [e1, ne_eq, not_false_eq_true, if_true]
        constructor
        · intro h; cases h
        · rintro (⟨h, -⟩ | ⟨d, b, h1, h2, h3, h4, h5, h6⟩)
          · cases h
          · cases h2; exact (e1 h3).elim

theorem sim_deallocate (hP : Stable E P) (a : Nat) (p : Ptr) (n : Nat) :
    Sim E P (onO (deallocate a p n)) (deallocate a p n) fun _ => P := by
  apply Sim.step
  intro s w hR h0 r w' hr
  rcases runs_deallocate.1 hr with ⟨rfl, rfl⟩ | ⟨d, b, rfl, h2, h3, h4, h5, rfl⟩
  · exact ⟨s, runs_onO (runs_deallocate.2 (.inl ⟨rfl, rfl⟩)), hR, h0, rfl, rfl, fun _ => runs_deallocate.2 (.inl ⟨rfl, rfl⟩)⟩
  · obtain ⟨b', h6, rfl⟩ := hR.heap_blk h2
    have hraw : ∀ (j : Nat) x, b'.slots[j]? ≠ some (some x) := by
      intro j x hx
      have := hR.live x ⟨_, _, b', h6, hx⟩
      obtain ⟨y, hy⟩ := Option.ne_none_iff_exists'.1 this
      have hm : some x ∈ b'.slots := List.mem_of_getElem? hx
      simp only [List.any_eq_false, List.mem_map] at h5
      have := h5 (some y) ⟨_, hm, hy⟩
      simp at this
    have hs : ∀ p j q, Slot (s.o.setHeap (upd s.o.heap (.dyn d) none)) p j q ↔ Slot s.o p j q := by
      intro p j q
      apply slot_upd (p := .dyn d) _ _ rfl
      · intro b hb
        rw [h6] at hb; cases hb; exact hraw
      · intro b hb; cases hb
    refine ⟨⟨s.o.setHeap (upd s.o.heap (.dyn d) none), s.i⟩, runs_onO (runs_deallocate.2 (.inr ⟨d, b', rfl, h6, h3, h4, ?_, rfl⟩)),
      ?_, hP s _ (outside_eq rfl hs) rfl h0, rfl, rfl, fun c => runs_deallocate.2 (.inr ⟨d, _, rfl, h2, h3, h4, h5, rfl⟩)⟩
    · rw [List.any_eq_false]
      intro x hx
      cases x with
      | none => simp
      | some x =>
        obtain ⟨j, hj⟩ := List.getElem?_of_mem hx
        exact (hraw j x hj).elim
    refine hR.mono rfl hs ?_ ?_ hR.addr hR.nAlloc hR.sp hR.err
    · intro p
      simp only [World.setHeap_heap, upd_apply]
      split
      · rfl
      · exact hR.heap p
    · intro p b hb
      simp only [World.setHeap_heap, upd_apply] at hb
      split at hb
      · cases hb
      · exact hR.typed _ _ hb

/-- Values take as much space as objects. -/
@[reducible] def valueSize (A : Type) [z : Vec.ElemSize Ptr] : Vec.ElemSize A := ⟨z.size, z.pos, z.small⟩

/-- Predicates that only depend on the objects outside of vectors. -/
def Loose (E : Elem S A X) (P : NS S → Prop) : Prop := ∀ s s' : NS S, outside E s' = outside E s → P s → P s'

theorem Loose.stable (h : Loose E P) : Stable E P := fun s s' h1 _ => h s s' h1

theorem Keep.loose : Loose E (Keep E u) := fun _ _ h1 h2 => h1.trans h2

theorem sim_allocate [Vec.ElemSize Ptr] (hP : Loose E P) (a n : Nat) :
    Sim E P (onO (allocate a n)) (@allocate A (valueSize A) a n) fun _ => P := by
  apply Sim.step
  intro s w hR h0 r w' hr
  have hno : ∀ o' : W Ptr, o'.heap = s.o.heap → P ⟨o', s.i⟩ :=
    fun o' ho => hP s _ (outside_eq rfl fun p j q => by simp only [Slot, ho]) h0
  have hrel : ∀ (o' : W Ptr) (w' : W A), o'.heap = s.o.heap → w'.heap = w.heap → w'.env.addr = o'.env.addr →
      w'.nAlloc = o'.nAlloc → w'.sp = o'.sp → w'.err.isSome = o'.err.isSome → Rel E ⟨o', s.i⟩ w' := by
    intro o' w' ho hw e1 e2 e3 e4
    exact hR.mono rfl (fun p j q => by simp only [Slot, ho]) (fun p => by rw [hw]; simp only [ho]; exact hR.heap p)
      (fun p b hb => hR.typed p b (by simp only [ho] at hb; exact hb)) e1 e2 e3 e4
  unfold allocate at hr
  unfold Runs at hr
  by_cases hb : Vec.maxBytes < Vec.wrap (n * (valueSize A).size)
  · simp only [if_pos hb] at hr
    cases hr
    refine ⟨⟨{ s.o with nAlloc := s.o.nAlloc + 1, err := some .badAlloc }, s.i⟩, runs_onO ?_,
      hrel _ _ rfl rfl hR.addr (by simp [hR.nAlloc]) hR.sp rfl, hno _ rfl, rfl, rfl, ?_⟩
    · unfold Runs allocate; simp only [show Vec.maxBytes < Vec.wrap (n * Vec.ElemSize.size Ptr) from hb, if_true]
    · intro c
      unfold Runs allocate; simp only [if_pos hb]; rfl
  · have hb' : ¬ Vec.maxBytes < Vec.wrap (n * Vec.ElemSize.size Ptr) := hb
    simp only [if_neg hb] at hr
    unfold allocCell at hr
    cases e1 : w.env.addr w.nAlloc with
    | none =>
      simp only [e1] at hr
      cases hr
      refine ⟨⟨{ s.o with nAlloc := s.o.nAlloc + 1, err := some .badAlloc }, s.i⟩, runs_onO ?_,
        hrel _ _ rfl rfl hR.addr (by simp [hR.nAlloc]) hR.sp rfl, hno _ rfl, rfl, rfl, ?_⟩
      · unfold Runs allocate allocCell; rw [hR.addr, hR.nAlloc] at e1; simp only [hb', if_false, e1]
      · intro c
        unfold Runs allocate allocCell oracle; simp only [if_neg hb, e1]
    | some d =>
      cases e2 : w.heap (.dyn d) with
      | some c =>
        simp only [e1, e2] at hr
        cases hr
        obtain ⟨c', h3⟩ : ∃ c', s.o.heap (.dyn d) = some c' := by
          cases e : s.o.heap (.dyn d) with
          | none => rw [(hR.heap_none _).2 e] at e2; cases e2
          | some c' => exact ⟨c', rfl⟩
        refine ⟨⟨{ s.o with nAlloc := s.o.nAlloc + 1, err := some .badAlloc }, s.i⟩, runs_onO ?_,
          hrel _ _ rfl rfl hR.addr (by simp [hR.nAlloc]) hR.sp rfl, hno _ rfl, rfl, rfl, ?_⟩
        · unfold Runs allocate allocCell; rw [hR.addr, hR.nAlloc] at e1; simp only [hb', if_false, e1, h3]
        · intro c
          unfold Runs allocate allocCell oracle; simp only [if_neg hb, e1, e2]
      | none =>
        simp only [e1, e2] at hr
        cases hr
        have h3 := (hR.heap_none _).1 e2
        have hs : ∀ (o' : W Ptr) m, o'.heap = upd s.o.heap (.dyn d) (some (.blk ⟨List.replicate m none, a, n⟩)) → ∀ p j q,
            Slot o' p j q ↔ Slot s.o p j q := by
          intro o' m ho p j q
          apply slot_upd (p := .dyn d) _ _ ho
          · intro b hb; rw [h3] at hb; cases hb
          · intro b hb j x
            cases hb
            simp only [List.getElem?_replicate]
            split <;> simp
        refine ⟨⟨({ s.o with nAlloc := s.o.nAlloc + 1 } : W Ptr).setHeap (upd s.o.heap (.dyn d)
            (some (.blk ⟨List.replicate (Vec.wrap (n * Vec.ElemSize.size Ptr) / Vec.ElemSize.size Ptr) none, a, n⟩))), s.i⟩,
          runs_onO ?_, ?_, hP s _ (outside_eq rfl (hs _ _ rfl)) h0, rfl, rfl, ?_⟩
        · unfold Runs allocate allocCell; rw [hR.addr, hR.nAlloc] at e1; simp only [hb', if_false, e1, h3]
        · refine hR.mono rfl (hs _ _ rfl) ?_ ?_ hR.addr (by simp [hR.nAlloc]) hR.sp hR.err
          · intro p
            simp only [World.setHeap_heap, upd_apply]
            split
            · simp [absCell]; rfl
            · exact hR.heap p
          · intro p b hb
            simp only [World.setHeap_heap, upd_apply] at hb
            split at hb
            · exact ⟨d, ‹_›⟩
            · exact hR.typed _ _ hb
        · intro c
          unfold Runs allocate allocCell oracle; simp only [if_neg hb, e1, e2]; rfl

/-! ### Elements come and go -/

theorem slot_put {o o' : W Ptr} {p q x : Ptr} {i j : Nat} {b : Blk Ptr} {y : Option Ptr} (hp : o.heap p = some (.blk b))
    (hi : i < b.slots.length) (ho : o'.heap = upd o.heap p (some (putSlot b i y))) :
    Slot o' q j x ↔ if q = p ∧ j = i then y = some x else Slot o q j x := by
  unfold Slot putSlot at *
  rw [ho, upd_apply]
  by_cases e : q = p
  · subst e
    by_cases e2 : j = i
    · subst e2; simp [hi]
    · have e2' : ¬ i = j := fun h => e2 h.symm
      simp [e2, e2', hp, List.getElem?_set]
  · simp [e]

theorem val_ne {f : Ptr → Option A} {q x : Ptr} {y : Option A} (h : x ≠ q) : upd f q y x = f x := upd_other _ _ h

/-- Slot values after a new object has been created and put into slot `i`. -/
theorem Rel.put {s : NS S} {w : W A} (h : Rel E s w) {p : Ptr} {b : Blk Ptr} {i : Nat} {q : Ptr} {a : A} {i' : S} {w' : W A}
    {f : Ptr → Option A} (hp : s.o.heap p = some (.blk b)) (hi : b.slots[i]? = some none) (hq : E.val s.i q = none)
    (hf : ∀ x, Owned s.o x → f x = E.val s.i x)
    (hv : E.val i' = upd f q (some a)) (hin : E.inv i')
    (hw : w'.heap = upd w.heap p (some (putSlot ⟨b.slots.map fun x => x.bind (E.val s.i), b.owner, b.count⟩ i (some a))))
    (h1 : w'.env.addr = w.env.addr) (h2 : w'.nAlloc = w.nAlloc) (h3 : w'.sp = w.sp) (h4 : w'.err = w.err) :
    Rel E ⟨s.o.setHeap (upd s.o.heap p (some (putSlot b i (some q)))), i'⟩ w' := by
  have hlt : i < b.slots.length := by
    apply Classical.byContradiction; intro hn
    rw [List.getElem?_eq_none (by omega)] at hi; cases hi
  have hno : ¬ Owned s.o q := fun h5 => h.live q h5 hq
  have hs := fun x y j => slot_put (o' := s.o.setHeap (upd s.o.heap p (some (putSlot b i (some q)))))
    (y := some q) (q := x) (x := y) (j := j) hp hlt rfl
  have hval : ∀ x, Owned s.o x → E.val i' x = E.val s.i x := by
    intro x hx
    rw [hv, upd_other _ _ (by rintro rfl; exact hno hx)]
    exact hf x hx
  have hmap : ∀ (b1 : Blk Ptr) r, s.o.heap r = some (.blk b1) →
      (b1.slots.map fun x => x.bind (E.val i')) = b1.slots.map fun x => x.bind (E.val s.i) := by
    intro b1 r hr
    apply List.map_congr_left
    intro x hx
    cases x with
    | none => rfl
    | some x =>
      obtain ⟨j, hj⟩ := List.getElem?_of_mem hx
      exact hval x ⟨r, j, b1, hr, hj⟩
  refine ⟨hin, ?_, ?_, ?_, ?_, h1.trans h.addr, h2.trans h.nAlloc, h3.trans h.sp, by rw [h4]; exact h.err⟩
  · intro r
    simp only [World.setHeap_heap, hw, upd_apply]
    split
    · rename_i e; subst e
      simp only [Option.map_some, absCell, putSlot, List.map_set, Option.bind_some, hv, upd_same]
      rw [← hv, hmap b r hp]
    · rw [h.heap r]
      cases e : s.o.heap r with
      | none => rfl
      | some c =>
        cases c with
        | obj o => rfl
        | blk b1 => simp only [Option.map_some, absCell, hmap b1 r e]
  · rintro x ⟨r, j, hx⟩
    rw [hs] at hx
    split at hx
    · cases hx; simp [hv]
    · rw [hval x ⟨_, _, hx⟩]; exact h.live x ⟨_, _, hx⟩
  · intro r b1 hr
    simp only [World.setHeap_heap, upd_apply] at hr
    split at hr
    · rename_i e; subst e; exact h.typed _ _ hp
    · exact h.typed _ _ hr
  · intro r j r' j' x hx hx'
    rw [hs] at hx hx'
    split at hx <;> split at hx'
    · rename_i e1 e2; exact ⟨e1.1.trans e2.1.symm, e1.2.trans e2.2.symm⟩
    · cases hx; exact (hno ⟨_, _, hx'⟩).elim
    · cases hx'; exact (hno ⟨_, _, hx⟩).elim
    · exact h.uniq _ _ _ _ _ hx hx'

/-- The objects outside after a new object has been put into slot `i`. -/
theorem outside_put {s : NS S} {w : W A} (h : Rel E s w) {p : Ptr} {b : Blk Ptr} {i : Nat} {q : Ptr} {a : A} {i' : S}
    {f : Ptr → Option A} (hp : s.o.heap p = some (.blk b)) (hi : b.slots[i]? = some none) (hq : E.val s.i q = none)
    (hv : E.val i' = upd f q (some a)) (hr : E.rest i' = E.rest s.i) :
    outside E ⟨s.o.setHeap (upd s.o.heap p (some (putSlot b i (some q)))), i'⟩ =
      (fun x => if Owned s.o x then none else if x = q then none else f x, E.rest s.i) := by
  have hlt : i < b.slots.length := by
    apply Classical.byContradiction; intro hn
    rw [List.getElem?_eq_none (by omega)] at hi; cases hi
  have hs := fun x y j => slot_put (o' := s.o.setHeap (upd s.o.heap p (some (putSlot b i (some q)))))
    (y := some q) (q := x) (x := y) (j := j) hp hlt rfl
  have hown : ∀ x, Owned (s.o.setHeap (upd s.o.heap p (some (putSlot b i (some q))))) x ↔ Owned s.o x ∨ x = q := by
    intro x
    constructor
    · rintro ⟨r, j, hx⟩
      rw [hs] at hx
      split at hx
      · cases hx; exact .inr rfl
      · exact .inl ⟨_, _, hx⟩
    · rintro (⟨r, j, hx⟩ | rfl)
      · refine ⟨r, j, (hs _ _ _).2 ?_⟩
        split
        · rename_i e
          obtain ⟨rfl, rfl⟩ := e
          obtain ⟨b1, k1, k2⟩ := hx
          rw [hp] at k1; cases k1
          rw [hi] at k2; cases k2
        · exact hx
      · exact ⟨p, i, (hs _ _ _).2 (by simp)⟩
  unfold outside
  simp only [hown, hr, hv, upd_apply]
  congr 1
  funext x
  by_cases e1 : Owned s.o x <;> by_cases e2 : x = q <;> simp [e1, e2]

end Nestl.VO
