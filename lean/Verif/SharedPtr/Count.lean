import Verif.SharedPtr.Client
set_option autoImplicit false
/-
Counting handles, and what the counts say about objects and control blocks.
-/
namespace Nestl.SP

variable {V : Type}

/-- Exactly `n` things have the property `P`. -/
def Card {α : Type} (P : α → Prop) (n : Nat) : Prop := ∃ l : List α, l.Nodup ∧ (∀ x, x ∈ l ↔ P x) ∧ l.length = n

/-- The handle of kind `k` at `l` refers to the object (or control block) `b`. -/
def Refers (w : W V) (k : Kind) (l : Loc) (b : Ptr) : Prop := b ≠ .null ∧ ∃ z, At w.heap k l z ∧ z.ref = b

/-- There is an empty handle of kind `k` at `l`. -/
def Empty (w : W V) (k : Kind) (l : Loc) : Prop := At w.heap k l .nil

/-- The object `b` is alive (constructed and not yet destroyed). -/
def Alive (w : W V) (b : Ptr) : Prop := ∃ v, Val w.heap b v

/-- There is a control block at `b`. -/
def Block (w : W V) (b : Ptr) : Prop := ∃ c, w.heap b = some (.blk c)

/-- Positions, counted from `i`, of the handles of kind `k` to block `b`. -/
def idxs (k : Kind) (b : Ptr) : List (Kind × Hnd) → Nat → List Nat
  | [], _ => []
  | m :: l, i => if m.1 = k ∧ m.2.ref = b then i :: idxs k b l (i + 1) else idxs k b l (i + 1)

theorem mem_idxs (k b) (l : List (Kind × Hnd)) (i j : Nat) :
    j ∈ idxs k b l i ↔ i ≤ j ∧ ∃ x, l[j - i]? = some (k, x) ∧ x.ref = b := by
  induction l generalizing i with
  | nil => simp [idxs]
  | cons m l ih =>
    have key : j ∈ idxs k b l (i + 1) ↔ i + 1 ≤ j ∧ ∃ x, (m :: l)[j - i]? = some (k, x) ∧ x.ref = b := by
      rw [ih]
      apply and_congr_right
      intro hij
      rw [show j - i = j - (i + 1) + 1 by omega, List.getElem?_cons_succ]
    unfold idxs
    split
    · rename_i hm
      rw [List.mem_cons, key]
      constructor
      · rintro (rfl | ⟨h1, h2⟩)
        · refine ⟨Nat.le_refl _, m.2, ?_, hm.2⟩
          simp [← hm.1]
        · exact ⟨by omega, h2⟩
      · rintro ⟨h1, h2⟩
        by_cases e : j = i
        · exact .inl e
        · exact .inr ⟨by omega, h2⟩
    · rename_i hm
      rw [key]
      constructor
      · rintro ⟨h1, h2⟩; exact ⟨by omega, h2⟩
      · rintro ⟨h1, x, h2, h3⟩
        refine ⟨?_, x, h2, h3⟩
        by_cases e : j = i
        · subst e; simp at h2; subst h2; exact (hm ⟨rfl, h3⟩).elim
        · omega

theorem nodup_idxs (k b) (l : List (Kind × Hnd)) (i : Nat) : (idxs k b l i).Nodup := by
  induction l generalizing i with
  | nil => exact List.nodup_nil
  | cons m l ih =>
    unfold idxs
    split
    · refine List.nodup_cons.2 ⟨?_, ih _⟩
      intro h; have := ((mem_idxs _ _ _ _ _).1 h).1; omega
    · exact ih _

theorem length_idxs (k b) (l : List (Kind × Hnd)) (i : Nat) : (idxs k b l i).length = memRefs k b l := by
  induction l generalizing i with
  | nil => rfl
  | cons m l ih =>
    unfold idxs
    simp only [memRefs, List.map_cons, List.sum_cons, ind] at ih ⊢
    split
    · rw [List.length_cons, ih]; omega
    · rw [ih]; omega

/-- The locations in the cell at `p` of handles of kind `k` to block `b`. -/
def locsIn (k : Kind) (b p : Ptr) : Option (Cell V) → List Loc
  | some (.var k' x) => if k' = k ∧ x.ref = b then [.var p] else []
  | some (.blk c) => match c.obj with
    | some o => (idxs k b o.mem 0).map (.mem p)
    | none => []
  | _ => []

theorem length_locsIn (k b p) (c : Option (Cell V)) : (locsIn k b p c).length = refsOf k b c := by
  rcases c with _ | (⟨k', x⟩ | ⟨u, n, _ | o, ow⟩ | o | _) <;> simp only [locsIn, refsOf] <;> try rfl
  · unfold ind
    split <;> rfl
  · rw [List.length_map, length_idxs]

theorem mem_locsIn (k b p) (h : Heap V) (l : Loc) :
    l ∈ locsIn k b p (h p) ↔ (l = .var p ∨ ∃ i, l = .mem p i) ∧ ∃ z, At h k l z ∧ z.ref = b := by
  constructor
  · intro hl
    cases hp : h p with
    | none => rw [hp] at hl; simp [locsIn] at hl
    | some c =>
      rw [hp] at hl
      cases c with
      | var k' x =>
        simp only [locsIn] at hl
        split at hl
        · rename_i hc
          simp at hl; subst hl
          refine ⟨.inl rfl, x, ?_, hc.2⟩
          show h p = _
          rw [hp, hc.1]
        · cases hl
      | blk c =>
        simp only [locsIn] at hl
        cases ho : c.obj with
        | none => rw [ho] at hl; cases hl
        | some o =>
          rw [ho] at hl
          obtain ⟨i, hi, rfl⟩ := List.mem_map.1 hl
          obtain ⟨-, x, h1, h2⟩ := (mem_idxs _ _ _ _ _).1 hi
          exact ⟨.inr ⟨i, rfl⟩, x, ⟨c, o, hp, ho, by simpa using h1⟩, h2⟩
      | raw o => cases hl
      | lost => cases hl
  · rintro ⟨rfl | ⟨i, rfl⟩, z, hz, rfl⟩
    · have hz : h p = _ := hz
      rw [hz]; simp [locsIn]
    · obtain ⟨c, o, h1, h2, h3⟩ := hz
      rw [h1]; simp only [locsIn, h2]
      exact List.mem_map.2 ⟨i, (mem_idxs _ _ _ _ _).2 ⟨Nat.zero_le _, z, by simpa using h3, rfl⟩, rfl⟩

theorem nodup_locsIn (k b p) (c : Option (Cell V)) : (locsIn k b p c).Nodup := by
  rcases c with _ | (⟨k', x⟩ | ⟨u, n, _ | o, ow⟩ | o | _) <;> simp only [locsIn] <;> try exact List.nodup_nil
  · split <;> simp
  · refine List.Pairwise.map _ ?_ (nodup_idxs k b o.mem 0)
    intro x y hne e; cases e; exact hne rfl

/-- The totals count the handles. -/
theorem card_tot {dom : List Ptr} {h : Heap V} (hn : dom.Nodup) (hcov : ∀ p, h p ≠ none → p ∈ dom) (k : Kind) (b : Ptr) :
    Card (fun l => ∃ z, At h k l z ∧ z.ref = b) (tot dom h k b) := by
  refine ⟨dom.flatMap fun p => locsIn k b p (h p), ?_, ?_, ?_⟩
  · unfold List.Nodup
    rw [List.pairwise_flatMap]
    refine ⟨fun p _ => nodup_locsIn k b p _, hn.imp ?_⟩
    intro p q hne x hx y hy e
    subst e
    obtain ⟨h1, -⟩ := (mem_locsIn _ _ _ _ _).1 hx
    obtain ⟨h2, -⟩ := (mem_locsIn _ _ _ _ _).1 hy
    rcases h1 with rfl | ⟨i, rfl⟩ <;> rcases h2 with h | ⟨j, h⟩ <;> cases h <;> exact hne rfl
  · intro l
    rw [List.mem_flatMap]
    constructor
    · rintro ⟨p, -, hl⟩; exact ((mem_locsIn _ _ _ _ _).1 hl).2
    · rintro ⟨z, hz, e⟩
      cases l with
      | var p =>
        have hz' : h p = _ := hz
        exact ⟨p, hcov p (by rw [hz']; simp), (mem_locsIn _ _ _ _ _).2 ⟨.inl rfl, z, hz, e⟩⟩
      | mem p i =>
        have hz' := hz
        obtain ⟨c, o, h1, -⟩ := hz'
        exact ⟨p, hcov p (by rw [h1]; simp), (mem_locsIn _ _ _ _ _).2 ⟨.inr ⟨i, rfl⟩, z, hz, e⟩⟩
  · rw [List.length_flatMap]
    unfold tot
    congr 1
    apply List.map_congr_left
    intro p _; exact length_locsIn k b p _

theorem Card.unique {α : Type} {P : α → Prop} {n m : Nat} (h1 : Card P n) (h2 : Card P m) : n = m := by
  obtain ⟨l1, n1, m1, rfl⟩ := h1
  obtain ⟨l2, n2, m2, rfl⟩ := h2
  have := (List.perm_ext_iff_of_nodup n1 n2).2 (fun a => (m1 a).trans (m2 a).symm)
  exact this.length_eq

theorem Card.congr {α : Type} {P Q : α → Prop} {n : Nat} (h : Card P n) (e : ∀ x, P x ↔ Q x) : Card Q n :=
  let ⟨l, h1, h2, h3⟩ := h
  ⟨l, h1, fun x => (h2 x).trans (e x), h3⟩

theorem Card.pos {α : Type} {P : α → Prop} {n : Nat} (h : Card P n) : 0 < n ↔ ∃ x, P x := by
  obtain ⟨l, h1, h2, rfl⟩ := h
  rw [List.length_pos_iff_exists_mem]
  exact exists_congr h2

section
variable {w : W V}

theorem Ok.empty_or (h : Ok w) {k : Kind} {l : Loc} {z : Hnd} (hz : At w.heap k l z) : Empty w k l ∨ Refers w k l z.ref := by
  by_cases hr : z.ref = .null
  · left
    have := h.same _ _ _ hz
    obtain ⟨p, r⟩ := z
    simp at hr this; subst this; subst hr; exact hz
  · exact .inr ⟨hr, z, hz, rfl⟩

theorem Ok.refers (h : Ok w) {k : Kind} {l : Loc} {b : Ptr} (hr : Refers w k l b) : At w.heap k l ⟨b, b⟩ := by
  obtain ⟨-, z, hz, rfl⟩ := hr
  have := h.same _ _ _ hz
  obtain ⟨p, r⟩ := z
  simp at this; subst this; exact hz

theorem Refers.det {k k' : Kind} {l : Loc} {b b' : Ptr} (h1 : Refers w k l b) (h2 : Refers w k' l b') : k = k' ∧ b = b' := by
  obtain ⟨-, z, hz, rfl⟩ := h1
  obtain ⟨-, z', hz', rfl⟩ := h2
  obtain ⟨rfl, rfl⟩ := hz.det hz'
  exact ⟨rfl, rfl⟩

/-- Control blocks hold the right counts. -/
theorem Ok.counts (h : Ok w) {b : Ptr} {c : Blk V} (hb : w.heap b = some (.blk c)) :
    Card (fun l => Refers w .sh l b) c.use ∧ Card (fun l => Refers w .wk l b) c.weak ∧ (c.obj ≠ none ↔ 0 < c.use) ∧ 0 < c.use + c.weak := by
  obtain ⟨dom, hi⟩ := h.g.inv
  have hn := hi.ne_null hb
  have h1 := hi.use _ _ hb
  have h2 := hi.weak _ _ hb
  simp only [zero] at h1 h2
  have e1 : c.use = tot dom w.heap .sh b := by omega
  have e2 : c.weak = tot dom w.heap .wk b := by omega
  refine ⟨?_, ?_, hi.life _ _ hb (by simp)⟩
  · rw [e1]; exact (card_tot hi.nd hi.cov _ _).congr fun l => ⟨fun h => ⟨hn, h⟩, fun h => h.2⟩
  · rw [e2]; exact (card_tot hi.nd hi.cov _ _).congr fun l => ⟨fun h => ⟨hn, h⟩, fun h => h.2⟩

theorem Ok.block (h : Ok w) {k : Kind} {l : Loc} {b : Ptr} (hr : Refers w k l b) : Block w b := by
  obtain ⟨hn, z, hz, rfl⟩ := hr
  exact h.g.target hz hn

theorem Ok.alive_iff (h : Ok w) (b : Ptr) : Alive w b ↔ ∃ l, Refers w .sh l b := by
  constructor
  · rintro ⟨v, c, o, h1, h2, -⟩
    obtain ⟨hu, -, hl, -⟩ := h.counts h1
    exact hu.pos.1 (hl.1 (by rw [h2]; simp))
  · rintro ⟨l, hr⟩
    obtain ⟨c, hc⟩ := h.block hr
    obtain ⟨hu, -, hl, -⟩ := h.counts hc
    have := hl.2 (hu.pos.2 ⟨l, hr⟩)
    cases ho : c.obj with
    | none => exact (this ho).elim
    | some o => exact ⟨o.val, c, o, hc, ho, rfl⟩

theorem Ok.block_iff (h : Ok w) (b : Ptr) : Block w b ↔ ∃ k l, Refers w k l b := by
  constructor
  · rintro ⟨c, hc⟩
    obtain ⟨hu, hw, -, hp⟩ := h.counts hc
    by_cases h0 : 0 < c.use
    · obtain ⟨l, hl⟩ := hu.pos.1 h0; exact ⟨_, l, hl⟩
    · obtain ⟨l, hl⟩ := hw.pos.1 (by omega); exact ⟨_, l, hl⟩
  · rintro ⟨k, l, hr⟩; exact h.block hr

/-- Dynamic memory consists of control blocks. -/
theorem Ok.dyn (h : Ok w) {a : Nat} (ha : w.heap (.dyn a) ≠ none) : Block w (.dyn a) := by
  obtain ⟨dom, hi⟩ := h.g.inv
  cases hh : w.heap (.dyn a) with
  | none => exact (ha hh).elim
  | some c =>
    cases c with
    | var k x => obtain ⟨i, hi⟩ := hi.shVar _ _ _ hh; cases hi
    | blk c => exact ⟨c, hh⟩
    | raw o => exact (hi.shRaw _ _ hh).elim
    | lost => obtain ⟨i, hi⟩ := hi.shLost _ hh; cases hi

theorem Reaches.trans {A : Hs} {x y z : Ptr} (h1 : Reaches A x y) (h2 : Reaches A y z) : Reaches A x z := by
  induction h2 with
  | refl => exact h1
  | step _ ho ih => exact ih.step ho

theorem Nodup.length_le {α : Type} [DecidableEq α] {l m : List α} (hl : l.Nodup) (hs : ∀ x ∈ l, x ∈ m) : l.length ≤ m.length := by
  induction l generalizing m with
  | nil => exact Nat.zero_le _
  | cons a l ih =>
    rw [List.nodup_cons] at hl
    have ham := hs a List.mem_cons_self
    have := ih hl.2 (m := m.erase a) (by
      intro x hx
      refine (List.mem_erase_of_ne ?_).2 (hs x (List.mem_cons_of_mem _ hx))
      rintro rfl; exact hl.1 hx)
    rw [List.length_erase_of_mem ham] at this
    have := List.length_pos_of_mem ham
    simp only [List.length_cons]; omega

/-- No object owns itself, directly or through other objects. -/
def Acyclic (A : Hs) : Prop := ∀ x y, Owns A x y → ¬ Reaches A y x

/-- Without variables, and without cycles of ownership, nothing remains allocated. -/
theorem Ok.nothing_left (h : Ok w) (hv : ∀ k p z, ¬ At w.heap k (.var p) z) (hac : Acyclic (At w.heap)) :
    ∀ a, w.heap (.dyn a) = none := by
  have hno : ∀ b, ¬ Alive w b := by
    intro b hb
    obtain ⟨dom, hi⟩ := h.g.inv
    have chain : ∀ n, ∃ x l, (x :: l).Nodup ∧ l.length = n ∧ (∀ y ∈ x :: l, Alive w y ∧ Reaches (At w.heap) x y) := by
      intro n
      induction n with
      | zero => exact ⟨b, [], by simp, rfl, by intro y hy; simp at hy; subst hy; exact ⟨hb, .refl _⟩⟩
      | succ n ih =>
        obtain ⟨x, l, h1, h2, h3⟩ := ih
        obtain ⟨hax, -⟩ := h3 x List.mem_cons_self
        obtain ⟨loc, hr⟩ := (h.alive_iff x).1 hax
        obtain ⟨hn, z, hz, e⟩ := hr
        cases loc with
        | var p => exact (hv _ _ _ hz).elim
        | mem y i =>
          have ho : Owns (At w.heap) y x := ⟨i, z, hz, e⟩
          obtain ⟨v, hva⟩ := memOk_heap w.heap _ _ _ _ hz
          refine ⟨y, x :: l, List.nodup_cons.2 ⟨?_, h1⟩, by simp [h2], ?_⟩
          · intro hy; exact hac y x ho (h3 y hy).2
          · intro u hu
            rcases List.mem_cons.1 hu with rfl | hu
            · exact ⟨⟨v, hva⟩, .refl _⟩
            · exact ⟨(h3 u hu).1, ((Reaches.refl y).step ho).trans (h3 u hu).2⟩
    obtain ⟨x, l, h1, h2, h3⟩ := chain dom.length
    have := Nodup.length_le h1 (m := dom) (by
      intro y hy
      obtain ⟨v, c, o, e, -⟩ := (h3 y hy).1
      exact hi.cov _ (by rw [e]; simp))
    simp at this; omega
  intro a
  cases hh : w.heap (.dyn a) with
  | none => rfl
  | some c =>
    obtain ⟨k, l, hr⟩ := (h.block_iff (.dyn a)).1 (h.dyn (by rw [hh]; simp))
    obtain ⟨-, z, hz, -⟩ := hr
    cases l with
    | var p => exact (hv _ _ _ hz).elim
    | mem y i => exact (hno y (memOk_heap w.heap _ _ _ _ hz)).elim

end

end Nestl.SP
