import Verif.TreeOf.Abs
import Verif.TreeOf.Build
set_option autoImplicit false
/-
The invariant of trees of objects, and its relation to trees of values.
-/
namespace Nestl.TO
open Nestl.VO (Elem ElemOps)
open Nestl.NO
open Nestl.RB (TNode T Tree Rep firstP lastP hdCell cellS PtrsOk)
open Nestl.Set (InvP Alive Contents contents_iff posOf)
variable {S A X : Type} {E : Elem S A X} {s : ST S}

/-! ### Trees of objects and trees of values -/

/-- The tree `t` has the values where `t°` has the objects; `f` are the values of the objects. -/
def Lifts (f : Ptr → Option A) : T Ptr → T A → Prop
  | .nil, .nil => True
  | .node p c l q r, .node p' c' l' x r' => p = p' ∧ c = c' ∧ f q = some x ∧ Lifts f l l' ∧ Lifts f r r'
  | _, _ => False

section
variable {f : Ptr → Option A} {v : T Ptr} {t : T A} {hdr : Ptr} {a : Nat} {o : RB.W Ptr} {w : RB.W A}

theorem Lifts.nodes (h : Lifts f v t) : (v.nodes.map fun x => (x.1, f x.2)) = t.nodes.map fun x => (x.1, some x.2) := by
  induction v generalizing t with
  | nil => cases t with
    | nil => rfl
    | node => exact h.elim
  | node p c l q r ihl ihr =>
    cases t with
    | nil => exact h.elim
    | node p' c' l' x r' =>
      obtain ⟨rfl, rfl, h1, h2, h3⟩ := h
      simp only [T.nodes, List.map_append, List.map_cons, ihl h2, ihr h3, h1]

theorem Lifts.ptrs (h : Lifts f v t) : v.ptrs = t.ptrs := by
  have := congrArg (List.map Prod.fst) h.nodes
  simpa [T.ptrs, List.map_map, Function.comp_def] using this

theorem Lifts.ptr (h : Lifts f v t) : v.ptr = t.ptr := by
  cases v <;> cases t <;> simp_all [Lifts, T.ptr]

theorem Lifts.color (h : Lifts f v t) : v.color = t.color := by
  cases v <;> cases t <;> simp_all [Lifts, T.color]

theorem Lifts.rb (h : Lifts f v t) (n : Nat) : RB.RB v n ↔ RB.RB t n := by
  induction v generalizing t n with
  | nil => cases t with
    | nil => exact .rfl
    | node => exact h.elim
  | node p c l q r ihl ihr =>
    cases t with
    | nil => exact h.elim
    | node p' c' l' x r' =>
      obtain ⟨rfl, rfl, h1, h2, h3⟩ := h
      cases c <;> simp only [RB.RB, ihl h2, ihr h3, h2.color, h3.color]

theorem firstP_fst {K : Type} (d : Ptr) (L : List (Ptr × K)) : firstP d L = (L.map Prod.fst).headD d := by cases L <;> rfl

theorem Lifts.first (h : Lifts f v t) (d : Ptr) : firstP d v.nodes = firstP d t.nodes := by
  rw [firstP_fst, firstP_fst]; exact congrArg (List.headD · d) h.ptrs

theorem Lifts.last (h : Lifts f v t) (d : Ptr) : lastP d v.nodes = lastP d t.nodes := by
  unfold lastP
  rw [firstP_fst, firstP_fst, List.map_reverse, List.map_reverse]
  exact congrArg (List.headD · d) (congrArg List.reverse h.ptrs)

theorem Lifts.length (h : Lifts f v t) : v.nodes.length = t.nodes.length := by
  have := congrArg List.length h.ptrs
  simpa [T.ptrs] using this

/-- The cells of a tree of objects that exist. -/
theorem rep_lift (hh : ∀ p, w.heap p = (o.heap p).map (Cell.abs f)) {pr : Ptr} (h : Rep o.heap a pr v) (hl : ∀ x ∈ v.nodes, f x.2 ≠ none) :
    ∃ t, Lifts f v t ∧ Rep w.heap a pr t := by
  induction v generalizing pr with
  | nil => exact ⟨.nil, trivial, trivial⟩
  | node p c l q r ihl ihr =>
    obtain ⟨h1, h2, h3⟩ := h
    obtain ⟨t1, k1, k2⟩ := ihl h2 fun x hx => hl x (by simp [T.nodes, hx])
    obtain ⟨t2, j1, j2⟩ := ihr h3 fun x hx => hl x (by simp [T.nodes, hx])
    obtain ⟨x, hx⟩ := Option.ne_none_iff_exists'.1 (hl (p, q) (by simp [T.nodes]))
    have hx : f q = some x := hx
    refine ⟨.node p c t1 x t2, ⟨rfl, rfl, hx, k1, j1⟩, ?_, k2, j2⟩
    rw [hh, h1, k1.ptr, j1.ptr]
    simp [Cell.abs, cellS, hx]

theorem rep_back (hh : ∀ p, w.heap p = (o.heap p).map (Cell.abs f)) {pr : Ptr} (h : Rep w.heap a pr t) :
    ∃ v, Lifts f v t ∧ Rep o.heap a pr v := by
  induction t generalizing pr with
  | nil => exact ⟨.nil, trivial, trivial⟩
  | node p c l x r ihl ihr =>
    obtain ⟨h1, h2, h3⟩ := h
    obtain ⟨t1, k1, k2⟩ := ihl h2
    obtain ⟨t2, j1, j2⟩ := ihr h3
    rw [hh] at h1
    obtain ⟨n, h4, h5⟩ := Option.map_eq_some_iff.1 h1
    simp only [Cell.abs, cellS, TNode.mk.injEq] at h5
    obtain ⟨e1, e2, e3, e4, e5, e6, e7⟩ := h5
    obtain ⟨q, hq, hx⟩ := Option.bind_eq_some_iff.1 e5
    refine ⟨.node p c t1 q t2, ⟨rfl, rfl, hx, k1, j1⟩, ?_, k2, j2⟩
    rw [h4, k1.ptr, j1.ptr]
    cases n
    simp_all [cellS]

theorem tree_lift (hh : ∀ p, w.heap p = (o.heap p).map (Cell.abs f)) (h : Tree o.heap hdr a v) (hl : ∀ x ∈ v.nodes, f x.2 ≠ none) :
    ∃ t, Lifts f v t ∧ Tree w.heap hdr a t := by
  obtain ⟨t, h1, h2⟩ := rep_lift hh h.rep hl
  refine ⟨t, h1, ?_, h2, h1.ptrs ▸ h.ok, ?_, h1.color ▸ h.black⟩
  · rw [hh, h.cell, h1.first, h1.last, h1.length, h1.ptr]
    simp [Cell.abs, hdCell]
  · obtain ⟨n, hn⟩ := h.rb
    exact ⟨n, (h1.rb n).1 hn⟩

theorem tree_back (hS : Same f o w) (h : Tree w.heap hdr a t) : ∃ v, Lifts f v t ∧ Tree o.heap hdr a v := by
  obtain ⟨v, h1, h2⟩ := rep_back hS.heap h.rep
  refine ⟨v, h1, ?_, h2, h1.ptrs ▸ h.ok, ?_, h1.color ▸ h.black⟩
  · have h3 := h.cell
    rw [hS.heap] at h3
    obtain ⟨n, h4, h5⟩ := Option.map_eq_some_iff.1 h3
    simp only [Cell.abs, hdCell, TNode.mk.injEq] at h5
    obtain ⟨e1, e2, e3, e4, e5, e6, e7⟩ := h5
    have hv : n.val = none := by
      cases e : n.val with
      | none => rfl
      | some q =>
        obtain ⟨i, rfl⟩ := h.ok.hdr
        obtain ⟨b, hb⟩ := hS.typed _ q ⟨n, h4, e⟩
        cases hb
    rw [h4, h1.first, h1.last, h1.length, h1.ptr]
    cases n
    simp_all [hdCell]
  · obtain ⟨n, hn⟩ := h.rb
    exact ⟨n, (h1.rb n).2 hn⟩

theorem rep_held {pr : Ptr} (h : Rep o.heap a pr v) : ∀ x ∈ v.nodes, Held o x.1 x.2 := by
  induction v generalizing pr with
  | nil => intro x hx; cases hx
  | node p c l q r ihl ihr =>
    obtain ⟨h1, h2, h3⟩ := h
    intro x hx
    simp only [T.nodes, List.mem_append, List.mem_cons] at hx
    rcases hx with hx | rfl | hx
    · exact ihl h2 x hx
    · exact ⟨_, h1, rfl⟩
    · exact ihr h3 x hx

end

/-! ### The invariant -/

/-- The state `s` holds trees of live, distinct objects. -/
structure NInv (E : Elem S A X) (s : ST S) : Prop where
  outer : TInv s.o
  inv : E.inv s.i
  live : ∀ p q, Held s.o p q → E.val s.i q ≠ none
  typed : ∀ p q, Held s.o p q → ∃ a, p = .dyn a
  uniq : ∀ p p' q, Held s.o p q → Held s.o p' q → p = p'

/-- The tree in which an element is. -/
theorem NInv.held (h : NInv E s) {p q : Ptr} : Held s.o p q ↔ ∃ i a v, Tree s.o.heap (.stk i) a v ∧ (p, q) ∈ v.nodes := by
  constructor
  · intro hp
    obtain ⟨b, rfl⟩ := h.typed _ _ hp
    obtain ⟨c, h1, h2⟩ := hp
    obtain ⟨i, a, v, hv, hm⟩ := h.outer.cover b (by rw [h1]; simp)
    obtain ⟨⟨p, q'⟩, hx, rfl⟩ := List.mem_map.1 hm
    obtain ⟨c', h3, h4⟩ := rep_held hv.rep _ hx
    rw [h1] at h3; cases h3
    rw [h2] at h4; cases h4
    exact ⟨i, a, v, hv, hx⟩
  · rintro ⟨i, a, v, hv, hm⟩
    exact rep_held hv.rep _ hm

theorem NInv.nodes_live (h : NInv E s) {hdr : Ptr} {a : Nat} {v : T Ptr} (hv : Tree s.o.heap hdr a v) : ∀ x ∈ v.nodes, E.val s.i x.2 ≠ none :=
  fun x hx => h.live _ _ (rep_held hv.rep x hx)

theorem NInv.isElem (h : NInv E s) {q : Ptr} : IsElem s q ↔ Owned s.o q := by
  constructor
  · rintro ⟨t, qs, p, h1, h2, h3⟩
    obtain ⟨i, a, v, rfl, -, hv, -⟩ := h.outer.tree h1
    rw [(contents_iff hv).1 h2] at h3
    exact ⟨p, rep_held hv.rep _ h3⟩
  · rintro ⟨p, hp⟩
    obtain ⟨i, a, v, hv, hm⟩ := h.held.1 hp
    exact ⟨.stk i, v.nodes, p, ⟨i, rfl, hv.ne_none⟩, (contents_iff hv).2 rfl, hm⟩

/-- The memory with values in place of objects. -/
noncomputable def absW (E : Elem S A X) (s : ST S) : RB.W A where
  heap p := (s.o.heap p).map (Cell.abs (E.val s.i))
  env := ⟨s.o.env.addr, fun _ => true, fun k => Cell.abs (fun _ => none) (s.o.env.junk k)⟩
  nAlloc := s.o.nAlloc
  nCtor := 0
  nCmp := s.o.nCmp
  sp := s.o.sp
  err := s.o.err

theorem NInv.rel (h : NInv E s) : Rel E s (absW E s) where
  inv := h.inv
  same := ⟨fun _ => rfl, h.live, h.typed, rfl, fun _ => rfl, rfl, rfl, rfl⟩
  uniq := h.uniq
  err := rfl

section
variable {w : RB.W A}

/-- Trees of values for trees of objects. -/
theorem rel_lift (hR : Rel E s w) {hdr : Ptr} {a : Nat} {v : T Ptr} (hv : Tree s.o.heap hdr a v) :
    ∃ t, Lifts (E.val s.i) v t ∧ Tree w.heap hdr a t :=
  tree_lift hR.same.heap hv fun x hx => hR.same.live _ _ (rep_held hv.rep x hx)

/-- Trees of objects for trees of values. -/
theorem rel_back (hR : Rel E s w) {hdr : Ptr} {a : Nat} {t : T A} (ht : Tree w.heap hdr a t) :
    ∃ v, Lifts (E.val s.i) v t ∧ Tree s.o.heap hdr a v := tree_back hR.same ht

theorem inv_lift (hR : Rel E s w) (hI : TInv s.o) : TInv w where
  alive i hi := by
    have hi : s.o.heap (.stk i) ≠ none := fun e => hi ((hR.same.none _).2 e)
    obtain ⟨h1, a, v, hv, -⟩ := hI.alive i hi
    obtain ⟨t, -, ht⟩ := rel_lift hR hv
    exact ⟨hR.same.sp ▸ h1, a, t, ht, trivial⟩
  disj h1 h2 hne q hq := by
    obtain ⟨v1, k1, k2⟩ := rel_back hR h1
    obtain ⟨v2, j1, j2⟩ := rel_back hR h2
    rw [← k1.ptrs] at hq
    rw [← j1.ptrs]
    exact hI.disj k2 j2 hne q hq
  cover b hb := by
    obtain ⟨i, a, v, hv, hm⟩ := hI.cover b fun e => hb ((hR.same.none _).2 e)
    obtain ⟨t, k1, k2⟩ := rel_lift hR hv
    exact ⟨i, a, t, k2, k1.ptrs ▸ hm⟩
  past b hb := by
    rw [hR.same.addr, hR.same.nAlloc]
    exact hI.past b fun e => hb ((hR.same.none _).2 e)

theorem inv_back (hR : Rel E s w) (hI : TInv w) : TInv s.o where
  alive i hi := by
    have hi : w.heap (.stk i) ≠ none := fun e => hi ((hR.same.none _).1 e)
    obtain ⟨h1, a, t, ht, -⟩ := hI.alive i hi
    obtain ⟨v, -, hv⟩ := rel_back hR ht
    exact ⟨hR.same.sp ▸ h1, a, v, hv, trivial⟩
  disj h1 h2 hne q hq := by
    obtain ⟨v1, k1, k2⟩ := rel_lift hR h1
    obtain ⟨v2, j1, j2⟩ := rel_lift hR h2
    rw [k1.ptrs] at hq
    rw [j1.ptrs]
    exact hI.disj k2 j2 hne q hq
  cover b hb := by
    obtain ⟨i, a, t, ht, hm⟩ := hI.cover b fun e => hb ((hR.same.none _).1 e)
    obtain ⟨v, k1, k2⟩ := rel_back hR ht
    exact ⟨i, a, v, k2, k1.ptrs ▸ hm⟩
  past b hb := by
    rw [← hR.same.addr, ← hR.same.nAlloc]
    exact hI.past b fun e => hb ((hR.same.none _).1 e)

theorem NInv.lift (h : NInv E s) : TInv (absW E s) := inv_lift h.rel h.outer

/-- Back from values to objects. -/
theorem NInv.of_rel (hR : Rel E s w) (hI : TInv w) : NInv E s :=
  ⟨inv_back hR hI, hR.inv, hR.same.live, hR.same.typed, hR.uniq⟩

theorem pairs_inj {L L' : List (Ptr × A)} (h : (L.map fun x => (x.1, some x.2)) = L'.map fun x => (x.1, some x.2)) : L = L' := by
  refine (List.map_inj_right ?_).1 h
  rintro ⟨_, _⟩ ⟨_, _⟩ e
  simpa using e

/-- The trees that a client observes are the trees of values. -/
theorem shows_iff (hR : Rel E s w) (hI : TInv s.o) {B : AState A} : Shows E s B ↔ Abs w B := by
  have hva : ∀ {p : Ptr} {a : Nat} {v : T Ptr} {t : T A} {L : List (Ptr × A)}, Tree s.o.heap p a v → Lifts (E.val s.i) v t →
      (Values E s p L ↔ L = t.nodes) := by
    intro p a v t L hv hl
    constructor
    · rintro ⟨qs, h1, h2⟩
      rw [(contents_iff hv).1 h1, hl.nodes] at h2
      exact (pairs_inj h2).symm
    · rintro rfl
      exact ⟨v.nodes, (contents_iff hv).2 rfl, hl.nodes⟩
  have hal : ∀ {p : Ptr} {a a' : Nat} {v : T Ptr}, Tree s.o.heap p a v → (Full.UsesAlloc s.o p a' ↔ a' = a) := by
    intro p a a' v hv
    constructor
    · rintro ⟨n, h1, h2⟩
      rw [hv.cell] at h1; cases h1
      exact h2.symm
    · rintro rfl
      exact ⟨_, hv.cell, rfl⟩
  constructor
  · rintro ⟨h1, h2⟩ p a L
    constructor
    · intro hp
      obtain ⟨i, a', v, rfl, -, hv, -⟩ := hI.tree ((h1 p).2 (by rw [hp]; simp))
      obtain ⟨t, k1, k2⟩ := rel_lift hR hv
      obtain ⟨k3, k4⟩ := h2 _ _ _ hp
      obtain rfl := (hal hv).1 k3
      exact ⟨t, k2, (hva hv k1).1 k4⟩
    · rintro ⟨t, ht, rfl⟩
      obtain ⟨v, k1, k2⟩ := rel_back hR ht
      obtain ⟨i, rfl⟩ := ht.ok.hdr
      obtain ⟨⟨a', L⟩, hB⟩ := Option.ne_none_iff_exists'.1 ((h1 _).1 ⟨i, rfl, k2.ne_none⟩)
      obtain ⟨k3, k4⟩ := h2 _ _ _ hB
      rw [hB, (hal k2).1 k3, (hva k2 k1).1 k4]
  · intro h
    constructor
    · intro p
      constructor
      · intro hp
        obtain ⟨i, a', v, rfl, -, hv, -⟩ := hI.tree hp
        obtain ⟨t, k1, k2⟩ := rel_lift hR hv
        rw [h.tree k2]; simp
      · intro hp
        obtain ⟨⟨a, L⟩, hB⟩ := Option.ne_none_iff_exists'.1 hp
        obtain ⟨t, ht, -⟩ := (h _ _ _).1 hB
        obtain ⟨v, k1, k2⟩ := rel_back hR ht
        obtain ⟨i, rfl⟩ := ht.ok.hdr
        exact ⟨i, rfl, k2.ne_none⟩
    · intro p a L hB
      obtain ⟨t, ht, rfl⟩ := (h _ _ _).1 hB
      obtain ⟨v, k1, k2⟩ := rel_back hR ht
      exact ⟨(hal k2).2 rfl, (hva k2 k1).2 rfl⟩

end

end Nestl.TO
