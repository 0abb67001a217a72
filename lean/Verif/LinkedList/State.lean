import Verif.LinkedList.Heap
set_option autoImplicit false
/-
The abstract state of a program using `nestl::list` objects and the effect of the basic operations on it.
-/
namespace Nestl.LL
variable {V : Type}

/-- An element: its node, its value and the allocator of its node. -/
structure El (V : Type) where
  p : Ptr
  v : V
  own : Nat

/-- A list object: its allocator and its elements. -/
structure Lst (V : Type) where
  alloc : Nat
  els : List (El V)

abbrev Sg (V : Type) := Ptr → Option (Lst V)

def ptrs (l : List (El V)) : List Ptr := l.map El.p

@[simp] theorem ptrs_nil : ptrs ([] : List (El V)) = [] := rfl
@[simp] theorem ptrs_cons (e : El V) (l) : ptrs (e :: l) = e.p :: ptrs l := rfl
@[simp] theorem ptrs_append (l m : List (El V)) : ptrs (l ++ m) = ptrs l ++ ptrs m := List.map_append

theorem mem_ptrs {l : List (El V)} {p : Ptr} : p ∈ ptrs l ↔ ∃ e ∈ l, e.p = p := List.mem_map
theorem mem_ptrs_of {l : List (El V)} {e : El V} (h : e ∈ l) : e.p ∈ ptrs l := List.mem_map_of_mem h

/-- The position in front of the elements `l` of list `s`. -/
def posE (s : Ptr) (l : List (El V)) : Ptr := firstP s (ptrs l)

/-- The memory holds exactly the lists of `σ`. -/
structure St (H : Heap V) (σ : Sg V) : Prop where
  hdr : ∀ s ls, σ s = some ls → (∃ i, s = .stk i) ∧ dat H s = some (none, ls.alloc)
  ring : ∀ s ls, σ s = some ls → Ring H s (ptrs ls.els)
  el : ∀ s ls, σ s = some ls → ∀ e ∈ ls.els, (∃ a, e.p = .dyn a) ∧ dat H e.p = some (some e.v, e.own)
  nodup : ∀ s ls, σ s = some ls → (ptrs ls.els).Nodup
  disj : ∀ s t ls lt, σ s = some ls → σ t = some lt → s ≠ t → ∀ p ∈ ptrs ls.els, p ∉ ptrs lt.els
  cover : ∀ p, dat H p ≠ none → σ p ≠ none ∨ ∃ s ls, σ s = some ls ∧ p ∈ ptrs ls.els

/-- `w'` is a later state with at most `k` more comparator calls; memory blocks are old or were allocated meanwhile. -/
structure Adv (w w' : W V) (k : Nat) : Prop where
  env : w'.env = w.env
  sp : w.sp ≤ w'.sp
  nAlloc : w.nAlloc ≤ w'.nAlloc
  nCtor : w.nCtor ≤ w'.nCtor
  nCmp : w.nCmp ≤ w'.nCmp
  cmps : w'.nCmp ≤ w.nCmp + k
  cells : ∀ a, w'.heap (.dyn a) ≠ none → w.heap (.dyn a) ≠ none ∨ Fresh w w' (.dyn a)

theorem Adv.refl (w : W V) (k : Nat) : Adv w w k :=
  ⟨rfl, Nat.le_refl _, Nat.le_refl _, Nat.le_refl _, Nat.le_refl _, Nat.le_add_right _ _, fun _ h => .inl h⟩

theorem Adv.trans' {w w1 w2 : W V} {j k n : Nat} (h : Adv w w1 j) (h' : Adv w1 w2 k) (hn : j + k ≤ n) :
    Adv w w2 n := by
  refine ⟨h'.env.trans h.env, Nat.le_trans h.sp h'.sp, Nat.le_trans h.nAlloc h'.nAlloc,
    Nat.le_trans h.nCtor h'.nCtor, Nat.le_trans h.nCmp h'.nCmp, ?_, ?_⟩
  · have := h.cmps; have := h'.cmps; omega
  · intro a ha
    by_cases h0 : w.heap (.dyn a) = none
    · right
      rcases h'.cells a ha with h1 | ⟨-, k, b, hb, h2, h3, h4⟩
      · rcases h.cells a h1 with h1 | ⟨-, k, b, hb, h2, h3, h4⟩
        · exact absurd h0 h1
        · exact ⟨h0, k, b, hb, h2, Nat.lt_of_lt_of_le h3 h'.nAlloc, h4⟩
      · exact ⟨h0, k, b, hb, Nat.le_trans h.nAlloc h2, h3, by rw [← h.env]; exact h4⟩
    · exact .inl h0

theorem Adv.trans {w w1 w2 : W V} {j k : Nat} (h : Adv w w1 j) (h' : Adv w1 w2 k) : Adv w w2 (j + k) :=
  h.trans' h' (Nat.le_refl _)

theorem Adv.mono {w w' : W V} {j k : Nat} (h : Adv w w' j) (hjk : j ≤ k) : Adv w w' k :=
  { h with cmps := Nat.le_trans h.cmps (by omega) }

theorem Adv.good {w w' : W V} {k : Nat} (h : Adv w w' k) (hg : Good w) : Good w' := by
  refine ⟨by rw [h.env]; exact hg.some, by rw [h.env]; exact hg.inj, by rw [h.env]; exact hg.ctor, ?_⟩
  intro a ha
  rw [h.env]
  rcases h.cells _ ha with h1 | ⟨-, k, b, hb, -, hk, hk2⟩
  · obtain ⟨k, hk, hk2⟩ := hg.past a h1
    exact ⟨k, Nat.lt_of_lt_of_le hk h.nAlloc, hk2⟩
  · cases hb; exact ⟨k, hk, hk2⟩

theorem Adv.setHeap {w : W V} {H' : Heap V} (h : ∀ a, H' (.dyn a) ≠ none → w.heap (.dyn a) ≠ none) :
    Adv w (w.setHeap H') 0 :=
  ⟨rfl, Nat.le_refl _, Nat.le_refl _, Nat.le_refl _, Nat.le_refl _, Nat.le_refl _, fun a ha => .inl (h a ha)⟩

theorem Adv.setHeap_dat {w : W V} {H' : Heap V} (h : dat H' = dat w.heap) : Adv w (w.setHeap H') 0 := by
  apply Adv.setHeap
  intro a ha h2
  apply ha
  rw [← dat_none, h, dat_none]; exact h2

/-- Invariant of the program state. -/
structure Inv (w : W V) (σ : Sg V) : Prop where
  st : St w.heap σ
  sp : ∀ i, w.heap (.stk i) ≠ none → i < w.sp

theorem Inv.setHeap {w : W V} {H' : Heap V} {σ σ' : Sg V} (h : Inv w σ) (hs : St H' σ')
    (hd : ∀ i, H' (.stk i) ≠ none → w.heap (.stk i) ≠ none) : Inv (w.setHeap H') σ' :=
  ⟨hs, fun i hi => h.sp i (hd i hi)⟩

theorem heap_of_dat {H H' : Heap V} (h : dat H' = dat H) {p : Ptr} (h2 : H' p ≠ none) : H p ≠ none := by
  rw [Ne, ← dat_none] at h2 ⊢; rw [← h]; exact h2

theorem Inv.setHeap_dat {w : W V} {H' : Heap V} {σ σ' : Sg V} (h : Inv w σ) (hs : St H' σ')
    (hd : dat H' = dat w.heap) : Inv (w.setHeap H') σ' :=
  h.setHeap hs fun _ => heap_of_dat hd

section basic
variable {H : Heap V} {σ : Sg V} {s : Ptr} {ls : Lst V}

theorem St.on_hdr (h : St H σ) (hs : σ s = some ls) : On H s := (h.ring s ls hs).on_hdr

theorem St.on_pos (h : St H σ) (hs : σ s = some ls) {A B : List (El V)} (hA : ls.els = A ++ B) : On H (posE s B) := by
  have := h.ring s ls hs; rw [hA, ptrs_append] at this; exact this.on_first

theorem St.on_el (h : St H σ) (hs : σ s = some ls) {e : El V} (he : e ∈ ls.els) : On H e.p :=
  (h.ring s ls hs).on (mem_ptrs_of he)

theorem St.hdr_not_mem (h : St H σ) (hs : σ s = some ls) {t : Ptr} {lt : Lst V} (ht : σ t = some lt) :
    s ∉ ptrs lt.els := by
  intro hm
  obtain ⟨e, he, hep⟩ := mem_ptrs.1 hm
  obtain ⟨a, ha⟩ := (h.el t lt ht e he).1
  obtain ⟨i, hi⟩ := (h.hdr s ls hs).1
  rw [hep, hi] at ha; cases ha

theorem St.hdr_ne (h : St H σ) (hs : σ s = some ls) {t : Ptr} {lt : Lst V} (ht : σ t = some lt) {e : El V}
    (he : e ∈ lt.els) : e.p ≠ s := by
  rintro rfl; exact h.hdr_not_mem hs ht (mem_ptrs_of he)

theorem St.null_ne (h : St H σ) (hs : σ s = some ls) : s ≠ .null := by
  obtain ⟨i, hi⟩ := (h.hdr s ls hs).1; rw [hi]; simp

theorem St.ring_nodup (h : St H σ) (hs : σ s = some ls) : (s :: ptrs ls.els).Nodup :=
  List.nodup_cons.2 ⟨h.hdr_not_mem hs hs, h.nodup s ls hs⟩

theorem St.heap_null (h : St H σ) : H .null = none := by
  apply Classical.byContradiction
  intro hn
  rcases h.cover .null (by rw [Ne, dat_none]; exact hn) with h1 | ⟨s, ls, hs, hm⟩
  · cases hs : σ .null with
    | none => exact h1 hs
    | some ls => exact h.null_ne hs rfl
  · obtain ⟨e, he, hep⟩ := mem_ptrs.1 hm
    obtain ⟨a, ha⟩ := (h.el s ls hs e he).1
    rw [hep] at ha; cases ha

/-- Relinking within one list. -/
theorem St.relink1 {H' : Heap V} (h : St H σ) (hs : σ s = some ls) {l' : List (El V)} (hp : l'.Perm ls.els)
    (hd : dat H' = dat H) (hr : Ring H' s (ptrs l'))
    (hf : ∀ t lt, σ t = some lt → t ≠ s → Ring H' t (ptrs lt.els)) : St H' (upd σ s (some ⟨ls.alloc, l'⟩)) := by
  have hm : ∀ p, p ∈ ptrs l' ↔ p ∈ ptrs ls.els := fun p => (hp.map El.p).mem_iff
  have key : ∀ t lt, upd σ s (some ⟨ls.alloc, l'⟩) t = some lt → ∃ lt0, σ t = some lt0 ∧ lt.alloc = lt0.alloc ∧
      lt.els.Perm lt0.els ∧ Ring H' t (ptrs lt.els) := by
    intro t lt ht
    by_cases hts : t = s
    · subst hts; rw [upd_same] at ht; cases ht; exact ⟨ls, hs, rfl, hp, hr⟩
    · rw [upd_other _ _ hts] at ht; exact ⟨lt, ht, rfl, List.Perm.refl _, hf t lt ht hts⟩
  refine ⟨?_, ?_, ?_, ?_, ?_, ?_⟩
  · intro t lt ht
    obtain ⟨l0, h0, h1, -⟩ := key t lt ht
    rw [hd, h1]; exact h.hdr t l0 h0
  · intro t lt ht
    obtain ⟨l0, h0, -, -, h1⟩ := key t lt ht; exact h1
  · intro t lt ht e he
    obtain ⟨l0, h0, -, h1, -⟩ := key t lt ht
    rw [hd]; exact h.el t l0 h0 e (h1.mem_iff.1 he)
  · intro t lt ht
    obtain ⟨l0, h0, -, h1, -⟩ := key t lt ht
    exact (h1.map El.p).nodup_iff.2 (h.nodup t l0 h0)
  · intro t u lt lu ht hu hne p h1 h2
    obtain ⟨l0, h0, -, k0, -⟩ := key t lt ht
    obtain ⟨l1, h10, -, k1, -⟩ := key u lu hu
    exact h.disj t u l0 l1 h0 h10 hne p ((k0.map El.p).mem_iff.1 h1) ((k1.map El.p).mem_iff.1 h2)
  · intro p hp
    rw [hd] at hp
    rcases h.cover p hp with h1 | ⟨t, lt, ht, h1⟩
    · left; rw [upd_apply]; split
      · simp
      · exact h1
    · right
      by_cases hts : t = s
      · subst hts; rw [hs] at ht; cases ht; exact ⟨t, _, upd_same _ _ _, (hm p).2 h1⟩
      · exact ⟨t, lt, by rw [upd_other _ _ hts]; exact ht, h1⟩

/-- Moving elements between two lists. -/
theorem St.relink2 {H' : Heap V} (h : St H σ) (hs : σ s = some ls) {t : Ptr} {lt : Lst V} (ht : σ t = some lt)
    (hst : s ≠ t) {l' m' : List (El V)} (hp : (l' ++ m').Perm (ls.els ++ lt.els))
    (hd : dat H' = dat H) (hr : Ring H' s (ptrs l')) (hr2 : Ring H' t (ptrs m'))
    (hf : ∀ u lu, σ u = some lu → u ≠ s → u ≠ t → Ring H' u (ptrs lu.els)) :
    St H' (upd (upd σ s (some ⟨ls.alloc, l'⟩)) t (some ⟨lt.alloc, m'⟩)) := by
  have hm : ∀ p, p ∈ ptrs l' ∨ p ∈ ptrs m' ↔ p ∈ ptrs ls.els ∨ p ∈ ptrs lt.els := by
    intro p; have := (hp.map El.p).mem_iff (a := p); simpa [ptrs] using this
  have hnd : (ptrs l' ++ ptrs m').Nodup := by
    rw [← ptrs_append]
    refine (hp.map El.p).nodup_iff.2 ?_
    rw [List.map_append]
    exact List.nodup_append.2 ⟨h.nodup s ls hs, h.nodup t lt ht, fun a ha b hb hab => by
      subst hab; exact h.disj s t ls lt hs ht hst a ha hb⟩
  rw [List.nodup_append] at hnd
  obtain ⟨nd1, nd2, nd3⟩ := hnd
  have key : ∀ u lu, upd (upd σ s (some ⟨ls.alloc, l'⟩)) t (some ⟨lt.alloc, m'⟩) u = some lu →
      (u = s ∧ lu = ⟨ls.alloc, l'⟩) ∨ (u = t ∧ lu = ⟨lt.alloc, m'⟩) ∨ (u ≠ s ∧ u ≠ t ∧ σ u = some lu) := by
    intro u lu hu
    by_cases h1 : u = t
    · subst h1; rw [upd_same] at hu; cases hu; exact .inr (.inl ⟨rfl, rfl⟩)
    · rw [upd_other _ _ h1] at hu
      by_cases h2 : u = s
      · subst h2; rw [upd_same] at hu; cases hu; exact .inl ⟨rfl, rfl⟩
      · rw [upd_other _ _ h2] at hu; exact .inr (.inr ⟨h2, h1, hu⟩)
  have other : ∀ u lu, σ u = some lu → u ≠ s → u ≠ t → ∀ p ∈ ptrs lu.els, p ∉ ptrs l' ∧ p ∉ ptrs m' := by
    intro u lu hu h1 h2 p hp
    have := mt (hm p).1 (by
      rintro (h3 | h3)
      · exact h.disj u s lu ls hu hs h1 p hp h3
      · exact h.disj u t lu lt hu ht h2 p hp h3)
    exact ⟨fun h => this (.inl h), fun h => this (.inr h)⟩
  have hel : ∀ e, e ∈ l' ∨ e ∈ m' → (∃ a, e.p = .dyn a) ∧ dat H' e.p = some (some e.v, e.own) := by
    intro e he
    rw [hd]
    have := (hp.mem_iff (a := e)).1 (by simpa using he)
    rcases List.mem_append.1 this with h1 | h1
    · exact h.el s ls hs e h1
    · exact h.el t lt ht e h1
  refine ⟨?_, ?_, ?_, ?_, ?_, ?_⟩
  · intro u lu hu
    rw [hd]
    rcases key u lu hu with ⟨rfl, rfl⟩ | ⟨rfl, rfl⟩ | ⟨h1, h2, h3⟩
    · exact h.hdr _ ls hs
    · exact h.hdr _ lt ht
    · exact h.hdr u lu h3
  · intro u lu hu
    rcases key u lu hu with ⟨rfl, rfl⟩ | ⟨rfl, rfl⟩ | ⟨h1, h2, h3⟩
    · exact hr
    · exact hr2
    · exact hf u lu h3 h1 h2
  · intro u lu hu e he
    rcases key u lu hu with ⟨rfl, rfl⟩ | ⟨rfl, rfl⟩ | ⟨h1, h2, h3⟩
    · exact hel e (.inl he)
    · exact hel e (.inr he)
    · rw [hd]; exact h.el u lu h3 e he
  · intro u lu hu
    rcases key u lu hu with ⟨rfl, rfl⟩ | ⟨rfl, rfl⟩ | ⟨h1, h2, h3⟩
    · exact nd1
    · exact nd2
    · exact h.nodup u lu h3
  · intro u x lu lx hu hx hne p k1 k2
    rcases key u lu hu with ⟨rfl, rfl⟩ | ⟨rfl, rfl⟩ | ⟨h1, h2, h3⟩ <;>
      rcases key x lx hx with ⟨rfl, rfl⟩ | ⟨rfl, rfl⟩ | ⟨g1, g2, g3⟩
    · exact hne rfl
    · exact nd3 p k1 p k2 rfl
    · exact (other x lx g3 g1 g2 p k2).1 k1
    · exact nd3 p k2 p k1 rfl
    · exact hne rfl
    · exact (other x lx g3 g1 g2 p k2).2 k1
    · exact (other u lu h3 h1 h2 p k1).1 k2
    · exact (other u lu h3 h1 h2 p k1).2 k2
    · exact h.disj u x lu lx h3 g3 hne p k1 k2
  · intro p hp
    rw [hd] at hp
    rcases h.cover p hp with h1 | ⟨u, lu, hu, h1⟩
    · left; rw [upd_apply]; split
      · simp
      · rw [upd_apply]; split
        · simp
        · exact h1
    · right
      by_cases h2 : p ∈ ptrs l'
      · exact ⟨s, _, by rw [upd_other _ _ hst, upd_same], h2⟩
      by_cases h3 : p ∈ ptrs m'
      · exact ⟨t, _, upd_same _ _ _, h3⟩
      by_cases h4 : u = s
      · subst h4; rw [hs] at hu; cases hu; exact absurd ((hm p).2 (.inl h1)) (by simp [h2, h3])
      by_cases h5 : u = t
      · subst h5; rw [ht] at hu; cases hu; exact absurd ((hm p).2 (.inr h1)) (by simp [h2, h3])
      exact ⟨u, lu, by rw [upd_other _ _ h5, upd_other _ _ h4]; exact hu, h1⟩

end basic
end Nestl.LL
