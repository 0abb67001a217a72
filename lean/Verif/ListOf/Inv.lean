import Verif.ListOf.Client
import Verif.ListOf.Funs
import Verif.LinkedList.PropLemmas
set_option autoImplicit false
/-
The invariant of lists of objects, and its relation to lists of values.
-/
namespace Nestl.LO
open Nestl.VO (Elem ElemOps)
open Nestl.NO
open Nestl.LL (LNode El Lst Sg St Ring Heap dat nxt prv ptrs)
open Classical
variable {S A X : Type} {E : Elem S A X} {s : ST S} {σ : Sg Ptr}

/-- The state `s` holds the lists `σ` of live, distinct objects. -/
structure NInv (E : Elem S A X) (s : ST S) (σ : Sg Ptr) : Prop where
  outer : LL.Inv s.o σ
  own : LC.Own σ
  inv : E.inv s.i
  live : ∀ t ls e, σ t = some ls → e ∈ ls.els → E.val s.i e.v ≠ none
  uniq : ∀ t ls e t' ls' e', σ t = some ls → σ t' = some ls' → e ∈ ls.els → e' ∈ ls'.els → e.v = e'.v → e.p = e'.p

theorem NInv.held (h : NInv E s σ) {p q : Ptr} : Held s.o p q ↔ ∃ t ls e, σ t = some ls ∧ e ∈ ls.els ∧ e.p = p ∧ e.v = q := by
  have hs := h.outer.st
  constructor
  · rintro ⟨c, h1, h2⟩
    rcases hs.cover p (by rw [Ne, LL.dat_none, h1]; simp) with h3 | ⟨t, ls, h3, h4⟩
    · obtain ⟨ls, hls⟩ := Option.ne_none_iff_exists'.1 h3
      obtain ⟨c', k1, k2, -⟩ := LL.dat_cell (hs.hdr _ _ hls).2
      rw [h1] at k1; cases k1
      rw [show c.val = some q from h2] at k2; cases k2
    · obtain ⟨e, he, rfl⟩ := LL.mem_ptrs.1 h4
      obtain ⟨c', k1, k2, -⟩ := LL.dat_cell (hs.el _ _ h3 e he).2
      rw [h1] at k1; cases k1
      rw [show c.val = some q from h2] at k2; cases k2
      exact ⟨t, ls, e, h3, he, rfl, rfl⟩
  · rintro ⟨t, ls, e, h1, h2, rfl, rfl⟩
    obtain ⟨c, k1, k2, -⟩ := LL.dat_cell (hs.el _ _ h1 e h2).2
    exact ⟨c, k1, k2⟩

theorem NInv.owned (h : NInv E s σ) {q : Ptr} : Owned s.o q ↔ ∃ t ls e, σ t = some ls ∧ e ∈ ls.els ∧ e.v = q := by
  unfold Owned
  simp only [h.held]
  constructor
  · rintro ⟨p, t, ls, e, h1, h2, -, h3⟩; exact ⟨t, ls, e, h1, h2, h3⟩
  · rintro ⟨t, ls, e, h1, h2, h3⟩; exact ⟨_, t, ls, e, h1, h2, rfl, h3⟩

theorem NInv.isElem (h : NInv E s σ) {q : Ptr} : IsElem s q ↔ Owned s.o q := by
  rw [h.owned]
  constructor
  · rintro ⟨t, qs, p, h1, h2, h3⟩
    obtain ⟨ls, hls⟩ := (LC.alive_iff h.outer).1 h1
    rw [(LC.contents_iff h.outer hls).1 h2] at h3
    obtain ⟨e, h4, h5⟩ := List.mem_map.1 h3
    cases h5
    exact ⟨t, ls, e, hls, h4, rfl⟩
  · rintro ⟨t, ls, e, h1, h2, rfl⟩
    exact ⟨t, _, e.p, (LC.alive_iff h.outer).2 ⟨ls, h1⟩, (LC.contents_iff h.outer h1).2 rfl, List.mem_map.2 ⟨e, h2, rfl⟩⟩

/-- An element with its value in place of the object. -/
def liftE (f : Ptr → Option A) (e : El Ptr) : Option (El A) := (f e.v).map fun x => ⟨e.p, x, e.own⟩

/-- Lists of values. -/
def lift (f : Ptr → Option A) (σ : Sg Ptr) : Sg A := fun t => (σ t).map fun ls => ⟨ls.alloc, ls.els.filterMap (liftE f)⟩

/-- The memory with values in place of objects. -/
noncomputable def absW (E : Elem S A X) (s : ST S) : LL.W A where
  heap p := (s.o.heap p).map (Cell.abs (E.val s.i))
  env := ⟨s.o.env.addr, fun _ => true, fun k => Cell.abs (fun _ => none) (s.o.env.junk k)⟩
  nAlloc := s.o.nAlloc
  nCtor := 0
  nCmp := s.o.nCmp
  sp := s.o.sp
  err := s.o.err

theorem NInv.rel (h : NInv E s σ) : Rel E s (absW E s) where
  inv := h.inv
  same := by
    refine ⟨fun _ => rfl, ?_, ?_, rfl, fun _ => rfl, rfl, rfl, rfl⟩
    · intro p q hq
      obtain ⟨t, ls, e, h1, h2, -, rfl⟩ := h.held.1 hq
      exact h.live _ _ _ h1 h2
    · intro p q hq
      obtain ⟨t, ls, e, h1, h2, rfl, -⟩ := h.held.1 hq
      exact (h.outer.st.el _ _ h1 e h2).1
  uniq p p' q h1 h2 := by
    obtain ⟨t, ls, e, a1, a2, rfl, rfl⟩ := h.held.1 h1
    obtain ⟨t', ls', e', b1, b2, rfl, b3⟩ := h.held.1 h2
    exact h.uniq _ _ _ _ _ _ a1 b1 a2 b2 b3.symm
  err := rfl

/-- Links do not depend on the elements. -/
theorem nxt_abs {f : Ptr → Option A} {o : LL.W Ptr} {w : LL.W A} (h : ∀ p, w.heap p = (o.heap p).map (Cell.abs f)) :
    nxt w.heap = nxt o.heap := by
  funext p
  unfold nxt
  rw [h p, Option.map_map]
  rfl

theorem prv_abs {f : Ptr → Option A} {o : LL.W Ptr} {w : LL.W A} (h : ∀ p, w.heap p = (o.heap p).map (Cell.abs f)) :
    prv w.heap = prv o.heap := by
  funext p
  unfold prv
  rw [h p, Option.map_map]
  rfl

theorem dat_abs {f : Ptr → Option A} {o : LL.W Ptr} {w : LL.W A} (h : ∀ p, w.heap p = (o.heap p).map (Cell.abs f)) (p : Ptr) :
    dat w.heap p = (dat o.heap p).map fun x => (x.1.bind f, x.2) := by
  unfold dat
  rw [h p, Option.map_map, Option.map_map]
  rfl

theorem lk_congr {V V' : Type} {H : Heap V} {H' : Heap V'} (h1 : nxt H = nxt H') (h2 : prv H = prv H') {a b : Ptr} :
    LL.Lk H a b ↔ LL.Lk H' a b := by unfold LL.Lk; rw [h1, h2]

theorem ch_congr {V V' : Type} {H : Heap V} {H' : Heap V'} (h1 : nxt H = nxt H') (h2 : prv H = prv H') :
    ∀ {l : List Ptr}, LL.Ch H l ↔ LL.Ch H' l
  | [] => .rfl
  | [_] => .rfl
  | x :: y :: l => by unfold LL.Ch; rw [lk_congr h1 h2, ch_congr h1 h2 (l := y :: l)]

theorem ring_congr {V V' : Type} {H : Heap V} {H' : Heap V'} (h1 : nxt H = nxt H') (h2 : prv H = prv H') {a : Ptr} {l : List Ptr} :
    Ring H a l ↔ Ring H' a l := by unfold Ring; rw [ch_congr h1 h2]

theorem mem_liftE {f : Ptr → Option A} {l : List (El Ptr)} {e : El A} : e ∈ l.filterMap (liftE f) ↔
    ∃ d ∈ l, f d.v = some e.v ∧ d.p = e.p ∧ d.own = e.own := by
  rw [List.mem_filterMap]
  constructor
  · rintro ⟨d, h1, h2⟩
    obtain ⟨x, h3, rfl⟩ := Option.map_eq_some_iff.1 h2
    exact ⟨d, h1, h3, rfl, rfl⟩
  · rintro ⟨d, h1, h2, h3, h4⟩
    refine ⟨d, h1, ?_⟩
    unfold liftE
    rw [h2, h3, h4]; rfl

theorem ptrs_liftE {f : Ptr → Option A} {l : List (El Ptr)} (h : ∀ e ∈ l, f e.v ≠ none) : ptrs (l.filterMap (liftE f)) = ptrs l := by
  induction l with
  | nil => rfl
  | cons e l ih =>
    obtain ⟨x, hx⟩ := Option.ne_none_iff_exists'.1 (h e (by simp))
    rw [List.filterMap_cons, show liftE f e = some ⟨e.p, x, e.own⟩ by unfold liftE; rw [hx]; rfl]
    simp only [LL.ptrs_cons, ih fun e he => h e (by simp [he])]

theorem lift_some {f : Ptr → Option A} {t : Ptr} {v : Lst A} (h : lift f σ t = some v) :
    ∃ ls, σ t = some ls ∧ v = ⟨ls.alloc, ls.els.filterMap (liftE f)⟩ := by
  obtain ⟨u, h1, h2⟩ := Option.map_eq_some_iff.1 h
  exact ⟨u, h1, h2.symm⟩

theorem NInv.lift (h : NInv E s σ) : LL.Inv (absW E s) (lift (E.val s.i) σ) ∧ LC.Own (LO.lift (E.val s.i) σ) := by
  have hs := h.outer.st
  have hp : ∀ t ls, σ t = some ls → ptrs (ls.els.filterMap (liftE (E.val s.i))) = ptrs ls.els :=
    fun t ls hls => ptrs_liftE fun e he => h.live _ _ _ hls he
  have hh : ∀ p, (absW E s).heap p = (s.o.heap p).map (Cell.abs (E.val s.i)) := fun _ => rfl
  have hd := dat_abs hh
  refine ⟨⟨⟨?_, ?_, ?_, ?_, ?_, ?_⟩, ?_⟩, ?_⟩
  · intro t v hv
    obtain ⟨ls, hls, rfl⟩ := lift_some hv
    refine ⟨(hs.hdr _ _ hls).1, ?_⟩
    rw [hd, (hs.hdr _ _ hls).2]; rfl
  · intro t v hv
    obtain ⟨ls, hls, rfl⟩ := lift_some hv
    rw [hp _ _ hls]
    exact (ring_congr (nxt_abs hh) (prv_abs hh)).2 (hs.ring _ _ hls)
  · intro t v hv e he
    obtain ⟨ls, hls, rfl⟩ := lift_some hv
    obtain ⟨d, k1, k2, k3, k4⟩ := mem_liftE.1 he
    obtain ⟨k5, k6⟩ := hs.el _ _ hls d k1
    rw [← k3, hd, k6, ← k4]
    exact ⟨k5, by simp [k2]⟩
  · intro t v hv
    obtain ⟨ls, hls, rfl⟩ := lift_some hv
    rw [hp _ _ hls]
    exact hs.nodup _ _ hls
  · intro t t' v v' hv hv' hne
    obtain ⟨ls, hls, rfl⟩ := lift_some hv
    obtain ⟨ls', hls', rfl⟩ := lift_some hv'
    rw [hp _ _ hls, hp _ _ hls']
    exact hs.disj _ _ _ _ hls hls' hne
  · intro p h0
    have : dat s.o.heap p ≠ none := by
      intro e; apply h0; rw [hd, e]; rfl
    rcases hs.cover p this with h1 | ⟨t, ls, h1, h2⟩
    · obtain ⟨ls, hls⟩ := Option.ne_none_iff_exists'.1 h1
      exact .inl (by simp [LO.lift, hls])
    · exact .inr ⟨t, ⟨ls.alloc, ls.els.filterMap (liftE (E.val s.i))⟩, by simp [LO.lift, h1], by rw [hp _ _ h1]; exact h2⟩
  · intro i hi
    refine h.outer.sp i fun e => hi ?_
    rw [hh, e]; rfl
  · intro t v hv e he
    obtain ⟨ls, hls, rfl⟩ := lift_some hv
    obtain ⟨d, k1, k2, k3, k4⟩ := mem_liftE.1 he
    rw [← k4]
    exact h.own _ _ hls d k1

/-- The object in the node `p`. -/
def objAt (o : LL.W Ptr) (p : Ptr) : Option Ptr := (o.heap p).bind LNode.val

/-- Back from values to objects. -/
theorem NInv.of_rel {w : LL.W A} (hR : Rel E s w) {τ : Sg A} (hi : LL.Inv w τ) (ho : LC.Own τ) :
    ∃ σ, NInv E s σ ∧ τ = LO.lift (E.val s.i) σ := by
  have hs := hi.st
  have hd := dat_abs hR.same.heap
  have key : ∀ t ls e, τ t = some ls → e ∈ ls.els → ∃ q, objAt s.o e.p = some q ∧ E.val s.i q = some e.v ∧
      dat s.o.heap e.p = some (some q, e.own) ∧ Held s.o e.p q := by
    intro t ls e h1 h2
    have h3 := (hs.el _ _ h1 e h2).2
    rw [hd] at h3
    obtain ⟨⟨x, y⟩, h4, h5⟩ := Option.map_eq_some_iff.1 h3
    simp only [Prod.mk.injEq] at h5
    obtain ⟨h5, rfl⟩ := h5
    obtain ⟨q, rfl, h6⟩ := Option.bind_eq_some_iff.1 h5
    obtain ⟨c, k1, k2, -⟩ := LL.dat_cell h4
    exact ⟨q, by simp [objAt, k1, k2], h6, h4, c, k1, k2⟩
  let back : El A → Option (El Ptr) := fun e => (objAt s.o e.p).map fun q => ⟨e.p, q, e.own⟩
  let σ : Sg Ptr := fun t => (τ t).map fun ls => ⟨ls.alloc, ls.els.filterMap back⟩
  have hσ : ∀ t u, σ t = some u → ∃ ls, τ t = some ls ∧ u = ⟨ls.alloc, ls.els.filterMap back⟩ := by
    intro t u hu
    obtain ⟨v, h1, h2⟩ := Option.map_eq_some_iff.1 hu
    exact ⟨v, h1, h2.symm⟩
  have hmem : ∀ t ls d, τ t = some ls → d ∈ ls.els.filterMap back → ∃ e ∈ ls.els, e.p = d.p ∧ e.own = d.own ∧
      E.val s.i d.v = some e.v ∧ dat s.o.heap d.p = some (some d.v, d.own) ∧ Held s.o d.p d.v := by
    intro t ls d h1 h2
    obtain ⟨e, h3, h4⟩ := List.mem_filterMap.1 h2
    obtain ⟨q, h5, h6⟩ := Option.map_eq_some_iff.1 h4
    subst h6
    obtain ⟨q', k1, k2, k3, k4⟩ := key _ _ _ h1 h3
    rw [h5] at k1; cases k1
    exact ⟨e, h3, rfl, rfl, k2, k3, k4⟩
  have hback : ∀ (l : List (El A)), (∀ e ∈ l, ∃ q, objAt s.o e.p = some q ∧ E.val s.i q = some e.v) →
      ptrs (l.filterMap back) = ptrs l ∧ (l.filterMap back).filterMap (liftE (E.val s.i)) = l := by
    intro l
    induction l with
    | nil => intro _; exact ⟨rfl, rfl⟩
    | cons e l ih =>
      intro hl
      obtain ⟨q, h1, h2⟩ := hl e (by simp)
      obtain ⟨h3, h4⟩ := ih fun e he => hl e (by simp [he])
      have h5 : back e = some ⟨e.p, q, e.own⟩ := by simp only [back, h1]; rfl
      have h6 : liftE (E.val s.i) ⟨e.p, q, e.own⟩ = some e := by unfold liftE; simp only [h2]; rfl
      rw [List.filterMap_cons, h5]
      simp only [LL.ptrs_cons, h3, List.filterMap_cons, h6, h4, true_and]
  have hpt : ∀ t ls, τ t = some ls → ptrs (ls.els.filterMap back) = ptrs ls.els := fun t ls h1 => (hback _ fun e he => by
    obtain ⟨q, k1, k2, -⟩ := key _ _ _ h1 he; exact ⟨q, k1, k2⟩).1
  have hnx : nxt s.o.heap = nxt w.heap := (nxt_abs hR.same.heap).symm
  have hpv : prv s.o.heap = prv w.heap := (prv_abs hR.same.heap).symm
  have hinv : LL.Inv s.o σ := by
    refine ⟨⟨?_, ?_, ?_, ?_, ?_, ?_⟩, ?_⟩
    · intro t u hu
      obtain ⟨ls, hls, rfl⟩ := hσ t u hu
      obtain ⟨⟨i, rfl⟩, h1⟩ := hs.hdr _ _ hls
      refine ⟨⟨i, rfl⟩, ?_⟩
      rw [hd] at h1
      obtain ⟨⟨x, y⟩, h4, h5⟩ := Option.map_eq_some_iff.1 h1
      simp only [Prod.mk.injEq] at h5
      obtain ⟨h5, rfl⟩ := h5
      rw [h4]
      rcases x with _ | q
      · rfl
      · obtain ⟨c, k1, k2, -⟩ := LL.dat_cell h4
        exact (hR.same.live _ q ⟨c, k1, k2⟩ h5).elim
    · intro t u hu
      obtain ⟨ls, hls, rfl⟩ := hσ t u hu
      rw [hpt _ _ hls]
      exact (ring_congr hnx hpv).2 (hs.ring _ _ hls)
    · intro t u hu d hd'
      obtain ⟨ls, hls, rfl⟩ := hσ t u hu
      obtain ⟨e, k1, k2, k3, k4, k5, k6⟩ := hmem _ _ _ hls hd'
      exact ⟨by rw [← k2]; exact (hs.el _ _ hls e k1).1, k5⟩
    · intro t u hu
      obtain ⟨ls, hls, rfl⟩ := hσ t u hu
      rw [hpt _ _ hls]
      exact hs.nodup _ _ hls
    · intro t t' u u' hu hu' hne
      obtain ⟨ls, hls, rfl⟩ := hσ t u hu
      obtain ⟨ls', hls', rfl⟩ := hσ t' u' hu'
      rw [hpt _ _ hls, hpt _ _ hls']
      exact hs.disj _ _ _ _ hls hls' hne
    · intro p h0
      have : dat w.heap p ≠ none := by rw [hd]; simpa using h0
      rcases hs.cover p this with h1 | ⟨t, ls, h1, h2⟩
      · obtain ⟨ls, hls⟩ := Option.ne_none_iff_exists'.1 h1
        exact .inl (by simp [σ, hls])
      · exact .inr ⟨t, ⟨ls.alloc, ls.els.filterMap back⟩, by simp only [σ, h1, Option.map_some], by rw [hpt _ _ h1]; exact h2⟩
    · intro i h0
      rw [← hR.same.sp]
      exact hi.sp i fun e => h0 ((hR.same.none _).1 e)
  refine ⟨σ, ⟨hinv, ?_, hR.inv, ?_, ?_⟩, ?_⟩
  · intro t u hu d hd'
    obtain ⟨ls, hls, rfl⟩ := hσ t u hu
    obtain ⟨e, k1, k2, k3, -⟩ := hmem _ _ _ hls hd'
    rw [← k3]; exact ho _ _ hls e k1
  · intro t u d hu hd'
    obtain ⟨ls, hls, rfl⟩ := hσ t u hu
    obtain ⟨e, k1, k2, k3, k4, -⟩ := hmem _ _ _ hls hd'
    rw [k4]; simp
  · intro t u d t' u' d' hu hu' hd1 hd2 heq
    obtain ⟨ls, hls, rfl⟩ := hσ t u hu
    obtain ⟨ls', hls', rfl⟩ := hσ t' u' hu'
    obtain ⟨e, k1, k2, k3, k4, k5, k6⟩ := hmem _ _ _ hls hd1
    obtain ⟨e', j1, j2, j3, j4, j5, j6⟩ := hmem _ _ _ hls' hd2
    rw [heq] at k6
    exact hR.uniq _ _ _ k6 j6
  · funext t
    simp only [LO.lift, σ, Option.map_map]
    cases hv : τ t with
    | none => rfl
    | some ls =>
      have := (hback ls.els fun e he => by obtain ⟨q, k1, k2, -⟩ := key _ _ _ hv he; exact ⟨q, k1, k2⟩).2
      simp only [Option.map_some, Function.comp, this]

end Nestl.LO
