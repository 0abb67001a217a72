import Verif.TreeOf.RefProps
import Verif.Set.Hint
import Verif.Own.Assign
set_option autoImplicit false
/-
C119: insertion of ranges into sets of objects (rbt.hpp:2116-2129) and move assignment of sets of objects (set.hpp:170-184; modelled
by intent, see Verif/Own/Assign.lean).
-/
namespace Nestl.TO
open Nestl.VO (Elem ElemOps boxOps)
open Nestl.NO
open Nestl.RB (TNode T Tree Cut runs_seq runs_seq_inv)
open Nestl.Set (Alive Contents contents_iff posOf posOf_eq put Equiv addAll)
open Nestl.Full (FCall UsesAlloc)

section
variable {S : Type}

/-- `m_insert_unique(err, first, last)`: rbt.hpp:2116-2129.  The range is given by the objects that it yields. -/
def insertUniqueRange (less : Ptr → Ptr → M S Bool) (E : ElemOps S) (hdr : Ptr) : List Ptr → M (ST S) Unit
  | [] => pure ()
  | q :: qs => do
    let _ ← insertUniqueAt less E hdr hdr (.obj q)
    if (← failed) then pure () else insertUniqueRange less E hdr qs

/-- `m_insert_unique(err, first, last)` for a range of another tree: rbt.hpp:2116-2129. -/
def insertFrom (less : Ptr → Ptr → M S Bool) (E : ElemOps S) (hdr first last : Ptr) : M (ST S) Unit := do
  if first ≠ last then
    let _ ← insertUniqueAt less E hdr hdr (.obj (← keyOf first))
    if (← failed) then pure () else insertFrom less E hdr (← onO (RB.increment first)) last
  else pure ()
partial_fixpoint

/-- `set::operator=(set&&)`: set.hpp:170-184.  The result is the error of `insert`, which the code does not return.  `less` is the
comparator of the source, which `m_move_assign` has assigned to the target (rbt.hpp:1386). -/
def setAssign (less : Ptr → Ptr → M S Bool) (E : ElemOps S) (prop : Bool) (d s : Ptr) : M (ST S) (Option Err) := do
  if (← moveAssign E prop d s) then pure none
  else
    clear E d
    insertFrom less E d (← onO (RB.begin_ s)) s
    let e ← onO Own.dropErr
    clear E s
    pure e
end

variable {S A X : Type} {E : Elem S A X} {s s' s2 : ST S} {less : Ptr → Ptr → M S Bool} {lt : A → A → Bool}

/-- Everything in `s` is still there in `s'`: the elements of all trees are the same objects at the same positions, and every object,
of a tree or of the client, has the value it had. -/
structure Spared (E : Elem S A X) (s s' : ST S) : Prop where
  elems : ∀ p q, At s p q → At s' p q
  val : ∀ q, E.val s.i q ≠ none → E.val s'.i q = E.val s.i q
  rest : E.rest s'.i = E.rest s.i
  free : ∀ q, ¬ IsElem s' q ∧ E.val s'.i q ≠ none ↔ ¬ IsElem s q ∧ E.val s.i q ≠ none

theorem Spared.refl (s : ST S) : Spared E s s := ⟨fun _ _ h => h, fun _ _ => rfl, rfl, fun _ => .rfl⟩

theorem Spared.trans (h : Spared E s s') (h' : Spared E s' s2) : Spared E s s2 :=
  ⟨fun p q g => h'.elems p q (h.elems p q g), fun q g => (h'.val q (by rw [h.val q g]; exact g)).trans (h.val q g), h'.rest.trans h.rest,
    fun q => (h'.free q).trans (h.free q)⟩

theorem At.fun (h : NInv E s) {p q q' : Ptr} (h1 : At s p q) (h2 : At s p q') : q' = q := by
  obtain ⟨a, a1, a2⟩ := h.at.1 h1
  obtain ⟨b, b1, b2⟩ := h.at.1 h2
  rw [a1] at b1; cases b1
  rw [a2] at b2; cases b2
  rfl

theorem ready_of (h : s.o.err = none) : ready s = s := by
  cases s with
  | mk o i => cases o; cases h; rfl

theorem Values.mem {t p : Ptr} {x : A} {L : List (Ptr × A)} (h : Values E s t L) (hm : (p, x) ∈ L) :
    ∃ q qs, Objs s t qs ∧ (p, q) ∈ qs ∧ E.val s.i q = some x := by
  obtain ⟨qs, h1, h2⟩ := h
  have h3 : (p, some x) ∈ qs.map fun x => (x.1, E.val s.i x.2) := by
    rw [h2]; exact List.mem_map.2 ⟨_, hm, rfl⟩
  obtain ⟨⟨p', q⟩, h4, h5⟩ := List.mem_map.1 h3
  injection h5 with h5 h6
  have h5 : p' = p := h5
  subst h5
  exact ⟨q, qs, h1, h4, h6⟩

theorem Values.of_mem {t p q : Ptr} {qs : List (Ptr × Ptr)} {L : List (Ptr × A)} (h : Values E s t L) (hq : Objs s t qs) (hm : (p, q) ∈ qs) :
    ∃ x, (p, x) ∈ L ∧ E.val s.i q = some x := by
  obtain ⟨qs', h1, h2⟩ := h
  obtain rfl := (Runs.det h1 hq).1
  have h3 : (p, E.val s.i q) ∈ L.map fun x => (x.1, some x.2) := by
    rw [← h2]; exact List.mem_map.2 ⟨_, hm, rfl⟩
  obtain ⟨⟨p', x⟩, h4, h5⟩ := List.mem_map.1 h3
  injection h5 with h5 h6
  subst h5
  exact ⟨x, h4, h6.symm⟩

/-- One step: an object is inserted with the end as hint. -/
theorem insert_end_step {t q : Ptr} {x : A} {al : Nat} {L : List (Ptr × A)} {B : AState A} (hr : Reach E s) (hc : Compares E less lt) (hs : SWO lt)
    (he : s.o.err = none) (hB : Shows E s B) (ht : B t = some (al, L)) (hst : L.Pairwise fun a b => lt a.2 b.2 = true)
    (hq : E.val s.i q = some x) :
    ∃ p s' L', Runs (insertUniqueAt less E.toElemOps t t (.obj q)) s p s' ∧ Reach E s' ∧ Spared E s s' ∧ Shows E s' (put B t (some (al, L'))) ∧
      (∀ y ∈ L, y ∈ L') ∧
      ((s'.o.err ≠ none ∧ L' = L) ∨ (s'.o.err = none ∧ (((∃ y ∈ L, Equiv lt y.2 x) ∧ L' = L) ∨
        ∃ Y Z a, L = Y ++ Z ∧ L' = Y ++ (a, x) :: Z ∧ Cut lt x Y Z))) := by
  have ha : Alive s.o t := (hB.1 t).2 (by rw [ht]; simp)
  have hasym : Multi.Asym lt := fun a b h => hs.asymm h
  obtain ⟨i, a, v, rfl, -, htr, -⟩ := hr.inv.outer.tree ha
  have hu : Multi.Asym (fun _ _ : Ptr => false) ∧ ∃ L, Contents s.o (.stk i) L ∧ Multi.HintOf (.stk i) (.stk i) L :=
    ⟨fun _ _ h => (by cases h), v.nodes, (contents_iff htr).2 rfl, .inl rfl⟩
  have hv : Valid E s (.insert ⟨less, lt⟩ (.at (.stk i)) (.stk i) (.obj q)) :=
    ⟨⟨ha, hu⟩, ⟨trivial, fun _ => hasym⟩,
      by rintro _ rfl; rw [hq]; simp, fun _ h => h.elim, fun _ h => h.elim, by rintro _ ⟨⟩; exact hc⟩
  obtain ⟨r, s', h1, h2⟩ := treeOf_calls_safe hr hv
  obtain ⟨B', h3, h4⟩ := treeOf_calls_refine hr hv h1 (c' := .unique (.at (.stk i)) (.stk i) x) ⟨x, hq, rfl⟩ hB
  obtain ⟨h5, h6, h7⟩ := treeOf_calls_outside hr hv h1
  have helem : ∀ p q, At s p q → At s' p q := fun p q g => treeOf_references_insert hr hv h1 g
  have hrun : ∃ p, Runs (insertUniqueAt less E.toElemOps (.stk i) (.stk i) (.obj q)) s p s' := by
    rw [ready_of he] at h1
    obtain ⟨p, s3, g1, g2⟩ := runs_seq_inv (m := insertUniqueAt less E.toElemOps (.stk i) (.stk i) (.obj q)) (f := fun p => pure (Res.pos p)) h1
    cases g2
    exact ⟨p, g1⟩
  obtain ⟨p, hrun⟩ := hrun
  have hsorted : Ordered lt L := ⟨hs, hst.imp fun h => hs.asymm h⟩
  -- the effect on the trees
  have main : ∃ L', B' = put B (.stk i) (some (al, L')) ∧ (∀ y ∈ L, y ∈ L') ∧
      ((s'.o.err ≠ none ∧ L' = L) ∨ (s'.o.err = none ∧ (((∃ y ∈ L, Equiv lt y.2 x) ∧ L' = L) ∨
        ∃ Y Z a, L = Y ++ Z ∧ L' = Y ++ (a, x) :: Z ∧ Cut lt x Y Z))) := by
    have hself : put B (.stk i) (some (al, L)) = B := by rw [← ht]; exact Full.put_self _ _
    rcases h4 with ⟨p, -, e2, ⟨o, L1, k', e3, e4, -, e5⟩, rfl⟩ | ⟨-, e2, -, rfl⟩ | ⟨p, -, e2, o, Y, Z, e3, rfl, -, e5⟩
    · rw [ht] at e3; cases e3
      exact ⟨L, hself.symm, fun _ h => h, .inr ⟨by simpa using e2, .inl ⟨⟨_, e4, e5 hsorted⟩, rfl⟩⟩⟩
    · exact ⟨L, hself.symm, fun _ h => h, .inl ⟨(by intro h; rw [h] at e2; cases e2), rfl⟩⟩
    · rw [ht] at e3; cases e3
      exact ⟨_, rfl, by intro y hy; simp only [List.mem_append, List.mem_cons] at hy ⊢; exact hy.imp_right .inr,
        .inr ⟨by simpa using e2, .inr ⟨Y, Z, p, rfl, rfl, e5 hsorted⟩⟩⟩
  obtain ⟨L', rfl, hsub, hout⟩ := main
  refine ⟨p, s', L', hrun, h2, ⟨helem, ?_, h5, h6⟩, h3, hsub, hout⟩
  intro q' hq'
  by_cases hel : IsElem s q'
  · obtain ⟨u, qs, p', g1, g2, g3⟩ := hel
    obtain ⟨⟨al', M⟩, g4⟩ := Option.ne_none_iff_exists'.1 ((hB.1 u).1 g1)
    obtain ⟨x', g5, g6⟩ := (hB.2 _ _ _ g4).2.of_mem g2 g3
    have : ∃ M', Values E s' u M' ∧ (p', x') ∈ M' ∧ Alive s'.o u := by
      by_cases hu : u = .stk i
      · subst hu
        rw [ht] at g4; cases g4
        have k : put B (.stk i) (some (al, L')) (.stk i) = some (al, L') := Set.put_same _ _ _
        exact ⟨L', (h3.2 _ _ _ k).2, hsub _ g5, (h3.1 _).2 (by rw [k]; simp)⟩
      · have k : put B (.stk i) (some (al, L')) u = some (al', M) := by rw [Set.put_other _ _ hu]; exact g4
        exact ⟨M, (h3.2 _ _ _ k).2, g5, (h3.1 _).2 (by rw [k]; simp)⟩
    obtain ⟨M', g7, g8, g9⟩ := this
    obtain ⟨q2, qs2, k1, k2, k3⟩ := g7.mem g8
    have k4 := At.fun h2.inv (helem p' q' ⟨u, qs, g1, g2, g3⟩) ⟨u, qs2, g9, k1, k2⟩
    subst k4
    rw [k3, g6]
  · obtain ⟨y, hy⟩ := Option.ne_none_iff_exists'.1 hq'
    obtain ⟨z, hz⟩ := Option.ne_none_iff_exists'.1 ((h6 q').2 ⟨hel, hq'⟩).2
    rw [hy, hz, (h7 q' y z hel hy hz).2 fun h => h.1.elim]

theorem cut_strict {x : A} {p : Ptr} {Y Z : List (Ptr × A)} (h : (Y ++ Z).Pairwise fun a b => lt a.2 b.2 = true) (hc : Cut lt x Y Z) :
    (Y ++ (p, x) :: Z).Pairwise fun a b => lt a.2 b.2 = true := by
  obtain ⟨h1, h2, h3⟩ := List.pairwise_append.1 h
  refine List.pairwise_append.2 ⟨h1, List.pairwise_cons.2 ⟨hc.2, h2⟩, ?_⟩
  intro a ha b hb
  rcases List.mem_cons.1 hb with rfl | hb
  · exact hc.1 a ha
  · exact h3 a ha b hb

/-- The keys after one step. -/
theorem step_keys {x : A} {L L' : List (Ptr × A)} (hs : SWO lt) (h : ((∃ y ∈ L, Equiv lt y.2 x) ∧ L' = L) ∨
      ∃ Y Z a, L = Y ++ Z ∧ L' = Y ++ (a, x) :: Z ∧ Cut lt x Y Z) (z : A) :
    z ∈ L'.map Prod.snd ↔ z ∈ L.map Prod.snd ∨ (z = x ∧ ∀ y, y ∈ L.map Prod.snd → ¬ Equiv lt y x) := by
  rcases h with ⟨⟨y, hy, he⟩, rfl⟩ | ⟨Y, Z, a, rfl, rfl, hc⟩
  · exact ⟨.inl, fun h => h.elim id fun h => (h.2 y.2 (List.mem_map_of_mem hy) he).elim⟩
  · have hn : ∀ y, y ∈ (Y ++ Z).map Prod.snd → ¬ Equiv lt y x := by
      rintro _ hy' ⟨e1, e2⟩
      obtain ⟨y, hy, rfl⟩ := List.mem_map.1 hy'
      rcases List.mem_append.1 hy with hy | hy
      · rw [hc.1 y hy] at e1; cases e1
      · rw [hc.2 y hy] at e2; cases e2
    simp only [List.map_append, List.map_cons, List.mem_append, List.mem_cons] at hn ⊢
    constructor
    · rintro (h | rfl | h)
      · exact .inl (.inl h)
      · exact .inr ⟨rfl, hn⟩
      · exact .inl (.inr h)
    · rintro ((h | h) | ⟨rfl, -⟩)
      · exact .inl h
      · exact .inr (.inr h)
      · exact .inr (.inl rfl)

theorem runs_failed (s : ST S) : Runs (failed : M (ST S) Bool) s s.o.err.isSome s := rfl

theorem insert_range_aux {t : Ptr} {al : Nat} (hc : Compares E less lt) (hs : SWO lt) : ∀ (ts : List Ptr) {xs : List A} {s : ST S} {B : AState A}
    {L : List (Ptr × A)}, Reach E s → s.o.err = none → Shows E s B → B t = some (al, L) → (L.Pairwise fun a b => lt a.2 b.2 = true) →
    ts.map (E.val s.i) = xs.map some →
    ∃ s' us rest L', xs = us ++ rest ∧ Runs (insertUniqueRange less E.toElemOps t ts) s () s' ∧ Reach E s' ∧ Spared E s s' ∧
      Shows E s' (put B t (some (al, L'))) ∧ (L'.Pairwise fun a b => lt a.2 b.2 = true) ∧ (∀ y ∈ L, y ∈ L') ∧
      (∀ x, x ∈ L'.map Prod.snd ↔ addAll lt (fun y => y ∈ L.map Prod.snd) us x) ∧
      ((s'.o.err = none ∧ rest = []) ∨ (s'.o.err ≠ none ∧ rest ≠ [])) := by
  intro ts
  induction ts with
  | nil =>
    intro xs s B L hr he hB ht hst hx
    obtain rfl : xs = [] := by simpa using hx.symm
    refine ⟨s, [], [], L, rfl, rfl, hr, .refl s, ?_, hst, fun _ h => h, fun _ => .rfl, .inl ⟨he, rfl⟩⟩
    rw [← ht, Full.put_self]
    exact hB
  | cons q ts ih =>
    intro xs s B L hr he hB ht hst hx
    cases xs with
    | nil => simp at hx
    | cons x xs =>
      simp only [List.map_cons, List.cons.injEq] at hx
      obtain ⟨p, s1, L1, h1, h2, h3, h4, h5, h6⟩ := insert_end_step hr hc hs he hB ht hst hx.1
      rcases h6 with ⟨he1, rfl⟩ | ⟨he1, h6⟩
      · refine ⟨s1, [], x :: xs, L1, rfl, ?_, h2, h3, h4, hst, h5, fun _ => .rfl, .inr ⟨he1, by simp⟩⟩
        refine runs_seq h1 (runs_seq (runs_failed s1) ?_)
        rw [isSome_of_err he1]
        rfl
      · have hst1 : L1.Pairwise fun a b => lt a.2 b.2 = true := by
          rcases h6 with ⟨-, rfl⟩ | ⟨Y, Z, a, rfl, rfl, hcut⟩
          · exact hst
          · exact cut_strict hst hcut
        have hx1 : ts.map (E.val s1.i) = xs.map some := by
          rw [← hx.2]
          refine List.map_congr_left fun q' hq' => h3.val q' ?_
          intro e
          have : none ∈ ts.map (E.val s.i) := List.mem_map.2 ⟨q', hq', e⟩
          rw [hx.2] at this
          simp at this
        obtain ⟨s2, us, rest, L2, rfl, g2, g3, g4, g5, g6, g7, g8, g9⟩ := ih h2 he1 h4 (Set.put_same _ _ _) hst1 hx1
        rw [Own.put_put] at g5
        refine ⟨s2, x :: us, rest, L2, rfl, ?_, g3, h3.trans g4, g5, g6, fun y hy => g7 y (h5 y hy), fun z => ?_, g9⟩
        · refine runs_seq h1 (runs_seq (runs_failed s1) ?_)
          rw [he1]
          exact g2
        · rw [g8]
          simp only [addAll]
          exact Set.addAll_congr (step_keys hs h6) us z

/-- A new error object. -/
theorem Reach.ready {t : Ptr} (hr : Reach E s) (ha : Alive s.o t) : Reach E (ready s) := by
  refine .call (c := .copy false t t) (r := .unit) hr
    ⟨⟨ha, ha⟩, trivial, fun _ h => h.elim, fun _ h => h.elim, fun _ h => h.elim, fun _ h => by cases h⟩ ?_
  refine runs_seq (a := ()) (s1 := TO.ready s) ?_ rfl
  unfold copyNothrow
  simp
  rfl

theorem Spared.ready (h : Spared E (ready s) s') (hr : Reach E s) : Spared E s s' := by
  refine ⟨fun p q g => h.elems p q (hr.inv.ready.at.2 (hr.inv.at.1 g)), h.val, h.rest, fun q => ?_⟩
  rw [h.free q, hr.inv.isElem, hr.inv.ready.isElem]
  rfl

namespace Demo

/-- What is known about a tree. -/
theorem at_shows {t : Ptr} {al : Nat} {L : List (Ptr × A)} {B : AState A} (hB : Shows E s B) (ha : Alive s.o t) (hu : UsesAlloc s.o t al)
    (hL : Values E s t L) : B t = some (al, L) := by
  obtain ⟨⟨al', L'⟩, e⟩ := Option.ne_none_iff_exists'.1 ((hB.1 t).1 ha)
  obtain ⟨h1, h2⟩ := hB.2 _ _ _ e
  rw [e, values_unique h2 hL]
  obtain ⟨n, n1, n2⟩ := h1
  obtain ⟨m, m1, m2⟩ := hu
  rw [n1] at m1
  cases m1
  rw [← n2, ← m2]

theorem t4u : Tree s4.o.heap u 0 .nil := tree0 (by decide +kernel) ⟨_, rfl⟩
theorem vals4u : Values Elem.box s4 u [] := values (objs t4u) rfl
theorem shows4 : ∃ B, Shows Elem.box s4 B ∧ B u = some (0, []) ∧ B v = some (0, [(.dyn 0, 7), (.dyn 1, 8)]) := by
  obtain ⟨B, hB, -⟩ := treeOf_shows r4
  exact ⟨B, hB, at_shows hB (alive (by decide +kernel)) ⟨_, t4u.cell, rfl⟩ vals4u, at_shows hB (alive (by decide +kernel)) ⟨_, t4.cell, rfl⟩ vals4⟩

/-- Memory for one element, and two sets with different allocators, of which the first one holds it. -/
def q0 : ST VO.Boxes := ⟨Set.start { env with addr := fun n => if n = 0 then some 0 else none }, s0.i⟩
def q1 : ST VO.Boxes := go boxOps (.create 0 : Call VO.Boxes Nat) q0
def q2 : ST VO.Boxes := go boxOps (.create 1 : Call VO.Boxes Nat) q1
def q3 : ST VO.Boxes := go boxOps (.insert ord .plain v (.obj (.stk 0))) q2

theorem qr0 : Reach Elem.box q0 := .start (by
  intro n hn
  show (if _ then _ else if _ then _ else _) = _
  rw [if_neg, if_neg]
  · simp only [Ptr.stk.injEq]
    have hn : 2 ≤ n := hn
    omega
  · simp only [Ptr.stk.injEq]
    have hn : 2 ≤ n := hn
    omega)
theorem qr1 : Reach Elem.box q1 := step qr0 v_create (r := .obj v) (by rfl)
theorem qr2 : Reach Elem.box q2 := step qr1 v_create (r := .obj u) (by rfl)
theorem qr3 : Reach Elem.box q3 := step qr2 (v_insert (alive (by decide +kernel)) (live (by decide +kernel))) (r := .ins (.dyn 0) true) (by rfl)
theorem qt3 : Tree q3.o.heap v 0 (.node (.dyn 0) .black .nil (.stk 2) .nil) := tree1 (by decide +kernel) (by decide +kernel) ⟨_, rfl⟩
theorem qt3u : Tree q3.o.heap u 1 .nil := tree0 (by decide +kernel) ⟨_, rfl⟩
theorem qvals3 : Values Elem.box q3 v [(.dyn 0, 7)] := values (objs qt3) (by decide +kernel)
theorem qvals3u : Values Elem.box q3 u [] := values (objs qt3u) rfl
theorem qshows3 : ∃ B, Shows Elem.box q3 B ∧ B u = some (1, []) ∧ B v = some (0, [(.dyn 0, 7)]) := by
  obtain ⟨B, hB, -⟩ := treeOf_shows qr3
  exact ⟨B, hB, at_shows hB (alive (by decide +kernel)) ⟨_, qt3u.cell, rfl⟩ qvals3u, at_shows hB (alive (by decide +kernel)) ⟨_, qt3.cell, rfl⟩ qvals3⟩

end Demo

/-- C119: `m_insert_unique(err, first, last)` on a set of objects: the objects of the range are copied into the set one after another,
up to the first one that cannot be inserted, for want of memory or because its copy fails; an error is reported exactly in that case.
An object is skipped iff an equivalent one is there.  The set stays strictly ordered.  The elements that were there stay the same
objects at the same positions; nothing else changes: not the other sets, not the objects of the client, not the range. -/
theorem treeOf_insert_range {t : Ptr} {al : Nat} {ts : List Ptr} {xs : List A} {B : AState A} {L : List (Ptr × A)} (hr : Reach E s)
    (hc : Compares E less lt) (hs : SWO lt) (hB : Shows E s B) (ht : B t = some (al, L)) (hst : L.Pairwise fun a b => lt a.2 b.2 = true)
    (hx : ts.map (E.val s.i) = xs.map some) :
    ∃ s' us rest L', xs = us ++ rest ∧ Runs (insertUniqueRange less E.toElemOps t ts) (ready s) () s' ∧ Reach E s' ∧ Spared E s s' ∧
      Shows E s' (put B t (some (al, L'))) ∧ (L'.Pairwise fun a b => lt a.2 b.2 = true) ∧ (∀ y ∈ L, y ∈ L') ∧
      (∀ x, x ∈ L'.map Prod.snd ↔ addAll lt (fun y => y ∈ L.map Prod.snd) us x) ∧
      ((s'.o.err = none ∧ rest = []) ∨ (s'.o.err ≠ none ∧ rest ≠ [])) := by
  have ha : Alive s.o t := (hB.1 t).2 (by rw [ht]; simp)
  obtain ⟨s', us, rest, L', h1, h2, h3, h4, h5⟩ := insert_range_aux hc hs ts (hr.ready ha) rfl (hr.inv.shows_ready hB) ht hst hx
  exact ⟨s', us, rest, L', h1, h2, h3, h4.ready hr, h5⟩

/-- Elements of another set and a box of the client are inserted: two of them have the value 7. -/
example : ∃ B, Reach Elem.box Demo.s4 ∧ Compares Elem.box Demo.ord.less Demo.ord.lt ∧ SWO Demo.ord.lt ∧ Shows Elem.box Demo.s4 B ∧
    B Demo.u = some (0, []) ∧ ([.stk 2, .stk 0, .stk 3] : List Ptr).map (Elem.box.val Demo.s4.i) = [7, 7, 8].map some := by
  obtain ⟨B, h1, h2, -⟩ := Demo.shows4
  exact ⟨B, Demo.r4, Demo.ord_ok, Demo.ord_swo, h1, h2, by decide +kernel⟩

/-! ### A range of another set -/

theorem same_objs : ∀ {qs qs' : List (Ptr × Ptr)}, qs'.map Prod.fst = qs.map Prod.fst →
    (∀ p q q', (p, q) ∈ qs → (p, q') ∈ qs' → q' = q) → qs' = qs
  | [], [], _, _ => rfl
  | [], _ :: _, h, _ => by simp at h
  | _ :: _, [], h, _ => by simp at h
  | (p, q) :: qs, (p', q') :: qs', h, hf => by
    simp only [List.map_cons, List.cons.injEq] at h
    obtain ⟨rfl, h⟩ := h
    have h1 := hf p' q q' (List.mem_cons_self ..) (List.mem_cons_self ..)
    subst h1
    rw [same_objs h fun p q q' h1 h2 => hf p q q' (List.mem_cons_of_mem _ h1) (List.mem_cons_of_mem _ h2)]

theorem Values.fst {t : Ptr} {L : List (Ptr × A)} (h : Values E s t L) : ∃ qs, Objs s t qs ∧ qs.map Prod.fst = L.map Prod.fst := by
  obtain ⟨qs, h1, h2⟩ := h
  refine ⟨qs, h1, ?_⟩
  have := congrArg (List.map Prod.fst) h2
  simpa [List.map_map, Function.comp_def] using this

/-- A tree with the same positions and values consists of the same objects. -/
theorem Spared.objs {t : Ptr} {L : List (Ptr × A)} {qs : List (Ptr × Ptr)} (h : Spared E s s') (hr' : Reach E s') (ha : Alive s.o t)
    (ha' : Alive s'.o t) (hL : Values E s t L) (hL' : Values E s' t L) (hq : Objs s t qs) : Objs s' t qs := by
  obtain ⟨qs1, h1, h2⟩ := hL.fst
  obtain rfl := (Runs.det h1 hq).1
  obtain ⟨qs2, h3, h4⟩ := hL'.fst
  have := same_objs (h4.trans h2.symm) fun p q q' g1 g2 => At.fun hr'.inv (h.elems p q ⟨t, _, ha, hq, g1⟩) ⟨t, _, ha', h3, g2⟩
  rw [← this]
  exact h3

/-- A loop over a part of the set `t'` is the insertion of its elements. -/
theorem insertFrom_range {t t' : Ptr} {al : Nat} (hc : Compares E less lt) (hs : SWO lt) (hne : t' ≠ t) : ∀ {C Y Z : List (Ptr × Ptr)} {s s' : ST S}
    {B : AState A} {L : List (Ptr × A)}, Reach E s → s.o.err = none → Shows E s B → B t = some (al, L) →
    (L.Pairwise fun a b => lt a.2 b.2 = true) → Alive s.o t' → Objs s t' (Y ++ (C ++ Z)) →
    Runs (insertUniqueRange less E.toElemOps t (C.map Prod.snd)) s () s' →
    Runs (insertFrom less E.toElemOps t (posOf t' (C ++ Z)) (posOf t' Z)) s () s' := by
  intro C
  induction C with
  | nil =>
    intro Y Z s s' B L hr he hB ht hst ha hq hrun
    rw [insertFrom, List.nil_append, if_neg (fun h => h rfl)]
    exact hrun
  | cons c C ih =>
    obtain ⟨p, q⟩ := c
    intro Y Z s s' B L hr he hB ht hst ha hq hrun
    obtain ⟨i, a, v, rfl, -, htr, -⟩ := hr.inv.outer.tree ha
    have hn := (contents_iff htr).1 hq
    have hpne : p ≠ posOf (.stk i) Z := by
      cases Z with
      | nil => exact htr.node_ne_hdr (by simp [RB.T.ptrs, ← hn])
      | cons z Z =>
        have := htr.ok.nodup
        rw [RB.T.ptrs, ← hn] at this
        simp [List.nodup_append] at this
        rintro rfl
        exact absurd rfl (this.2.1.1.2.1)
    have hkey : Runs (keyOf p : M (ST S) Ptr) s q s := by
      obtain ⟨b, w2, g1, rfl, rfl⟩ := wp.runs ((RB.wp_keyOf_mem (Q := fun b w2 => b = q ∧ w2 = s.o) htr hn.symm).2 ⟨rfl, rfl⟩)
      exact runs_onO g1
    obtain ⟨⟨al', N⟩, hM⟩ := Option.ne_none_iff_exists'.1 ((hB.1 (.stk i)).1 ha)
    have hval := (hB.2 _ _ _ hM).2
    obtain ⟨x, -, hx⟩ := hval.of_mem hq (p := p) (q := q) (by simp)
    obtain ⟨b, s1, L1, h1, h2, h3, h4, h5, h6⟩ := insert_end_step hr hc hs he hB ht hst hx
    rw [insertFrom]
    obtain ⟨b2, s2, g1, g2⟩ := runs_seq_inv (m := insertUniqueAt less E.toElemOps t t (.obj q))
      (f := fun _ => do if (← failed) then pure () else insertUniqueRange less E.toElemOps t (C.map Prod.snd)) hrun
    have e1 := (Runs.det h1 g1).2
    subst s2
    obtain ⟨f, s3, g3, g4⟩ := runs_seq_inv g2
    obtain ⟨e2, e3⟩ := Runs.det g3 (runs_failed _)
    subst s3 f
    show Runs (if p ≠ posOf (.stk i) Z then _ else _) s () s'
    rw [if_pos hpne]
    refine runs_seq hkey (runs_seq h1 (runs_seq (runs_failed _) ?_))
    rcases h6 with ⟨he1, rfl⟩ | ⟨he1, h6⟩
    · rw [isSome_of_err he1] at g4 ⊢
      exact g4
    · rw [he1] at g4 ⊢
      have hst1 : L1.Pairwise fun a b => lt a.2 b.2 = true := by
        rcases h6 with ⟨-, rfl⟩ | ⟨Y, Z, a, rfl, rfl, hcut⟩
        · exact hst
        · exact cut_strict hst hcut
      have hM1 : put B t (some (al, L1)) (.stk i) = some (al', N) := by rw [Set.put_other _ _ hne]; exact hM
      have ha1 : Alive s1.o (.stk i) := (h4.1 _).2 (by rw [hM1]; simp)
      have hq1 := h3.objs h2 ha ha1 hval (h4.2 _ _ _ hM1).2 hq
      obtain ⟨i1, a1, v1, e1, -, htr1, -⟩ := h2.inv.outer.tree ha1
      cases e1
      have hn1 := (contents_iff htr1).1 hq1
      have hinc : Runs (onO (RB.increment p) : M (ST S) Ptr) s1 (posOf (.stk i) (C ++ Z)) s1 := by
        obtain ⟨b, w2, g1, rfl, rfl⟩ := wp.runs (RB.wp_increment' (w := s1.o) (Q := fun b w2 => b = posOf (.stk i) (C ++ Z) ∧ w2 = s1.o) htr1 hn1.symm
          ⟨(posOf_eq _ _).symm, rfl⟩)
        exact runs_onO g1
      refine runs_seq hinc ?_
      exact ih (Y := Y ++ [(p, q)]) h2 he1 h4 (Set.put_same _ _ _) hst1 ha1 (by simpa using hq1) g4

/-- C119: the same for a range of another set. -/
theorem treeOf_insert_from {t t' : Ptr} {al al' : Nat} {B : AState A} {L Y M Z : List (Ptr × A)} (hr : Reach E s)
    (hc : Compares E less lt) (hs : SWO lt) (hB : Shows E s B) (ht : B t = some (al, L)) (hst : L.Pairwise fun a b => lt a.2 b.2 = true)
    (hne : t' ≠ t) (ht' : B t' = some (al', Y ++ (M ++ Z))) :
    ∃ s' us rest L', M.map Prod.snd = us ++ rest ∧
      Runs (insertFrom less E.toElemOps t (posOf t' (M ++ Z)) (posOf t' Z)) (ready s) () s' ∧ Reach E s' ∧ Spared E s s' ∧
      Shows E s' (put B t (some (al, L'))) ∧ (L'.Pairwise fun a b => lt a.2 b.2 = true) ∧ (∀ y ∈ L, y ∈ L') ∧
      (∀ x, x ∈ L'.map Prod.snd ↔ addAll lt (fun y => y ∈ L.map Prod.snd) us x) ∧
      ((s'.o.err = none ∧ rest = []) ∨ (s'.o.err ≠ none ∧ rest ≠ [])) := by
  have ha : Alive s.o t := (hB.1 t).2 (by rw [ht]; simp)
  have ha' : Alive s.o t' := (hB.1 t').2 (by rw [ht']; simp)
  obtain ⟨qs, h1, h2⟩ := (hB.2 _ _ _ ht').2
  rw [List.map_append, List.map_append] at h2
  obtain ⟨Y', N, rfl, e1, h2⟩ := List.map_eq_append_iff.1 h2
  obtain ⟨C, Z', rfl, e2, e3⟩ := List.map_eq_append_iff.1 h2
  have hx : (C.map Prod.snd).map (E.val s.i) = (M.map Prod.snd).map some := by
    have := congrArg (List.map Prod.snd) e2
    simpa [List.map_map, Function.comp_def] using this
  obtain ⟨s', us, rest, L', h3, h4, h5⟩ := treeOf_insert_range hr hc hs hB ht hst hx
  refine ⟨s', us, rest, L', h3, ?_, h5⟩
  have hpos : ∀ {P : List (Ptr × Ptr)} {R : List (Ptr × A)}, (P.map fun x => (x.1, E.val s.i x.2)) = (R.map fun x => (x.1, some x.2)) →
      posOf t' P = posOf t' R := by
    intro P R h
    cases P <;> cases R <;> simp at h ⊢
    · rfl
    · exact h.1.1
  rw [← hpos (P := C ++ Z') (R := M ++ Z) (by simp [e2, e3]), ← hpos e3]
  refine insertFrom_range (Y := Y') hc hs hne (hr.ready ha) rfl (hr.inv.shows_ready hB) ht hst ha' ?_ h4
  obtain ⟨i, a, v, rfl, -, htr, -⟩ := hr.inv.outer.tree ha'
  rw [(contents_iff htr).1 h1]
  exact (contents_iff (w := (ready s).o) htr).2 rfl

/-- The elements of a set are inserted into another set. -/
example : ∃ B, Reach Elem.box Demo.s4 ∧ Compares Elem.box Demo.ord.less Demo.ord.lt ∧ SWO Demo.ord.lt ∧ Shows Elem.box Demo.s4 B ∧
    B Demo.u = some (0, []) ∧ B Demo.v = some (0, [] ++ ([(.dyn 0, 7), (.dyn 1, 8)] ++ [])) ∧ Demo.v ≠ Demo.u := by
  obtain ⟨B, h1, h2, h3⟩ := Demo.shows4
  exact ⟨B, Demo.r4, Demo.ord_ok, Demo.ord_swo, h1, h2, h3, by decide⟩

/-! ### Move assignment -/

/-- Outside of the trees that are not `P` nothing has changed: the trees `P` consist of the same objects, the objects of the client have
the values they had, and no object is left behind. -/
structure Beside (E : Elem S A X) (P : Ptr → Prop) (s s' : ST S) : Prop where
  objs : ∀ u qs, P u → Alive s.o u → Objs s u qs → Alive s'.o u ∧ Objs s' u qs
  val : ∀ q, ¬ IsElem s q → E.val s.i q ≠ none → E.val s'.i q = E.val s.i q
  rest : E.rest s'.i = E.rest s.i
  free : ∀ q, ¬ IsElem s' q ∧ E.val s'.i q ≠ none ↔ ¬ IsElem s q ∧ E.val s.i q ≠ none

theorem Beside.trans {P : Ptr → Prop} (h : Beside E P s s') (h' : Beside E P s' s2) : Beside E P s s2 :=
  ⟨fun u qs g g1 g2 => h'.objs u qs g (h.objs u qs g g1 g2).1 (h.objs u qs g g1 g2).2,
    fun q g1 g2 => (h'.val q ((h.free q).2 ⟨g1, g2⟩).1 ((h.free q).2 ⟨g1, g2⟩).2).trans (h.val q g1 g2), h'.rest.trans h.rest,
    fun q => (h'.free q).trans (h.free q)⟩

theorem Beside.ready {P : Ptr → Prop} (h : Beside E P (ready s) s') (hr : Reach E s) : Beside E P s s' := by
  have hel : ∀ q, IsElem (TO.ready s) q ↔ IsElem s q := fun q => by rw [hr.inv.isElem, hr.inv.ready.isElem]; rfl
  refine ⟨fun u qs g g1 g2 => h.objs u qs g g1 ?_, fun q g => h.val q fun k => g ((hel q).1 k), h.rest, fun q => ?_⟩
  · obtain ⟨i, a, v, rfl, -, htr, -⟩ := hr.inv.outer.tree g1
    rw [(contents_iff htr).1 g2]
    exact (contents_iff (w := (TO.ready s).o) htr).2 rfl
  · rw [h.free q, hel]
    rfl

theorem Spared.beside {P : Ptr → Prop} {B B' : AState A} (h : Spared E s s') (hr' : Reach E s') (hB : Shows E s B) (hB' : Shows E s' B')
    (hP : ∀ u, P u → B' u = B u) : Beside E P s s' := by
  refine ⟨fun u qs g g1 g2 => ?_, fun q _ => h.val q, h.rest, h.free⟩
  obtain ⟨⟨al, L⟩, e⟩ := Option.ne_none_iff_exists'.1 ((hB.1 u).1 g1)
  have e' : B' u = some (al, L) := (hP u g).trans e
  have ha' : Alive s'.o u := (hB'.1 u).2 (by rw [e']; simp)
  exact ⟨ha', h.objs hr' g1 ha' (hB.2 _ _ _ e).2 (hB'.2 _ _ _ e').2 g2⟩

/-- A call that builds nothing and moves nothing. -/
theorem call_beside {P : Ptr → Prop} {B B' : AState A} {c : Call S A} {r : Res} (hr : Reach E s) (hv : Valid E s c) (hc : ¬ c.builds)
    (hrun : Runs (exec E.toElemOps c) (ready s) r s') (hB : Shows E s B) (hB' : Shows E s' B') (hP : ∀ u, P u → B' u = B u) :
    Beside E P s s' := by
  obtain ⟨h1, h2, h3⟩ := treeOf_calls_outside hr hv hrun
  refine ⟨fun u qs g g1 g2 => ?_, fun q g1 g2 => ?_, h1, h2⟩
  · obtain ⟨⟨al, L⟩, e⟩ := Option.ne_none_iff_exists'.1 ((hB.1 u).1 g1)
    have e' : B' u = some (al, L) := (hP u g).trans e
    have ha' : Alive s'.o u := (hB'.1 u).2 (by rw [e']; simp)
    refine ⟨ha', ?_⟩
    obtain ⟨qs1, k1, k2⟩ := (hB.2 _ _ _ e).2.fst
    obtain rfl := (Runs.det k1 g2).1
    obtain ⟨qs2, k3, k4⟩ := (hB'.2 _ _ _ e').2.fst
    have := same_objs (k4.trans k2.symm) fun p q q' j1 j2 =>
      At.fun hr.inv ⟨u, _, g1, g2, j1⟩ (treeOf_references_erase hr hv hc hrun ⟨u, _, ha', k3, j2⟩)
    rw [← this]
    exact k3
  · obtain ⟨y, hy⟩ := Option.ne_none_iff_exists'.1 g2
    obtain ⟨z, hz⟩ := Option.ne_none_iff_exists'.1 ((h2 q).2 ⟨g1, g2⟩).2
    rw [hy, hz, (h3 q y z g1 hy hz).2]
    rintro ⟨h, -⟩
    cases c <;> first | exact h.elim | exact (hc trivial).elim

theorem clear_step {t : Ptr} {al : Nat} {B : AState A} {L : List (Ptr × A)} (P : Ptr → Prop) (hP : ¬ P t) (hr : Reach E s) (hB : Shows E s B)
    (ht : B t = some (al, L)) :
    ∃ s', Runs (clear E.toElemOps t) (ready s) () s' ∧ Reach E s' ∧ Shows E s' (put B t (some (al, []))) ∧ s'.o.err = none ∧ Beside E P s s' := by
  have ha : Alive s.o t := (hB.1 t).2 (by rw [ht]; simp)
  have hv : Valid E s (.clear t) := ⟨ha, trivial, fun _ h => h.elim, fun _ h => h.elim, fun _ h => h.elim, fun _ h => by cases h⟩
  obtain ⟨r, s', h1, h2⟩ := treeOf_calls_safe hr hv
  obtain ⟨B', h3, o, L0, h4, rfl, h5, rfl⟩ := treeOf_calls_refine hr hv h1 rfl hB
  rw [ht] at h4
  cases h4
  refine ⟨s', ?_, h2, h3, by simpa using h5, call_beside hr hv id h1 hB h3 fun u hu => Set.put_other _ _ fun e => hP (e ▸ hu)⟩
  obtain ⟨⟨⟩, s3, g1, g2⟩ := runs_seq_inv (m := clear E.toElemOps t) (f := fun _ => pure Res.unit) h1
  cases g2
  exact g1

/-- Keys in ascending order are all added. -/
theorem addAll_ascending (hs : SWO lt) : ∀ {us : List A} {P : A → Prop}, (us.Pairwise fun a b => lt a b = true) →
    (∀ a, P a → ∀ u ∈ us, lt a u = true) → ∀ x, addAll lt P us x ↔ P x ∨ x ∈ us
  | [], P, _, _, x => by simp [addAll]
  | u :: us, P, h, hP, x => by
    obtain ⟨h1, h2⟩ := List.pairwise_cons.1 h
    have hn : ∀ y, P y → ¬ Equiv lt y u := fun y hy he => by
      have := hP y hy u (List.mem_cons_self ..)
      rw [he.1] at this
      cases this
    rw [addAll, addAll_ascending hs h2]
    · simp only [List.mem_cons]
      constructor
      · rintro ((h | ⟨h, -⟩) | h)
        · exact .inl h
        · exact .inr (.inl h)
        · exact .inr (.inr h)
      · rintro (h | h | h)
        · exact .inl (.inl h)
        · exact .inl (.inr ⟨h, hn⟩)
        · exact .inr h
    · rintro a (h | ⟨rfl, -⟩) u' hu'
      · exact hP a h u' (List.mem_cons_of_mem _ hu')
      · exact h1 u' hu'

/-- Strictly ascending lists with the same members are the same. -/
theorem ascending_ext (hs : SWO lt) : ∀ {l l' : List A}, (l.Pairwise fun a b => lt a b = true) → (l'.Pairwise fun a b => lt a b = true) →
    (∀ x, x ∈ l ↔ x ∈ l') → l = l'
  | [], [], _, _, _ => rfl
  | [], b :: _, _, _, h => absurd ((h b).2 (List.mem_cons_self ..)) (by simp)
  | a :: _, [], _, _, h => absurd ((h a).1 (List.mem_cons_self ..)) (by simp)
  | a :: l, b :: l', h1, h2, h => by
    obtain ⟨h3, h4⟩ := List.pairwise_cons.1 h1
    obtain ⟨h5, h6⟩ := List.pairwise_cons.1 h2
    have hirr : ∀ x, lt x x = true → False := fun x hx => by
      have := hs.asymm hx
      rw [hx] at this
      cases this
    have e : a = b := by
      rcases List.mem_cons.1 ((h a).1 (List.mem_cons_self ..)) with e | ha
      · exact e
      rcases List.mem_cons.1 ((h b).2 (List.mem_cons_self ..)) with e | hb
      · exact e.symm
      have := hs.asymm (h5 a ha)
      rw [h3 b hb] at this
      cases this
    subst e
    rw [ascending_ext hs h4 h6]
    intro x
    constructor
    · intro hx
      rcases List.mem_cons.1 ((h x).1 (List.mem_cons_of_mem _ hx)) with rfl | h'
      · exact (hirr _ (h3 _ hx)).elim
      · exact h'
    · intro hx
      rcases List.mem_cons.1 ((h x).2 (List.mem_cons_of_mem _ hx)) with rfl | h'
      · exact (hirr _ (h5 _ hx)).elim
      · exact h'

/-! ### Errors -/

theorem blame_insertFrom (E : ElemOps S) (less : Ptr → Ptr → M S Bool) (t f l : Ptr) : Does (Blame E False) (insertFrom less E t f l) := by
  have hR : Moves (Blame (N := TNode) E False) := moves_blame E False
  revert f
  refine insertFrom.fixpoint_induct less E t l (motive := fun g => ∀ x, Does (Blame E False) (g x)) Does.admissible1 ?_
  intro g ih x
  repeat' (first | with_reducible exact ih _ | with_reducible exact d_insertUniqueAt hR (blame_createNode _ _) _ _ _ _ | does1)

theorem blame_insertUniqueRange (E : ElemOps S) (less : Ptr → Ptr → M S Bool) (t : Ptr) (ts : List Ptr) :
    Does (Blame E False) (insertUniqueRange less E t ts) := by
  have hR : Moves (Blame (N := TNode) E False) := moves_blame E False
  induction ts with
  | nil => exact Does.pure hR
  | cons q ts ih =>
    unfold insertUniqueRange
    repeat' (first | exact ih | with_reducible exact d_insertUniqueAt hR (blame_createNode _ _) _ _ _ _ | does1)

/-- Without memory, nothing gets into an empty set. -/
theorem no_memory {t : Ptr} {al : Nat} {B : AState A} {L' : List (Ptr × A)} (hr : Reach E s) (hr' : Reach E s')
    (hb : Blame E.toElemOps False s s') (hsp : Spared E s s') (hm : ∀ n, s.o.nAlloc ≤ n → s.o.env.addr n = none) (hB : Shows E s B)
    (ht : B t = some (al, [])) (hB' : Shows E s' (put B t (some (al, L')))) : L' = [] := by
  have et : put B t (some (al, L')) t = some (al, L') := Set.put_same _ _ _
  have hat' : Alive s'.o t := (hB'.1 t).2 (by rw [et]; simp)
  cases L' with
  | nil => rfl
  | cons y L' =>
    exfalso
    obtain ⟨q, qs, h1, h2, -⟩ := (hB'.2 _ _ _ et).2.mem (p := y.1) (x := y.2) (List.mem_cons_self ..)
    have hat : At s' y.1 q := ⟨t, qs, hat', h1, h2⟩
    have hheld := hr'.inv.at.1 hat
    obtain ⟨a, ha⟩ := hr'.inv.typed _ _ hheld
    rw [ha] at hheld h2 hat
    obtain ⟨c, hc, -⟩ := hheld
    rcases hb.heap a (by rw [hc]; simp) with h3 | ⟨j, h3, -, h4⟩
    · obtain ⟨i, o, v, h5, h6⟩ := hr.inv.outer.cover a h3
      obtain ⟨⟨_, q0⟩, h7, rfl⟩ := List.mem_map.1 h6
      have hai : Alive s.o (.stk i) := ⟨i, rfl, h5.ne_none⟩
      have hoi : Objs s (.stk i) v.nodes := (contents_iff h5).2 rfl
      obtain ⟨⟨al', M⟩, e⟩ := Option.ne_none_iff_exists'.1 ((hB.1 (.stk i)).1 hai)
      have hit : Ptr.stk i ≠ t := by
        intro e2
        rw [e2, ht] at e
        cases e
        rw [← e2] at ht
        obtain ⟨x, hx, -⟩ := (hB.2 _ _ _ ht).2.of_mem hoi h7
        cases hx
      have e' : put B t (some (al, y :: L')) (.stk i) = some (al', M) := by rw [Set.put_other _ _ hit]; exact e
      have hai' : Alive s'.o (.stk i) := (hB'.1 _).2 (by rw [e']; simp)
      have hoi' := hsp.objs hr' hai hai' (hB.2 _ _ _ e).2 (hB'.2 _ _ _ e').2 hoi
      have hq := At.fun hr'.inv hat ⟨_, _, hai', hoi', h7⟩
      rw [hq] at h7
      exact hit ((treeOf_elements hr' hat' hai' h1 hoi' h2).2.1 h7).1
    · rw [hm j h3] at h4
      cases h4

/-- C119: an error of the insertion of a range has a cause: the allocator did not serve a request of this call, or the copy of an element
failed, and its error is the one that is reported. -/
theorem treeOf_insert_range_cause {t : Ptr} {ts : List Ptr} (hrun : Runs (insertUniqueRange less E.toElemOps t ts) (ready s) () s') {e : Err}
    (he : s'.o.err = some e) :
    (e = .badAlloc ∧ ∃ k, s.o.nAlloc ≤ k ∧ k < s'.o.nAlloc ∧ Denied s.o k) ∨ ∃ q i i', Runs (E.copy q) i (.error e) i' := by
  have h := blame_insertUniqueRange _ _ _ _ _ _ _ hrun
  rcases h.cause with h1 | ⟨e', h1, h2⟩
  · rw [he] at h1; cases h1
  · rw [he] at h1; cases h1
    rcases h2 with h2 | ⟨h3, -⟩ | h2
    · exact .inl h2
    · exact h3.elim
    · exact .inr h2

/-- There is no memory for the box with the value 8. -/
example : ∃ s' e, Runs (insertUniqueRange Demo.ord.less boxOps Demo.u [.stk 1]) (ready Demo.q3) () s' ∧ s'.o.err = some e := by
  obtain ⟨B, hB, h1, -⟩ := Demo.qshows3
  have hr : Reach Elem.box (ready Demo.q3) := Demo.qr3.ready (t := Demo.u) (Demo.alive (by decide +kernel))
  obtain ⟨s', us, rest, L', h2, h3, h4, h5, h6, -, -, h7, h8⟩ := treeOf_insert_range (ts := [.stk 1]) (xs := [8]) Demo.qr3 Demo.ord_ok Demo.ord_swo hB h1
    .nil (by decide +kernel)
  rcases h8 with ⟨-, rfl⟩ | ⟨h8, -⟩
  · exfalso
    have h9 := no_memory (t := Demo.u) hr h4 (blame_insertUniqueRange _ _ _ _ _ _ _ h3)
      (by
        refine ⟨fun p q g => h5.elems p q (Demo.qr3.inv.at.2 (Demo.qr3.inv.ready.at.1 g)), h5.val, h5.rest, fun q => ?_⟩
        rw [h5.free q, Demo.qr3.inv.isElem, Demo.qr3.inv.ready.isElem]
        rfl)
      (fun n hn => by
        have h1 : (ready Demo.q3).o.nAlloc = 1 := by decide +kernel
        rw [h1] at hn
        show (if n = 0 then some 0 else none) = none
        rw [if_neg (by omega)]) (Demo.qr3.inv.shows_ready hB) h1 h6
    subst h9
    rw [List.append_nil] at h2
    subst h2
    have := (h7 8).2 (.inr ⟨rfl, by simp⟩)
    simp at this
  · obtain ⟨e, he⟩ := Option.ne_none_iff_exists'.1 h8
    exact ⟨s', e, h3, he⟩

theorem set_assign_aux {prop : Bool} {d t : Ptr} {al al' : Nat} {B : AState A} {L L' : List (Ptr × A)} (hr : Reach E s)
    (hc : Compares E less lt) (hs : SWO lt) (hB : Shows E s B) (hd : B d = some (al, L)) (ht : B t = some (al', L')) (hne : d ≠ t)
    (hst : L'.Pairwise fun a b => lt a.2 b.2 = true) :
    ∃ e s' al2 L2, Runs (setAssign less E.toElemOps prop d t) (ready s) e s' ∧ Reach E s' ∧
      Shows E s' (put (put B d (some (al2, L2))) t (some (al', []))) ∧
      (prop = true ∨ al = al' → e = none ∧ al2 = al' ∧ L2 = L' ∧ ∀ qs, Objs s t qs → Objs s' d qs) ∧
      (¬ (prop = true ∨ al = al') → al2 = al) ∧ L2.map Prod.snd <+: L'.map Prod.snd ∧ (e = none ↔ L2.map Prod.snd = L'.map Prod.snd) ∧
      Beside E (fun u => u ≠ d ∧ u ≠ t) s s' ∧
      (¬ (prop = true ∨ al = al') → (∀ n, s.o.nAlloc ≤ n → s.o.env.addr n = none) → L2 = []) := by
  have had : Alive s.o d := (hB.1 d).2 (by rw [hd]; simp)
  have hat : Alive s.o t := (hB.1 t).2 (by rw [ht]; simp)
  have hv : Valid E s (.assign prop d t) := ⟨⟨had, hat⟩, trivial, fun _ h => h.elim, fun _ h => h.elim, fun _ h => h.elim, fun _ h => by cases h⟩
  obtain ⟨r, s1, h1, h2⟩ := treeOf_calls_safe hr hv
  obtain ⟨B1, h3, o, o', L0, L0', e1, e2, e3, h4⟩ := treeOf_calls_refine hr hv h1 rfl hB
  rw [hd] at e1; cases e1
  rw [ht] at e2; cases e2
  have hrun : ∀ {b : Bool}, r = .ok b → Runs (moveAssign E.toElemOps prop d t) (ready s) b s1 := by
    rintro b rfl
    obtain ⟨b2, s3, g1, g2⟩ := runs_seq_inv (m := moveAssign E.toElemOps prop d t) (f := fun b => pure (Res.ok b)) h1
    cases g2
    exact g1
  rcases h4 with ⟨k1, k2, k3, rfl⟩ | ⟨k1, k2, rfl⟩
  · -- the elements are copied
    have hb1 : Beside E (fun u => u ≠ d ∧ u ≠ t) s s1 := call_beside hr hv id h1 hB h3 fun _ _ => rfl
    have he1 : s1.o.err = none := by simpa using e3
    obtain ⟨s3, c1, c2, c3, c4, c5⟩ := clear_step (fun u => u ≠ d ∧ u ≠ t) (fun h => h.1 rfl) h2 h3 hd
    rw [ready_of he1] at c1
    have ht3 : put B1 d (some (al, [])) t = some (al', [] ++ (L' ++ [])) := by
      rw [Set.put_other _ _ hne.symm, ht]; simp
    obtain ⟨s4, us, rest, L2, f1, f2, f3, f4, f5, f6, -, f7, f8⟩ := treeOf_insert_from (t := d) (t' := t) c2 hc hs c3 (Set.put_same _ _ _) (.nil)
      hne.symm ht3
    have hP : (us ++ rest).Pairwise fun a b => lt a b = true := by rw [← f1, List.pairwise_map]; exact hst
    have hus := (List.pairwise_append.1 hP).1
    have hL2 : L2.map Prod.snd = us := by
      refine ascending_ext hs (by rw [List.pairwise_map]; exact f6) hus fun x => ?_
      rw [f7, addAll_ascending hs hus (by simp)]
      simp
    rw [ready_of c4] at f2
    rw [Own.put_put] at f5
    have hb4 : Beside E (fun u => u ≠ d ∧ u ≠ t) s3 s4 := f4.beside f3 c3 f5 fun u hu => by
      rw [Set.put_other _ _ hu.1, Set.put_other _ _ hu.1]
    have ht4 : put B1 d (some (al, L2)) t = some (al', L') := by rw [Set.put_other _ _ hne.symm]; exact ht
    obtain ⟨s5, g1, g2, g3, g4, g5⟩ := clear_step (fun u => u ≠ d ∧ u ≠ t) (fun h => h.2 rfl) f3 f5 ht4
    refine ⟨s4.o.err, s5, al, L2, ?_, g2, g3, ?_, fun _ => rfl, ?_, ?_, hb1.trans (c5.trans (hb4.trans g5)), fun _ hm => ?_⟩
    · refine runs_seq (hrun k3) (runs_seq c1 (runs_seq (a := posOf t L') (s1 := s3) ?_ (runs_seq (a := ()) (s1 := s4) ?_ ?_)))
      · have hat3 : Alive s3.o t := (c3.1 t).2 (by rw [ht3]; simp)
        obtain ⟨i, a, v, rfl, -, htr, -⟩ := c2.inv.outer.tree hat3
        obtain ⟨qs, j1, j2⟩ := (c3.2 _ _ _ ht3).2.fst
        have hpos : posOf (.stk i) L' = RB.firstP (.stk i) v.nodes := by
          rw [(contents_iff htr).1 j1] at j2
          simp only [List.nil_append, List.append_nil] at j2
          rw [← posOf_eq]
          generalize v.nodes = V at j2
          cases V <;> cases L' <;> simp at j2 ⊢
          · rfl
          · exact j2.1.symm
        rw [hpos]
        obtain ⟨a2, w2, g1, rfl, rfl⟩ := wp.runs (m := RB.begin_ (.stk i)) (s := s3.o) (Q := fun a2 w2 => a2 = RB.firstP (.stk i) v.nodes ∧ w2 = s3.o) (by
          unfold RB.begin_
          rw [wp_bind, wp_rd htr.cell htr.hdr_ne]
          exact ⟨rfl, rfl⟩)
        exact runs_onO g1
      · simpa [posOf] using f2
      · refine runs_seq (a := s4.o.err) (s1 := ready s4) rfl ?_
        exact runs_seq g1 rfl
    · rintro (h | h)
      · rw [h] at k1; cases k1
      · exact absurd h k2
    · rw [hL2, f1]; exact List.prefix_append _ _
    · rw [hL2, f1]
      rcases f8 with ⟨h, rfl⟩ | ⟨h, h'⟩
      · simp [h]
      · refine ⟨fun e => absurd e h, fun e => ?_⟩
        have := congrArg List.length e
        simp at this
        exact absurd this h'
    · have b1 := blame_exec _ _ _ _ _ h1
      have b2 := d_clear (moves_blame E.toElemOps False) (blame_destroy _ _) _ _ _ _ c1
      refine no_memory c2 f3 (blame_insertFrom _ _ _ _ _ _ _ _ f2) f4 (fun n hn => ?_) c3 (Set.put_same _ _ _) (by rw [Own.put_put]; exact f5)
      have e1 : s3.o.env = s.o.env := b2.env.trans b1.env
      rw [e1]
      exact hm n (Nat.le_trans (Nat.le_trans b1.allocs b2.allocs) hn)
  · -- the nodes change hands
    refine ⟨none, s1, al', L', runs_seq (hrun k2) rfl, h2, h3, fun _ => ⟨rfl, rfl, rfl, ?_⟩, fun h => absurd k1 h, List.prefix_refl _, by simp, ?_, fun h => absurd k1 h⟩
    · intro qs hq
      have ed : put (put B d (some (al', L'))) t (some (al', [])) d = some (al', L') := by
        rw [Set.put_other _ _ hne, Set.put_same]
      have had1 : Alive s1.o d := (h3.1 d).2 (by rw [ed]; simp)
      obtain ⟨qs1, j1, j2⟩ := (hB.2 _ _ _ ht).2.fst
      obtain rfl := (Runs.det j1 hq).1
      obtain ⟨qs2, j3, j4⟩ := (h3.2 _ _ _ ed).2.fst
      have := same_objs (j4.trans j2.symm) fun p q q' i1 i2 =>
        At.fun hr.inv ⟨t, _, hat, hq, i1⟩ (treeOf_references_erase hr hv id h1 ⟨d, _, had1, j3, i2⟩)
      rw [← this]
      exact j3
    · exact call_beside hr hv id h1 hB h3 fun u hu => by rw [Set.put_other _ _ hu.2, Set.put_other _ _ hu.1]
/-- C119: move assignment between two sets of objects.  If the allocator propagates or the allocators are equal, the target takes over
the elements of the source: the same objects at the same positions.  Otherwise the elements of the source are copied into the target, in
their order, up to the first one that cannot be copied.  In all cases the source is empty, the former elements of the target are
gone, and the other sets and the objects of the client are untouched.
Missing: if an element cannot be copied, it and the following ones are lost, and nobody is told (`treeOf_assign_loses_elements`). -/
theorem treeOf_set_assign_partial {prop : Bool} {d t : Ptr} {al al' : Nat} {B : AState A} {L L' : List (Ptr × A)} (hr : Reach E s)
    (hc : Compares E less lt) (hs : SWO lt) (hB : Shows E s B) (hd : B d = some (al, L)) (ht : B t = some (al', L')) (hne : d ≠ t)
    (hst : L'.Pairwise fun a b => lt a.2 b.2 = true) :
    ∃ e s' al2 L2, Runs (setAssign less E.toElemOps prop d t) (ready s) e s' ∧ Reach E s' ∧
      Shows E s' (put (put B d (some (al2, L2))) t (some (al', []))) ∧
      (prop = true ∨ al = al' → e = none ∧ al2 = al' ∧ L2 = L' ∧ ∀ qs, Objs s t qs → Objs s' d qs) ∧
      (¬ (prop = true ∨ al = al') → al2 = al) ∧ L2.map Prod.snd <+: L'.map Prod.snd ∧ (e = none ↔ L2.map Prod.snd = L'.map Prod.snd) ∧
      Beside E (fun u => u ≠ d ∧ u ≠ t) s s' := by
  obtain ⟨e, s', al2, L2, h1, h2, h3, h4, h5, h6, h7, h8, -⟩ := set_assign_aux (prop := prop) hr hc hs hB hd ht hne hst
  exact ⟨e, s', al2, L2, h1, h2, h3, h4, h5, h6, h7, h8⟩

/-- Sets with the same allocator, and sets with different allocators. -/
example : ∃ B B', Reach Elem.box Demo.s4 ∧ Compares Elem.box Demo.ord.less Demo.ord.lt ∧ SWO Demo.ord.lt ∧ Shows Elem.box Demo.s4 B ∧
    B Demo.u = some (0, []) ∧ B Demo.v = some (0, [(.dyn 0, 7), (.dyn 1, 8)]) ∧ Demo.u ≠ Demo.v ∧
    ([(.dyn 0, 7), (.dyn 1, 8)] : List (Ptr × Nat)).Pairwise (fun a b => Demo.ord.lt a.2 b.2 = true) ∧
    Reach Elem.box Demo.q3 ∧ Shows Elem.box Demo.q3 B' ∧ B' Demo.u = some (1, []) ∧ B' Demo.v = some (0, [(.dyn 0, 7)]) := by
  obtain ⟨B, h1, h2, h3⟩ := Demo.shows4
  obtain ⟨B', k1, k2, k3⟩ := Demo.qshows3
  exact ⟨B, B', Demo.r4, Demo.ord_ok, Demo.ord_swo, h1, h2, h3, by decide, by simp [Demo.ord], Demo.qr3, k1, k2, k3⟩

/-- C119, violation: if the allocators differ and do not propagate, and memory is exhausted, then after the move assignment both sets
are empty: all elements of the source and of the target are lost.  The operator reports no error. -/
theorem treeOf_assign_loses_elements {d t : Ptr} {al al' : Nat} {B : AState A} {L L' : List (Ptr × A)} (hr : Reach E s)
    (hc : Compares E less lt) (hs : SWO lt) (hB : Shows E s B) (hd : B d = some (al, L)) (ht : B t = some (al', L')) (hal : al ≠ al')
    (hst : L'.Pairwise fun a b => lt a.2 b.2 = true) (hm : ∀ n, s.o.nAlloc ≤ n → s.o.env.addr n = none) :
    ∃ e s', Runs (setAssign less E.toElemOps false d t) (ready s) e s' ∧ Reach E s' ∧
      Shows E s' (put (put B d (some (al, []))) t (some (al', []))) := by
  have hne : d ≠ t := by
    rintro rfl
    rw [hd] at ht
    cases ht
    exact hal rfl
  have hn : ¬ ((false : Bool) = true ∨ al = al') := by rintro (h | h); cases h; exact hal h
  obtain ⟨e, s', al2, L2, h1, h2, h3, h4, h5, h6, h7, h8, h9⟩ := set_assign_aux (prop := false) hr hc hs hB hd ht hne hst
  obtain rfl := h5 hn
  obtain rfl := h9 hn hm
  exact ⟨e, s', h1, h2, h3⟩

example : ∃ B, Reach Elem.box Demo.q3 ∧ Compares Elem.box Demo.ord.less Demo.ord.lt ∧ SWO Demo.ord.lt ∧ Shows Elem.box Demo.q3 B ∧
    B Demo.u = some (1, []) ∧ B Demo.v = some (0, [(.dyn 0, 7)]) ∧ ∀ n, Demo.q3.o.nAlloc ≤ n → Demo.q3.o.env.addr n = none := by
  obtain ⟨B, k1, k2, k3⟩ := Demo.qshows3
  refine ⟨B, Demo.qr3, Demo.ord_ok, Demo.ord_swo, k1, k2, k3, fun n hn => ?_⟩
  have h1 : Demo.q3.o.nAlloc = 1 := by decide +kernel
  rw [h1] at hn
  show (if n = 0 then some 0 else none) = none
  rw [if_neg (by omega)]

/-- C119, violation: a set that is move-assigned to itself loses its elements. -/
theorem treeOf_set_assign_self {prop : Bool} {d : Ptr} {al : Nat} {B : AState A} {L : List (Ptr × A)} (hr : Reach E s) (hB : Shows E s B)
    (hd : B d = some (al, L)) :
    ∃ s', Runs (setAssign less E.toElemOps prop d d) (ready s) none s' ∧ Reach E s' ∧ Shows E s' (put B d (some (al, []))) := by
  have had : Alive s.o d := (hB.1 d).2 (by rw [hd]; simp)
  have hv : Valid E s (.assign prop d d) := ⟨⟨had, had⟩, trivial, fun _ h => h.elim, fun _ h => h.elim, fun _ h => h.elim, fun _ h => by cases h⟩
  obtain ⟨r, s1, h1, h2⟩ := treeOf_calls_safe hr hv
  obtain ⟨B1, h3, o, o', L0, L0', e1, e2, e3, h4⟩ := treeOf_calls_refine hr hv h1 rfl hB
  rw [hd] at e1; cases e1
  rw [hd] at e2; cases e2
  rcases h4 with ⟨-, k2, -⟩ | ⟨-, rfl, rfl⟩
  · exact absurd rfl k2
  · rw [Own.put_put] at h3
    refine ⟨s1, ?_, h2, h3⟩
    obtain ⟨b2, s3, g1, g2⟩ := runs_seq_inv (m := moveAssign E.toElemOps prop d d) (f := fun b => pure (Res.ok b)) h1
    cases g2
    exact runs_seq g1 rfl

example : ∃ B, Reach Elem.box Demo.s4 ∧ Shows Elem.box Demo.s4 B ∧ B Demo.v = some (0, [(.dyn 0, 7), (.dyn 1, 8)]) := by
  obtain ⟨B, h1, -, h3⟩ := Demo.shows4
  exact ⟨B, Demo.r4, h1, h3⟩

end Nestl.TO
