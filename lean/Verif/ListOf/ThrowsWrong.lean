import Verif.ListOf.ThrowsProps
set_option autoImplicit false
/-
C106, lists, what is missing in `listOf_throws_assign_partial`: the copy assignment to a list with another allocator.
-/
namespace Nestl.LO
open Nestl.VO (Elem ElemOps boxOps Boxes runs_bind_iff)
open Nestl.NO
section
variable {S A X : Type} {E : Elem S A X} {s s' s1 s2 : ST S} {v t u d : Ptr}

theorem faults_onO {α : Type} {m : M (LL.W Ptr) α} {f : Fault} (h : Faults m s.o f) : Faults (onO m : M (ST S) α) s f := by
  unfold Faults onO at *
  rw [h]

theorem runs_faults {α β : Type} {m : M (ST S) α} {k : α → M (ST S) β} {a : α} {f : Fault} (h : Runs m s a s1) (h' : Faults (k a) s1 f) :
    Faults (m >>= k) s f := by
  refine wp.faults_bind (wp_iff_runs.2 ⟨a, s1, h, h'⟩)

/-- Returning a node to an allocator that did not provide it. -/
theorem faults_destroyList {σ : LL.Sg Ptr} {ls : LL.Lst Ptr} {e : LL.El Ptr} {B : List (LL.El Ptr)} (h : LL.Inv s.o σ) (hi : E.inv s.i)
    (hs : σ v = some ls) (hel : ls.els = e :: B) (hv : E.val s.i e.v ≠ none) (ho : e.own ≠ ls.alloc) :
    Faults (destroyList E.toElemOps v) s .wrongAllocator := by
  have hem : e ∈ ls.els := by rw [hel]; simp
  unfold destroyList
  refine Faults.bind ?_
  unfold destroyContent
  have hl := h.link hs (A := []) (B := ls.els) rfl
  have g1 : Runs (LL.getNext v) s.o e.p s.o := by
    have : wp (LL.getNext v) s.o fun a o => a = e.p ∧ o = s.o := by
      rw [LL.wp_getNext (a := e.p) (by rw [hel] at hl; exact hl.1)]; exact ⟨rfl, rfl⟩
    obtain ⟨_, _, a1, rfl, rfl⟩ := this.runs
    exact a1
  refine runs_faults (runs_onO g1) ?_
  rw [destroyLoop]
  refine Faults.if_pos (h.st.hdr_ne hs hs hem) ?_
  obtain ⟨q, hq⟩ : ∃ q, LL.nxt s.o.heap e.p = some q := by
    obtain ⟨x, y, _, hy⟩ := h.st.on_el hs hem
    exact ⟨y, hy.1⟩
  have g2 : Runs (LL.getNext e.p) s.o q s.o := by
    have : wp (LL.getNext e.p) s.o fun a o => a = q ∧ o = s.o := by
      rw [LL.wp_getNext hq]; exact ⟨rfl, rfl⟩
    obtain ⟨_, _, a1, rfl, rfl⟩ := this.runs
    exact a1
  refine runs_faults (runs_onO g2) ?_
  obtain ⟨⟨a, ha⟩, hd⟩ := h.st.el v ls hs e hem
  obtain ⟨c, hc, hcv, hco⟩ := LL.dat_cell hd
  obtain ⟨-, hds⟩ := h.st.hdr v ls hs
  obtain ⟨c2, hc2, -, hco2⟩ := LL.dat_cell hds
  have hne : e.p ≠ v := h.st.hdr_ne hs hs hem
  obtain ⟨⟨⟩, i1, k1, -⟩ := (E.drop_ok s.i e.v hi hv).runs
  have hpn : e.p ≠ .null := by rw [ha]; exact fun k => by cases k
  have g3 : Runs (destroyVal E.toElemOps e.p) s () ⟨s.o.setHeap (upd s.o.heap e.p (some (Cell.put none c))), i1⟩ := by
    refine runs_bind_iff.2 ⟨e.v, s, runs_onO (runs_theVal.2 ⟨hpn, ⟨c, hc, hcv⟩, rfl⟩), runs_bind_iff.2 ⟨(), ⟨s.o, i1⟩, ?_, ?_⟩⟩
    · unfold Runs onI
      rw [show E.drop e.v s.i = _ from k1]
    · exact runs_onO (s := ⟨s.o, i1⟩) (runs_endVal.2 ⟨hpn, c, e.v, hc, hcv, rfl⟩)
  refine runs_faults g3 (Faults.bind (faults_onO ?_))
  unfold LL.putNode
  refine wp.faults_bind ?_
  rw [wp_rd (c := c2) (by show upd s.o.heap e.p _ v = _; rw [upd_other _ _ (Ne.symm hne)]; exact hc2) (h.st.null_ne hs)]
  rw [ha]
  have hf : (if (Cell.put none c : LL.LNode Ptr).owner ≠ c2.owner then Except.error Fault.wrongAllocator
      else if (Cell.put none c : LL.LNode Ptr).val.isSome = true then Except.error Fault.freeLive else Except.ok ()) =
      (Except.error Fault.wrongAllocator : Except Fault Unit) :=
    if_pos (by show c.owner ≠ c2.owner; rw [hco, hco2]; exact ho)
  have hu : (s.o.setHeap (upd s.o.heap (.dyn a) (some (Cell.put none c)))).heap (.dyn a) = some (Cell.put none c) := upd_same _ _ _
  unfold Faults freeCell
  simp only [hu, hf]

/-- C106 is violated by the copy assignment to a non-empty list whose allocator is not (equal to) a default constructed one, if the copy
of the source can be made: the temporary list gets the old elements without their allocator and returns their memory to its own. -/
theorem listOf_throws_assign_wrong_allocator (hr : Reach E s) (ha : LC.Alive s.o v) {a : Nat} {L : List (Ptr × A)}
    (hal : LC.HasAlloc s.o v a) (had : a ≠ LL.defaultAlloc) (hL : Values E s v L) (hne : L ≠ []) (hb : LC.Alive s.o t)
    (hc : Runs (copyCtor E.toElemOps t) (ready s) (.ok d) s1) :
    Faults (copyAssign E.toElemOps v t) (ready s) .wrongAllocator := by
  obtain ⟨B, hB, -⟩ := listOf_shows hr
  obtain ⟨r, s1', k1, k2, -, k4, k5, -, k6⟩ := copyCtor_all hr hb hB
  obtain ⟨rfl, rfl⟩ := Runs.det hc k1
  obtain ⟨al, M, N, -, hd, -, hB1⟩ := k6 d rfl
  obtain ⟨⟨av, Lv⟩, hbv⟩ := Option.ne_none_iff_exists'.1 ((hB.1 v).1 ha)
  obtain rfl : av = a := (Runs.det (hB.2 _ _ _ hbv).1 hal).1
  have hdv : v ≠ d := by rintro rfl; rw [hd] at hbv; cases hbv
  -- the lists after the copy
  obtain ⟨σ, h⟩ := k2.inv
  obtain ⟨qs, ho, hqs⟩ := hL
  obtain ⟨ha1, ho1⟩ := k4 v qs trivial ha ho
  obtain ⟨ls, hls⟩ := (LC.alive_iff h.outer).1 ha1
  obtain ⟨ld, hld⟩ := (LC.alive_iff h.outer).1 ((hB1.1 d).2 (by rw [upd_same]; simp))
  have hav : ls.alloc = av := ((LC.hasAlloc_iff h.outer hls).1 (hB1.2 v av Lv (by rw [upd_other _ _ hdv]; exact hbv)).1).symm
  have hadl : ld.alloc = LL.defaultAlloc := ((LC.hasAlloc_iff h.outer hld).1 (hB1.2 d _ _ (upd_same _ _ _)).1).symm
  have hq := (LC.contents_iff h.outer hls).1 ho1
  obtain ⟨e, C, hC⟩ := List.exists_cons_of_ne_nil (l := ls.els) (by
    intro h0
    rw [h0] at hq
    rw [hq] at hqs
    cases L with
    | nil => exact hne rfl
    | cons _ _ => cases hqs)
  have hem : e ∈ ls.els := by rw [hC]; simp
  have : wp (LL.swap v d) s1.o fun _ o => LL.Inv o (upd (upd σ v (some ⟨ls.alloc, ld.els⟩)) d (some ⟨ld.alloc, ls.els⟩)) := by
    refine LL.wp_swap h.outer hls hld ?_
    intro w' _ _ _ hi
    exact hi
  obtain ⟨⟨⟩, o2, r2, i2⟩ := this.runs
  refine runs_faults k1 ?_
  refine runs_faults (runs_onO r2) ?_
  refine Faults.bind (faults_destroyList (s := ⟨o2, s1.i⟩) i2 h.inv (upd_same _ _ _) hC (h.live _ _ _ hls hem) ?_)
  rw [h.own v ls hls e hem, hav, hadl]
  exact had

/-- The copy of an empty list can always be made. -/
theorem copyCtor_empty (hr : Reach E s) (ha : LC.Alive s.o t) (ho : Objs s t []) : ∃ d s', Runs (copyCtor E.toElemOps t) (ready s) (.ok d) s' := by
  obtain ⟨B, hB, -⟩ := listOf_shows hr
  obtain ⟨r1, s1, B1, run1, hr1, ck1, hB1, sp1, ok1⟩ := call_all (c := .create LL.defaultAlloc) hr
    (plain trivial (fun _ k => k) (fun _ k => k) fun _ k => k) rfl (fun _ k => k) hB
  obtain ⟨he1, d, rfl, hd, rfl⟩ := sp1
  have had : LC.Alive s1.o d := (hB1.1 d).2 (by rw [upd_same]; simp)
  have hdt : t ≠ d := by rintro rfl; exact (hB.1 t).1 ha hd
  have hat : LC.Alive s1.o t := (hB1.1 t).2 (by rw [upd_other _ _ hdt]; exact (hB.1 t).1 ha)
  obtain ⟨r2, s2, B2, run2, hr2, ck2, hB2, sp2, ok2⟩ := call_all (c := .copy d t) hr1
    (plain ⟨had, hat, .inl (hB1.2 d _ _ (upd_same _ _ _)).1, Ne.symm hdt⟩ (fun _ k => k) (fun _ k => k) fun _ k => k) rfl (fun _ k => k) hB1
  obtain ⟨al, L, bl, M, k, N, q1, q2, q3, q4, q5, rfl⟩ := sp2
  rw [upd_other _ _ hdt] at q2
  obtain rfl : M = [] := by
    obtain ⟨-, qs, a1, a2⟩ := hB.2 _ _ _ q2
    obtain rfl := (Runs.det a1 ho).1
    cases M with
    | nil => rfl
    | cons _ _ => cases a2
  obtain ⟨r, s', h, -⟩ := copyCtor_all hr ha hB
  have he : s2.o.err = none := by
    cases h0 : s2.o.err with
    | none => rfl
    | some e =>
      have := q4.1 (by rw [h0]; rfl)
      exact absurd this (by simp)
  obtain rfl := (listOf_throws_copy_error run1 run2 h).2.2 he
  exact ⟨d, s', h⟩

end

namespace Demo

/-- A list with an allocator that is not default constructed, and an empty one. -/
def x1 : ST Boxes := go boxOps (.create 5) s0
def x2 : ST Boxes := go boxOps (.create 0) x1
/-- A box is copied to the end of the first list. -/
def x3 : ST Boxes := go boxOps (.pushBack v (.obj (.stk 0))) x2

theorem rx1 : Reach Elem.box x1 := step r0 (plain trivial (fun _ h => h) (fun _ h => h) fun _ h => h) (by decide +kernel)
theorem rx2 : Reach Elem.box x2 := step rx1 (plain trivial (fun _ h => h) (fun _ h => h) fun _ h => h) (by decide +kernel)
theorem rx3 : Reach Elem.box x3 := step rx2 (v_pushBack (alive (by decide +kernel)) (live (by decide +kernel))) (by decide +kernel)
theorem valsx3 : Values Elem.box x3 v [(.dyn 0, 7)] :=
  values (qs := [(.dyn 0, .stk 2)]) (objs rx3 (alive (by decide +kernel)) (by decide +kernel)) (by decide +kernel)
theorem copyx3 : ∃ d s', Runs (copyCtor Elem.box.toElemOps u) (ready x3) (.ok d) s' :=
  copyCtor_empty rx3 (alive (by decide +kernel)) (objs rx3 (alive (by decide +kernel)) (by decide +kernel))

end Demo

open Demo in
example : Reach Elem.box Demo.x3 ∧ LC.Alive Demo.x3.o Demo.v ∧ LC.HasAlloc Demo.x3.o Demo.v 5 ∧ 5 ≠ LL.defaultAlloc ∧
    Values Elem.box Demo.x3 Demo.v [(.dyn 0, 7)] ∧ LC.Alive Demo.x3.o Demo.u ∧
    ∃ d s', Runs (copyCtor Elem.box.toElemOps Demo.u) (ready Demo.x3) (.ok d) s' :=
  ⟨rx3, alive (by decide +kernel), hasAlloc rx3 (alive (by decide +kernel)) (by decide +kernel), by decide, valsx3, alive (by decide +kernel),
    copyx3⟩

open Demo in
/-- C106 is violated: there is a class of elements and a reachable state in which the assignment of an empty list to a list of one element
is undefined behaviour. -/
theorem listOf_throws_assign_violated : ∃ (s : ST Boxes) (v t : Ptr) (L : List (Ptr × Nat)), Reach Elem.box s ∧ LC.Alive s.o v ∧ LC.Alive s.o t ∧
    Values Elem.box s v L ∧ L.map Prod.snd = [7] ∧ Values Elem.box s t [] ∧
    Faults (copyAssign Elem.box.toElemOps v t) (ready s) .wrongAllocator := by
  have a1 : LC.Alive Demo.x3.o Demo.v := alive (by decide +kernel)
  have a2 : LC.Alive Demo.x3.o Demo.u := alive (by decide +kernel)
  obtain ⟨d, s', h⟩ := copyx3
  exact ⟨Demo.x3, Demo.v, Demo.u, [(.dyn 0, 7)], rx3, a1, a2, valsx3, rfl,
    values (qs := []) (objs rx3 a2 (by decide +kernel)) rfl,
    listOf_throws_assign_wrong_allocator rx3 a1 (hasAlloc rx3 a1 (by decide +kernel)) (by decide : 5 ≠ LL.defaultAlloc) valsx3 (by simp) a2 h⟩

end Nestl.LO
