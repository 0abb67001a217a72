import Verif.ListOf.PropLemmas
import Verif.ListOf.Demo
import Verif.LinkedList.Asks
set_option autoImplicit false
/-
C113 (lists of objects): how many nodes a call requests.
-/
namespace Nestl.LO
open Nestl.VO (Elem ElemOps)
open Nestl.NO
open Nestl.LL (LNode Lst Sg)
variable {S A X : Type} {E : Elem S A X} {s s' : ST S} {σ : Sg Ptr} {c : Call S} {c' : LC.Call A} {r : LC.Res} {n : Nat}

/-- Equally many elements are created in the lists of values. -/
theorem creates_lift (h : NInv E s σ) (hv : LC.Valid s.o c.addr) {f : Ptr → Option A} (hm : c.Means E f c')
    (hc : LC.Creates s.o c.addr n) {w : LL.W A} (hi : LL.Inv w (lift (E.val s.i) σ)) : LC.Creates w c' n := by
  have hl : ∀ {v : Ptr} {L : List (Ptr × Ptr)}, LC.Alive s.o v → LC.Contents s.o v L →
      LC.Contents w v (lv (E.val s.i) L) ∧ ∀ x ∈ L, E.val s.i x.2 ≠ none := by
    intro v L hv hL
    obtain ⟨x, hx⟩ := (LC.alive_iff h.outer).1 hv
    obtain rfl := (LC.contents_iff h.outer hx).1 hL
    have hx' : lift (E.val s.i) σ v = some ⟨x.alloc, x.els.filterMap (liftE (E.val s.i))⟩ := by simp [lift, hx]
    exact ⟨(LC.contents_iff hi hx').2 (lv_view _ _).symm, h.view_live hx⟩
  have hn : ∀ {ts : List Ptr} {xs : List A}, ts.map f = xs.map some → xs.length = ts.length := by
    intro ts xs e
    simpa using (congrArg List.length e).symm
  cases c with
  | insert v pos a => obtain ⟨x, -, rfl⟩ := hm; exact hc
  | insertMove v pos t => obtain ⟨x, -, rfl⟩ := hm; exact hc
  | insertN v pos n a => obtain ⟨x, -, rfl⟩ := hm; exact hc
  | insertRange v pos ts => obtain ⟨x, e, rfl⟩ := hm; exact hc.trans (hn e).symm
  | pushBack v a => obtain ⟨x, -, rfl⟩ := hm; exact hc
  | pushBackMove v a => obtain ⟨x, -, rfl⟩ := hm; exact hc
  | pushFront v a => obtain ⟨x, -, rfl⟩ := hm; exact hc
  | pushFrontMove v a => obtain ⟨x, -, rfl⟩ := hm; exact hc
  | assignN v n a => obtain ⟨x, -, rfl⟩ := hm; exact hc
  | assignObjs v ts => obtain ⟨x, e, rfl⟩ := hm; exact hc.trans (hn e).symm
  | merge less v t => obtain ⟨lt, -, rfl⟩ := hm; exact hc
  | sort less v => obtain ⟨lt, -, rfl⟩ := hm; exact hc
  | copy d v =>
    obtain rfl := hm
    obtain ⟨L, h1, rfl⟩ := hc
    obtain ⟨h2, h3⟩ := hl hv.2.1 h1
    exact ⟨_, h2, (lv_length h3).symm⟩
  | assignRange v t f l =>
    obtain rfl := hm
    obtain ⟨X, M, Y, h1, rfl, rfl, h4, rfl⟩ := hc
    obtain ⟨h2, h3⟩ := hl hv.2.1 h1
    rw [lv_append, lv_append] at h2
    have hY : ∀ x ∈ Y, E.val s.i x.2 ≠ none := fun x hx => h3 x (by simp [hx])
    have hM : ∀ x ∈ M, E.val s.i x.2 ≠ none := fun x hx => h3 x (by simp [hx])
    refine ⟨_, _, _, h2, ?_, (lv_pos hY).symm, fun e e' => h4 e ((lv_nil_iff hY).1 e'), (lv_length hM).symm⟩
    rw [← lv_append]
    exact (lv_pos fun x hx => h3 x (List.mem_append.2 (.inr hx))).symm
  | _ => obtain rfl := hm; exact hc

theorem ready_self {V : Type} {w : LL.W V} (h : w.err = none) : LC.ready w = w := by
  cases w; cases h; rfl

/-- The same call on lists of values. -/
theorem NInv.valued (h : NInv E s σ) (he : s.o.err = none) (hv : LC.Valid s.o c.addr) (hm : c.Means E (E.val s.i) c')
    (hmv : ∀ q, c.moves q → (outside E s).1 q = E.val s.i q) (hr : Runs (exec E.toElemOps c) s r s') :
    ∃ w w' : LL.W A, LL.Inv w (LO.lift (E.val s.i) σ) ∧ Runs (LC.exec c') (LC.ready w) r w' ∧ LC.Valid w c' ∧
      w.nAlloc = s.o.nAlloc ∧ w'.nAlloc = s'.o.nAlloc ∧ (w'.err = none ↔ s'.o.err = none) ∧ w.nCmp = s.o.nCmp ∧
      w'.nCmp = s'.o.nCmp := by
  have hinv : ∀ cc, LL.Inv (oracle (absW E s) cc) (LO.lift (E.val s.i) σ) := fun cc => ⟨h.lift.1.st, h.lift.1.sp⟩
  obtain ⟨r1, s1, w', h1, h2, h3, h4, h6⟩ := sim_exec hv hm hmv s (absW E s) h.rel ⟨rfl, he, rfl⟩ (fun cc _ => by
    obtain ⟨r, w', h1, -⟩ := (LC.exec_sim (hinv cc) h.lift.2 he (valid_lift h hv hm (hinv cc))).runs
    exact ⟨r, w', h1⟩)
  obtain ⟨rfl, rfl⟩ := Runs.det hr h1
  have h7 := h6 w'.env.ctor fun _ _ => rfl
  have he' : (oracle (absW E s) w'.env.ctor).err = none := he
  rw [← ready_self he'] at h7
  refine ⟨_, w', hinv w'.env.ctor, h7, valid_lift h hv hm (hinv _), rfl, h2.same.nAlloc, ?_, rfl, h2.same.nCmp⟩
  have : w'.err.isSome = s'.o.err.isSome := h2.err
  rw [← Option.not_isSome_iff_eq_none, ← Option.not_isSome_iff_eq_none, this]

theorem NInv.requests (h : NInv E s σ) (he : s.o.err = none) (hv : LC.Valid s.o c.addr) (hm : c.Means E (E.val s.i) c')
    (hmv : ∀ q, c.moves q → (outside E s).1 q = E.val s.i q) (hc : LC.Creates s.o c.addr n) (hr : Runs (exec E.toElemOps c) s r s') :
    s'.o.nAlloc ≤ s.o.nAlloc + n ∧ (s'.o.err = none → s'.o.nAlloc = s.o.nAlloc + n) ∧ (n = 0 → s'.o.err = none) := by
  obtain ⟨w, w', hi, h1, hv', e1, e2, e3, -⟩ := h.valued he hv hm hmv hr
  have h8 := LC.exec_requests hi hv' (creates_lift h hv hm hc hi) h1
  rw [← e1, ← e2, ← e3]
  exact ⟨h8.1, fun e => (h8.2.2.1 e).1, h8.2.2.2⟩

theorem NInv.creates_ready (h : NInv E s σ) (hv : Valid E s c) (hc : LC.Creates s.o c.addr n) :
    LC.Creates (LO.ready s).o c.addr n := by
  have hl : ∀ {v : Ptr} {L : List (Ptr × Ptr)}, LC.Alive s.o v → LC.Contents s.o v L → LC.Contents (LO.ready s).o v L := by
    intro v L hv hL
    obtain ⟨x, hx⟩ := (LC.alive_iff h.outer).1 hv
    exact (LC.contents_iff h.ready.outer hx).2 ((LC.contents_iff h.outer hx).1 hL)
  cases c with
  | copy d v =>
    obtain ⟨L, h1, h2⟩ := hc
    exact ⟨L, hl hv.1.2.1 h1, h2⟩
  | assignRange v t f l =>
    obtain ⟨X, M, Y, h1, h2⟩ := hc
    exact ⟨X, M, Y, hl hv.1.2.1 h1, h2⟩
  | _ => exact hc

/-- C113 (lists of objects): a call requests a node for every element it is to create; if it fails it has requested at most as
many, whether an allocation or the constructor of an element has failed.  A call that creates no elements requests no node and
does not fail.  Requests made by the elements themselves are not requests of the list. -/
theorem listOf_requests (hr : Reach E s) (hv : Valid E s c) (hc : LC.Creates s.o c.addr n)
    (h : Runs (exec E.toElemOps c) (ready s) r s') :
    s'.o.nAlloc ≤ s.o.nAlloc + n ∧ (s'.o.err = none → s'.o.nAlloc = s.o.nAlloc + n) ∧ (n = 0 → s'.o.err = none) := by
  obtain ⟨σ, hi⟩ := hr.inv
  obtain ⟨c', hm⟩ := hv.means
  exact hi.ready.requests rfl (LC.valid_ready hi.outer hv.1) hm (fun q hq => hi.out (hv.2.2.1 q hq).2) (hi.creates_ready hv hc) h

open Demo in
/-- In the list of boxes `v`: moving a box to its front requests a node, copying a box to its end although no more copies can be
made requests one, too, and fails, and sorting it requests nothing. -/
example : (s4.o.err = none ∧ s4.o.nAlloc = s3.o.nAlloc + 1) ∧ (s6.o.err ≠ none ∧ s6.o.nAlloc ≤ s5.o.nAlloc + 1) ∧
    (s7.o.err = none ∧ s7.o.nAlloc = s6.o.nAlloc) := by
  obtain ⟨_, h3⟩ := run3
  obtain ⟨_, h5⟩ := run5
  obtain ⟨_, h6⟩ := run6
  have e4 : s4.o.err = none := by decide +kernel
  have k3 := listOf_requests (n := 1) r3 v3 rfl h3
  have k5 := listOf_requests (n := 1) r5 v5 rfl h5
  have k6 := listOf_requests (n := 0) r6 v6 rfl h6
  exact ⟨⟨e4, k3.2.1 e4⟩, ⟨by decide +kernel, k5.1⟩, k6.2.2 rfl, k6.2.1 (k6.2.2 rfl)⟩

end Nestl.LO
