import Verif.ListOf.Nest
set_option autoImplicit false
/-
C97: nested containers: lists and vectors of lists and vectors of … of any class.
-/
namespace Nestl.LO
open Nestl.VO (Elem ElemOps Boxes boxOps)
open Nestl.NO
open Nestl.LL (Sg)
open Nestl.Vec (ElemSize)
variable {S A X : Type} {E : Elem S A X}

namespace Demo

/-! ### A list of lists of boxes -/

/-- The client has the two lists of boxes of `s5`. -/
def n0 : ST (ST Boxes) := ⟨LC.start env, s5⟩
/-- An outer list. -/
def n1 : ST (ST Boxes) := go (listOps boxOps) (.create 0) n0
/-- The first inner list is moved into it. -/
def n2 : ST (ST Boxes) := go (listOps boxOps) (.pushFrontMove v v) n1

theorem listVal_some {s : ST S} (hi : ∃ σ, NInv E s σ) {l : Ptr} (ha : LC.Alive s.o l) {L : List (Ptr × A)} (hL : Values E s l L) :
    listVal E s l = some (L.map Prod.snd) := by
  obtain ⟨σ, h⟩ := hi
  obtain ⟨ls, hs⟩ := (LC.alive_iff h.outer).1 ha
  obtain rfl := (h.values hs).1 hL
  rw [h.listVal]
  unfold VO.seqOf
  rw [seqs_some hs]
  rfl

theorem listVal_ne {s : ST S} (hi : ∃ σ, NInv E s σ) {l : Ptr} (ha : LC.Alive s.o l) : listVal E s l ≠ none := by
  obtain ⟨σ, h⟩ := hi
  obtain ⟨ls, hs⟩ := (LC.alive_iff h.outer).1 ha
  rw [listVal_some ⟨σ, h⟩ ha ((h.values hs).2 rfl)]
  simp

theorem inner_inv {s : ST S} (hr : Reach E s) : E.inv s.i := by
  obtain ⟨σ, h⟩ := hr.inv
  exact h.inv

theorem nr0 : Reach (listOf Elem.box) n0 := .start r5.inv
theorem nr1 : Reach (listOf Elem.box) n1 := step nr0 (plain trivial (fun _ h => h) (fun _ h => h) fun _ h => h) (by decide +kernel)
theorem nv1 : Valid (listOf Elem.box) n1 (.pushFrontMove v v) :=
  ⟨alive (by decide +kernel), fun _ h => h.elim, by
    rintro q rfl; exact ⟨listVal_ne (inner_inv nr1) (alive (by decide +kernel)), notElem nr1 (by decide +kernel)⟩, fun _ h => h.elim⟩
theorem nr2 : Reach (listOf Elem.box) n2 := step nr1 nv1 (by decide +kernel)

/-- The elements of an inner list. -/
theorem objs2 {s : ST (ST Boxes)} {w : Ptr} {L : List (Ptr × Ptr)} (hr : Reach (listOf Elem.box) s) (ha : LC.Alive s.i.o w)
    (h : elems s.i w = some L) : Objs s.i w L := by
  obtain ⟨τ, hi⟩ := inner_inv hr
  obtain ⟨x, hx⟩ := (LC.alive_iff hi.outer).1 ha
  have h1 : Objs s.i w (LC.view x.els) := (LC.contents_iff hi.outer hx).2 rfl
  rw [← elems_ok h h1]
  exact h1

theorem no2 : Objs n2 v [(.dyn 0, .stk 2)] := objs nr2 (alive (by decide +kernel)) (by decide +kernel)
theorem no2i : Objs n2.i (.stk 2) [(.dyn 2, .stk 4), (.dyn 1, .stk 3), (.dyn 0, .stk 2)] :=
  objs2 nr2 (alive (by decide +kernel)) (by decide +kernel)
theorem na2 : LC.Alive n2.i.o (.stk 2) := alive (by decide +kernel)
theorem nvals2i : Values Elem.box n2.i (.stk 2) [(.dyn 2, 7), (.dyn 1, 8), (.dyn 0, 7)] := values no2i (by decide +kernel)
theorem nval2 : listVal Elem.box n2.i (.stk 2) = some [7, 8, 7] := listVal_some (inner_inv nr2) na2 nvals2i
theorem nvals2 : Values (listOf Elem.box) n2 v [(.dyn 0, [7, 8, 7])] := ⟨_, no2, by
  show [(Ptr.dyn 0, listVal Elem.box n2.i (.stk 2))] = _
  rw [nval2]; rfl⟩
theorem nelem2 : IsElem n2 (.stk 2) := ⟨v, _, .dyn 0, alive (by decide +kernel), no2, by simp⟩

theorem nv_push {s : ST (ST Boxes)} {v t : Ptr} (hr : Reach (listOf Elem.box) s) (h : LC.Alive s.o v) (ht : LC.Alive s.i.o t) :
    Valid (listOf Elem.box) s (.pushBack v (.obj t)) :=
  ⟨h, by rintro q rfl; exact listVal_ne (inner_inv hr) ht, fun _ h => h.elim, fun _ h => h.elim⟩
/-- The inner list is to be copied to the end of the outer one, in which it is; the boxes refuse to be copied. -/
theorem nv2 : Valid (listOf Elem.box) n2 (.pushBack v (.obj (.stk 2))) := nv_push nr2 (alive (by decide +kernel)) na2
theorem npush2 : Valid Elem.box n2.i (.pushBack (.stk 2) (.obj (.stk 3))) := v_pushBack na2 (live (by decide +kernel))

/-! ### A list of vectors of boxes -/

open scoped VO.Demo

/-- The client has the two vectors of boxes of the example of C96. -/
def m0 : ST (VO.NS Boxes) := ⟨LC.start env, VO.Demo.s5⟩
def m1 : ST (VO.NS Boxes) := go (VO.vecOps boxOps) (.create 0) m0
/-- The first vector is moved into a list. -/
def m2 : ST (VO.NS Boxes) := go (VO.vecOps boxOps) (.pushFrontMove v v) m1

theorem mr0 : Reach (Elem.vector Elem.box) m0 := .start VO.Demo.r5.inv
theorem mr1 : Reach (Elem.vector Elem.box) m1 := step mr0 (plain trivial (fun _ h => h) (fun _ h => h) fun _ h => h) (by decide +kernel)
theorem mv1 : Valid (Elem.vector Elem.box) m1 (.pushFrontMove v v) :=
  ⟨alive (by decide +kernel), fun _ h => h.elim, by
    rintro q rfl; exact ⟨live (by decide +kernel), notElem mr1 (by decide +kernel)⟩, fun _ h => h.elim⟩
theorem mr2 : Reach (Elem.vector Elem.box) m2 := step mr1 mv1 (by decide +kernel)
theorem mo2 : Objs m2 v [(.dyn 0, .stk 3)] := objs mr2 (alive (by decide +kernel)) (by decide +kernel)
theorem mvals2 : Values (Elem.vector Elem.box) m2 v [(.dyn 0, [7, 8])] := values mo2 (by decide +kernel)
theorem melem2 : IsElem m2 (.stk 3) := ⟨v, _, .dyn 0, alive (by decide +kernel), mo2, by simp⟩
theorem mv2 : Valid (Elem.vector Elem.box) m2 (.insertN v v 3 (.obj u)) :=
  ⟨⟨alive (by decide +kernel), _, [], by rw [List.append_nil]; exact mo2, rfl⟩,
    by rintro q rfl; exact live (by decide +kernel), fun _ h => h.elim, fun _ h => h.elim⟩
theorem mclear2 : VO.Valid Elem.box m2.i (.clear (.stk 3)) := ⟨VO.Demo.alive (by decide +kernel), fun _ h => h.elim⟩

/-! ### A vector of lists of boxes -/

def k0 : VO.NS (ST Boxes) := ⟨VC.start VO.Demo.env, s5⟩
def k1 : VO.NS (ST Boxes) := VO.Demo.go (listOps boxOps) (.create 0) k0
/-- The first list is moved into a vector. -/
def k2 : VO.NS (ST Boxes) := VO.Demo.go (listOps boxOps) (.pushMove v v) k1
theorem kr0 : VO.Reach (listOf Elem.box) k0 := .start r5.inv
theorem kr1 : VO.Reach (listOf Elem.box) k1 := VO.Demo.step kr0 ⟨trivial, fun _ h => h.elim⟩ (by decide +kernel)
theorem vinner_inv {s : VO.NS S} (hr : VO.Reach E s) : E.inv s.i := by
  obtain ⟨σ, h⟩ := hr.inv
  exact h.inv
theorem kv1 : VO.Valid (listOf Elem.box) k1 (.pushMove v v) :=
  ⟨⟨VO.Demo.alive (by decide +kernel), trivial, .inl trivial⟩, by
    rintro q rfl; exact ⟨listVal_ne (vinner_inv kr1) (alive (by decide +kernel)), VO.Demo.notElem kr1 (by decide +kernel)⟩⟩
theorem kr2 : VO.Reach (listOf Elem.box) k2 := VO.Demo.step kr1 kv1 (by decide +kernel)
theorem ka2 : LC.Alive k2.i.o (.stk 2) := alive (by decide +kernel)
theorem ko2 : VO.Objs k2 v [.stk 2] := VO.Demo.objs kr2 (VO.Demo.alive (by decide +kernel)) (by decide +kernel)
theorem kelem2 : VO.IsElem k2 (.stk 2) := ⟨v, _, VO.Demo.alive (by decide +kernel), ko2, by simp⟩
theorem kv2 : VO.Valid (listOf Elem.box) k2 (.pushBack v (.obj u)) :=
  ⟨⟨VO.Demo.alive (by decide +kernel), trivial, .inl trivial⟩, by
    rintro q rfl; exact ⟨listVal_ne (vinner_inv kr2) (alive (by decide +kernel)), VO.Demo.notElem kr2 (by decide +kernel)⟩⟩
theorem ksort2 : Valid Elem.box k2.i (.sort boxLess (.stk 2)) := by
  obtain ⟨τ, hi⟩ := vinner_inv kr2
  obtain ⟨x, hx⟩ := (LC.alive_iff hi.outer).1 ka2
  have h1 : Objs k2.i (.stk 2) (LC.view x.els) := (LC.contents_iff hi.outer hx).2 rfl
  exact v_sort ka2 h1 (by rw [elems_ok (L := [(.dyn 2, .stk 4), (.dyn 1, .stk 3), (.dyn 0, .stk 2)]) (by decide +kernel) h1]; decide)

/-! ### A list of `shared_ptr` -/

def p2 : ST (SP.W Nat) := ⟨LC.start env, VO.Demo.h1⟩
def p3 : ST (SP.W Nat) := go VO.sharedOps (.create 0) p2
/-- A `shared_ptr` is copied into a list. -/
def p4 : ST (SP.W Nat) := go VO.sharedOps (.pushBack v (.obj (.stk 0))) p3
theorem pr2 : Reach Elem.shared p2 := .start ⟨VO.Demo.noWeak1, fun _ _ _ => trivial⟩
theorem pr3 : Reach Elem.shared p3 := step pr2 (plain trivial (fun _ h => h) (fun _ h => h) fun _ h => h) (by decide +kernel)
theorem pv3 : Valid Elem.shared p3 (.pushBack v (.obj (.stk 0))) :=
  ⟨alive (by decide +kernel), by rintro q rfl; exact live (by decide +kernel), fun _ h => h.elim, fun _ h => h.elim⟩
theorem prun3 : ∃ r, Runs (exec VO.sharedOps (.pushBack v (.obj (.stk 0)))) (ready p3) r p4 := runs (by decide +kernel)
theorem pr4 : Reach Elem.shared p4 := step pr3 pv3 (by decide +kernel)
theorem po4 : IsElem p4 (.stk 1) :=
  ⟨v, [(.dyn 0, .stk 1)], .dyn 0, alive (by decide +kernel), objs pr4 (alive (by decide +kernel)) (by decide +kernel), by simp⟩
theorem pval4 : VO.sharedVal p4.i (.stk 1) = some ⟨.dyn 0, .dyn 0⟩ := by decide +kernel

end Demo

/-! ### Any nesting -/

/-- The types of nested containers of an element class. -/
inductive Ty
  | elem              -- `T`
  | vec (t : Ty)      -- `vector<t>`
  | list (t : Ty)     -- `list<t>`

/-- The memory of objects of such a type. -/
def Ty.Mem (S : Type) : Ty → Type
  | .elem => S
  | .vec t => VO.NS (t.Mem S)
  | .list t => ST (t.Mem S)

/-- The values of objects of such a type: sequences of sequences of … of values. -/
def Ty.Val (A : Type) : Ty → Type
  | .elem => A
  | .vec t => List (t.Val A)
  | .list t => List (t.Val A)

/-- What the client has of the lower levels. -/
def Ty.Rest (A X : Type) : Ty → Type
  | .elem => X
  | .vec t => (Ptr → Option (t.Val A)) × t.Rest A X
  | .list t => (Ptr → Option (t.Val A)) × t.Rest A X

/-- Nested containers as an element class. -/
noncomputable def nest [ElemSize Ptr] (E : Elem S A X) : (t : Ty) → Elem (t.Mem S) (t.Val A) (t.Rest A X)
  | .elem => E
  | .vec t => Elem.vector (nest E t)
  | .list t => listOf (nest E t)

variable [ElemSize Ptr] in
/-- C97: lists of lists and vectors of lists and vectors of …, nested in any way and to any depth, of any element class: every call
on the outermost lists whose precondition holds terminates without undefined behaviour on any level, has the specified effect on
the sequences (of sequences …) of values, and leaves everything alone that is not part of a list, apart from emptying what was
moved into one. -/
theorem nest_list_calls (t : Ty) {s : ST (t.Mem S)} (hr : Reach (nest E t) s) {c : Call (t.Mem S)} (hv : Valid (nest E t) s c)
    {c' : LC.Call (t.Val A)} (hm : c.Means (nest E t) ((nest E t).val s.i) c') {B : LC.AState (t.Val A)} (hB : Shows (nest E t) s B) :
    ∃ r s' B', Runs (exec (nest E t).toElemOps c) (ready s) r s' ∧ Reach (nest E t) s' ∧ Shows (nest E t) s' B' ∧
      LC.Spec B c' r s'.o.err.isSome B' ∧ (nest E t).rest s'.i = (nest E t).rest s.i ∧
      (∀ q, ¬ IsElem s' q ∧ (nest E t).val s'.i q ≠ none ↔ ¬ IsElem s q ∧ (nest E t).val s.i q ≠ none) ∧
      ∀ q x y, ¬ IsElem s q → (nest E t).val s.i q = some x → (nest E t).val s'.i q = some y →
        c.After (nest E t).blank s'.o.err.isSome q x y := by
  obtain ⟨r, s', h1, h2⟩ := listOf_calls_safe hr hv
  obtain ⟨B', h3, h4⟩ := listOf_calls_refine hr hv h1 hm hB
  obtain ⟨h5, h6, h7⟩ := listOf_calls_outside hr hv h1
  exact ⟨r, s', B', h1, h2, h3, h4, h5, h6, h7⟩

open scoped VO.Demo in
/-- A list of lists of boxes and a list of vectors of boxes. -/
example : Reach (nest Elem.box (.list .elem)) Demo.n2 ∧
    Valid (nest Elem.box (.list .elem)) Demo.n2 (.pushBack Demo.v (.obj (.stk 2))) ∧
    Values (nest Elem.box (.list .elem)) Demo.n2 Demo.v [(.dyn 0, ([7, 8, 7] : List Nat))] ∧
    Reach (nest Elem.box (.vec .elem)) Demo.m2 ∧ Valid (nest Elem.box (.vec .elem)) Demo.m2 (.insertN Demo.v Demo.v 3 (.obj Demo.u)) ∧
    Values (nest Elem.box (.vec .elem)) Demo.m2 Demo.v [(.dyn 0, ([7, 8] : List Nat))] :=
  ⟨Demo.nr2, Demo.nv2, Demo.nvals2, Demo.mr2, Demo.mv2, Demo.mvals2⟩

variable [ElemSize Ptr] in
/-- C97: as `nest_list_calls`, for vectors of such nested containers. -/
theorem nest_vector_calls (t : Ty) {s : VO.NS (t.Mem S)} (hr : VO.Reach (nest E t) s) {c : VO.Call} (hv : VO.Valid (nest E t) s c)
    {c' : VC.Call (t.Val A)} (hm : c.Means (nest E t).blank ((nest E t).val s.i) c') {B : VC.AState (t.Val A)}
    (hB : VO.Shows (nest E t) s B) :
    ∃ r s' B', Runs (VO.exec (nest E t).toElemOps c) (VO.ready s) r s' ∧ VO.Reach (nest E t) s' ∧ VO.Shows (nest E t) s' B' ∧
      VC.Spec B c' r s'.o.err.isSome B' ∧ (nest E t).rest s'.i = (nest E t).rest s.i ∧
      (∀ q, ¬ VO.IsElem s' q ∧ (nest E t).val s'.i q ≠ none ↔ ¬ VO.IsElem s q ∧ (nest E t).val s.i q ≠ none) ∧
      ∀ q x y, ¬ VO.IsElem s q → (nest E t).val s.i q = some x → (nest E t).val s'.i q = some y →
        c.After (nest E t).blank s'.o.err.isSome q x y := by
  obtain ⟨r, s', h1, h2⟩ := VO.vectorOf_calls_safe hr hv
  obtain ⟨B', h3, h4⟩ := VO.vectorOf_calls_refine hr hv h1 hm hB
  obtain ⟨h5, h6, h7⟩ := VO.vectorOf_calls_outside hr hv h1
  exact ⟨r, s', B', h1, h2, h3, h4, h5, h6, h7⟩

open scoped VO.Demo in
/-- A vector of lists of boxes. -/
example : VO.Reach (nest Elem.box (.list .elem)) Demo.k2 ∧ VO.Valid (nest Elem.box (.list .elem)) Demo.k2 (.pushBack Demo.v (.obj Demo.u)) ∧
    VO.IsElem Demo.k2 (.stk 2) := ⟨Demo.kr2, Demo.kv2, Demo.kelem2⟩

/-! ### The inner containers -/

theorem destroy_means {c : Call S} {f : Ptr → Option A} {l : Ptr} (hm : c.Means E f (.destroy l)) : c = .destroy l := by
  cases c
  case destroy v =>
    have hm : LC.Call.destroy l = LC.Call.destroy v := hm
    cases hm; rfl
  case insert => obtain ⟨b, -, hm⟩ := hm; cases hm
  case insertMove => obtain ⟨b, -, hm⟩ := hm; cases hm
  case insertN => obtain ⟨b, -, hm⟩ := hm; cases hm
  case insertRange => obtain ⟨b, -, hm⟩ := hm; cases hm
  case pushBack => obtain ⟨b, -, hm⟩ := hm; cases hm
  case pushBackMove => obtain ⟨b, -, hm⟩ := hm; cases hm
  case pushFront => obtain ⟨b, -, hm⟩ := hm; cases hm
  case pushFrontMove => obtain ⟨b, -, hm⟩ := hm; cases hm
  case assignN => obtain ⟨b, -, hm⟩ := hm; cases hm
  case assignObjs => obtain ⟨b, -, hm⟩ := hm; cases hm
  case merge => obtain ⟨b, -, hm⟩ := hm; cases hm
  case sort => obtain ⟨b, -, hm⟩ := hm; cases hm
  all_goals cases (show _ = _ from hm)

/-- A call on inner lists does not destroy other inner lists. -/
theorem inner_call {i : ST S} (hi : ∃ τ, NInv E i τ) {c : Call S} (hv : Valid E i c) :
    ∃ r i', Runs (exec E.toElemOps c) (ready i) r i' ∧ (∃ τ, NInv E i' τ) ∧
      ∀ l, listVal E i l ≠ none → c ≠ .destroy l → listVal E i' l ≠ none := by
  obtain ⟨τ, h2⟩ := hi
  obtain ⟨c', hm⟩ := hv.means
  obtain ⟨r, i', τ', h3, h4, h5, h6⟩ := h2.call hv hm
  refine ⟨r, i', h3, ⟨τ', h4⟩, fun l hl hc => ?_⟩
  rw [h4.listVal]
  rw [h2.listVal] at hl
  exact fun e => VO.lc_spec_alive h6 (fun e => hl (VO.seqOf_none.2 e)) (fun e => hc (destroy_means (by rw [← e]; exact hm))) (VO.seqOf_none.1 e)

/-- C97: between calls on the outer lists, the inner lists - those of the client and the elements of outer lists - can be used with
all calls, as long as no element of an outer list is destroyed. -/
theorem nest_list_list_inner {s : ST (ST S)} (hr : Reach (listOf E) s) {c : Call S} (hv : Valid E s.i c)
    (hd : ∀ l, c = .destroy l → ¬ IsElem s l) : ∃ r i', Runs (exec E.toElemOps c) (ready s.i) r i' ∧ Reach (listOf E) ⟨s.o, i'⟩ := by
  obtain ⟨σ, h⟩ := hr.inv
  obtain ⟨r, i', h1, h2, h3⟩ := inner_call h.inv hv
  refine ⟨r, i', h1, .client hr h2 fun q hq => ?_⟩
  obtain ⟨t, x, e, k1, k2, rfl⟩ := h.owned.1 (h.isElem.1 hq)
  exact h3 _ (h.live _ _ _ k1 k2) fun hc => hd _ hc hq

/-- An element of an inner list is copied to the end of that list. -/
example : Reach (listOf Elem.box) Demo.n2 ∧ IsElem Demo.n2 (.stk 2) ∧ Valid Elem.box Demo.n2.i (.pushBack (.stk 2) (.obj (.stk 3))) :=
  ⟨Demo.nr2, Demo.nelem2, Demo.npush2⟩

variable [ElemSize Ptr] in
/-- C97: the same for lists in vectors. -/
theorem nest_vector_list_inner {s : VO.NS (ST S)} (hr : VO.Reach (listOf E) s) {c : Call S} (hv : Valid E s.i c)
    (hd : ∀ l, c = .destroy l → ¬ VO.IsElem s l) :
    ∃ r i', Runs (exec E.toElemOps c) (ready s.i) r i' ∧ VO.Reach (listOf E) ⟨s.o, i'⟩ := by
  obtain ⟨σ, h⟩ := hr.inv
  obtain ⟨r, i', h1, h2, h3⟩ := inner_call h.inv hv
  refine ⟨r, i', h1, .client hr h2 fun q hq => ?_⟩
  obtain ⟨t, x, k1, k2⟩ := h.owned.1 (h.isElem.1 hq)
  exact h3 _ (h.live _ _ _ k1 k2) fun hc => hd _ hc hq

open scoped VO.Demo in
/-- A list in a vector is sorted. -/
example : VO.Reach (listOf Elem.box) Demo.k2 ∧ VO.IsElem Demo.k2 (.stk 2) ∧ Valid Elem.box Demo.k2.i (.sort Demo.boxLess (.stk 2)) :=
  ⟨Demo.kr2, Demo.kelem2, Demo.ksort2⟩

variable [ElemSize Ptr] in
/-- C97: the same for vectors in lists. -/
theorem nest_list_vector_inner {s : ST (VO.NS S)} (hr : Reach (Elem.vector E) s) {c : VO.Call} (hv : VO.Valid E s.i c)
    (hd : ∀ l, c = .destroy l → ¬ IsElem s l) :
    ∃ r i', Runs (VO.exec E.toElemOps c) (VO.ready s.i) r i' ∧ Reach (Elem.vector E) ⟨s.o, i'⟩ := by
  obtain ⟨σ, h⟩ := hr.inv
  obtain ⟨τ, h2⟩ := h.inv
  obtain ⟨c', hm⟩ := VO.Call.Means.exists (blank := E.blank) fun q hq => (hv.2 q hq).1
  obtain ⟨r, i', τ', h3, h4, h5, h6⟩ := h2.call hv hm
  refine ⟨r, i', h3, .client hr ⟨τ', h4⟩ ?_⟩
  intro q hq
  obtain ⟨t, x, e, k1, k2, rfl⟩ := h.owned.1 (h.isElem.1 hq)
  have k3 : VO.vecVal E s.i e.v ≠ none := h.live _ _ _ k1 k2
  show VO.vecVal E i' e.v ≠ none
  rw [h4.vecVal]
  rw [h2.vecVal] at k3
  have k4 : VO.seqs E s.i.i τ e.v ≠ none := fun e => k3 (by rw [e]; rfl)
  have k5 := VO.vc_spec_alive h6 k4 (by
    rintro rfl
    refine hd e.v ?_ hq
    cases c
    case destroy v =>
      have hm : VC.Call.destroy e.v = VC.Call.destroy v := hm
      cases hm; rfl
    case pushBack => obtain ⟨b, -, hm⟩ := hm; cases hm
    case resize => obtain ⟨b, -, hm⟩ := hm; cases hm
    case assignN => obtain ⟨b, -, hm⟩ := hm; cases hm
    case pushMove => obtain ⟨b, -, hm⟩ := hm; cases hm
    case assignObjs => obtain ⟨b, -, hm⟩ := hm; cases hm
    all_goals cases (show _ = _ from hm))
  obtain ⟨y, e⟩ := Option.ne_none_iff_exists'.1 k5
  rw [e]; simp

open scoped VO.Demo in
/-- A vector in a list is cleared. -/
example : Reach (Elem.vector Elem.box) Demo.m2 ∧ IsElem Demo.m2 (.stk 3) ∧ VO.Valid Elem.box Demo.m2.i (.clear (.stk 3)) :=
  ⟨Demo.mr2, Demo.melem2, Demo.mclear2⟩

/-- C97: when the lists of both levels have been destroyed, no memory of either level is left. -/
theorem nest_all_destroyed {s : ST (ST S)} (hr : Reach (listOf E) s) (hd : ∀ t, ¬ LC.Alive s.o t) (hd' : ∀ t, ¬ LC.Alive s.i.o t) :
    (∀ p, s.o.heap p = none) ∧ (∀ p, s.i.o.heap p = none) ∧ ∀ q, ¬ IsElem s.i q := by
  refine ⟨(listOf_all_destroyed hr hd).1, ?_⟩
  obtain ⟨σ, h0⟩ := hr.inv
  obtain ⟨τ, h⟩ := h0.inv
  refine ⟨?_, fun q hq => ?_⟩
  · intro p
    refine Classical.byContradiction fun h0 => ?_
    rcases h.outer.st.cover p (by rw [Ne, LL.dat_none]; exact h0) with h1 | ⟨t, ls, h1, _⟩
    · exact hd' _ ((LC.alive_iff h.outer).2 (Option.ne_none_iff_exists'.1 h1))
    · exact hd' _ ((LC.alive_iff h.outer).2 ⟨ls, h1⟩)
  · obtain ⟨v, qs, p, h1, -⟩ := hq
    exact hd' _ h1

/-- The inner lists have been destroyed, and there is no outer list (any more). -/
example : Reach (listOf Elem.box) ⟨LC.start Demo.env, Demo.s10⟩ ∧
    (∀ t, ¬ LC.Alive (⟨LC.start Demo.env, Demo.s10⟩ : ST (ST Boxes)).o t) ∧ ∀ t, ¬ LC.Alive Demo.s10.o t :=
  ⟨.start Demo.r10.inv, by rintro t ⟨i, rfl, h⟩; exact h rfl, Demo.gone10⟩

/-! ### Lists of `shared_ptr` -/

open Nestl.SP (At Val Hnd)
variable {V : Type}

/-- C97: the objects owned by the elements of lists of `shared_ptr` are alive, and `use_count()` counts the elements among the
owners. -/
theorem listOf_shared_alive {s : ST (SP.W V)} (hr : Reach Elem.shared s) {q : Ptr} (hq : IsElem s q) :
    ∃ h, At s.i.heap .sh (.var q) h ∧ (h.ref ≠ .null → SP.Alive s.i h.ref ∧
      ∃ n, SP.Card (fun m => SP.Refers s.i .sh m h.ref) n ∧ 0 < n ∧ Runs (SP.useCount (.var q)) s.i n s.i) := by
  obtain ⟨σ, h⟩ := hr.inv
  obtain ⟨t, x, e, k1, k2, rfl⟩ := h.owned.1 (h.isElem.1 hq)
  obtain ⟨y, hy⟩ := Option.ne_none_iff_exists'.1 (h.live _ _ _ k1 k2)
  have hy : At s.i.heap .sh (.var e.v) y := VO.sharedVal_some.1 hy
  refine ⟨y, hy, fun hn => ?_⟩
  have hR : SP.Refers s.i .sh (.var e.v) y.ref := ⟨hn, y, hy, rfl⟩
  have hreach : SP.Reach s.i := h.inv.1.1
  refine ⟨(SP.alive_iff_owned_partial hreach _).2 ⟨_, hR⟩, ?_⟩
  obtain ⟨n, h1, h2, h3, -⟩ := SP.use_count_correct hreach.hist hR
  exact ⟨n, h1, h2, h3⟩

example : Reach Elem.shared Demo.p4 ∧ IsElem Demo.p4 (.stk 1) ∧ VO.sharedVal Demo.p4.i (.stk 1) = some ⟨.dyn 0, .dyn 0⟩ :=
  ⟨Demo.pr4, Demo.po4, Demo.pval4⟩

/-- C97: a call on lists of `shared_ptr` without a comparator destroys exactly those managed objects whose last owners it destroys;
the others keep their values. -/
theorem listOf_shared_objects {s s' : ST (SP.W V)} (hr : Reach Elem.shared s) {c : Call (SP.W V)} (hv : Valid Elem.shared s c)
    (hc : ∀ f, ¬ c.compares f) {r : LC.Res} (hrun : Runs (exec VO.sharedOps c) (ready s) r s') (b : Ptr) (v : V) :
    Val s'.i.heap b v ↔ Val s.i.heap b v ∧ ∃ l, SP.Refers s'.i .sh l b := by
  obtain ⟨σ, h⟩ := hr.inv
  have h' : NInv (Elem.sharedIn (Val s.i.heap)) s σ := ⟨h.outer, h.own, ⟨h.inv.1, fun _ _ h => h⟩, h.live, h.uniq⟩
  have hv' : Valid (Elem.sharedIn (Val s.i.heap)) s c := ⟨hv.1, hv.2.1, hv.2.2.1, fun f hf => (hc f hf).elim⟩
  obtain ⟨c', hm⟩ := hv'.means
  obtain ⟨r1, s1, σ', h1, h2, -⟩ := h'.call hv' hm
  obtain ⟨rfl, rfl⟩ := Runs.det hrun h1
  have hreach : SP.Reach s'.i := h2.inv.1.1
  have hal := SP.alive_iff_owned_partial hreach b
  constructor
  · intro hb; exact ⟨h2.inv.2 _ _ hb, hal.1 ⟨_, hb⟩⟩
  · rintro ⟨hb, hl⟩
    obtain ⟨u, hu⟩ := hal.2 hl
    have h3 := h2.inv.2 _ _ hu
    obtain ⟨c1, o1, a1, a2, rfl⟩ := hb
    obtain ⟨c2, o2, a3, a4, rfl⟩ := h3
    rw [a1] at a3; cases a3
    rw [a2] at a4; cases a4
    exact hu

example : Reach Elem.shared Demo.p3 ∧ Valid Elem.shared Demo.p3 (.pushBack Demo.v (.obj (.stk 0))) ∧
    (∀ f, ¬ Call.compares (.pushBack Demo.v (.obj (.stk 0)) : Call (SP.W Nat)) f) ∧
    ∃ r, Runs (exec VO.sharedOps (.pushBack Demo.v (.obj (.stk 0)))) (ready Demo.p3) r Demo.p4 :=
  ⟨Demo.pr3, Demo.pv3, fun _ h => h, Demo.prun3⟩

end Nestl.LO
