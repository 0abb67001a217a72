import Verif.TreeOf.NestOrder
set_option autoImplicit false
/-
Concrete reachable states used by the examples beside the theorems about nested containers of C99.
-/
namespace Nestl.TO
open Nestl.VO (Elem ElemOps Boxes boxOps)
open Nestl.NO
open Nestl.Set (Alive)
open Nestl.Vec (ElemSize)
open Nestl.RB (T TNode Tree)
open Nestl.LO.Demo (boxLess)
variable {S A X : Type} {E : Elem S A X}

theorem setVal_ne {s : ST S} (hi : NInv E s) {t : Ptr} (ha : Alive s.o t) : setVal E s t ≠ none := by
  obtain ⟨B, hB, -⟩ := hi.shows
  rw [setVal_eq hB]
  exact fun e => (hB.1 t).1 ha (VO.seqOf_none.1 e)

namespace Demo

deriving instance DecidableEq for Res

theorem setVal_val {s : ST S} {t : Ptr} {L : List (Ptr × A)} (ha : Alive s.o t) (hL : Values E s t L) : setVal E s t = some (L.map Prod.snd) := by
  have h : Alive s.o t ∧ ∃ L, Values E s t L := ⟨ha, L, hL⟩
  unfold setVal
  rw [dif_pos h, values_unique h.2.choose_spec hL]

/-! ### A set of sets of boxes -/

/-- `operator<` of trees of boxes. -/
noncomputable def sord : Order (ST Boxes) (List Nat) := ⟨treeLess boxLess, lexLt ord.lt⟩

theorem sord_ok : Compares (setOf Elem.box) sord.less sord.lt := treeOf_less_compares ord_ok
theorem sord_swo : SWO sord.lt := lex_swo ord_swo

/-- The client has the two sets of boxes of `s5`. -/
def n0 : ST (ST Boxes) := ⟨Set.start env, s5⟩
/-- An outer set. -/
def n1 : ST (ST Boxes) := go (setOps boxOps) (.create 0 : Call (ST Boxes) (List Nat)) n0
/-- The first inner set is moved into it. -/
noncomputable def n2 : ST (ST Boxes) := go (setOps boxOps) (.insert sord .plain v (.mov v)) n1

theorem nr0 : Reach (setOf Elem.box) n0 := .start r5.inv
theorem nr1 : Reach (setOf Elem.box) n1 := step nr0 v_create (r := .obj v) (by decide +kernel)
theorem nv1 : Valid (setOf Elem.box) n1 (.insert sord .plain v (.mov v)) :=
  ⟨alive (by decide +kernel), ⟨trivial, fun h => h.elim⟩, fun _ h => h.elim, by
    rintro q rfl; exact ⟨setVal_ne nr1.inv.inv (alive (by decide +kernel)), notElem nr1 (by decide +kernel)⟩, fun _ h => h.elim,
    by rintro o ⟨⟩; exact sord_ok⟩
theorem nr2 : Reach (setOf Elem.box) n2 := step nr1 nv1 (r := .ins (.dyn 0) true) (by decide +kernel)
theorem nt2 : Tree n2.o.heap v 0 (.node (.dyn 0) .black .nil (.stk 2) .nil) := tree1 (by decide +kernel) (by decide +kernel) ⟨_, rfl⟩
theorem no2 : Objs n2 v [(.dyn 0, .stk 2)] := objs nt2
theorem na2 : Alive n2.i.o (.stk 2) := alive (by decide +kernel)
theorem nt2i : Tree n2.i.o.heap (.stk 2) 0 (.node (.dyn 0) .black .nil (.stk 2) (.node (.dyn 1) .red .nil (.stk 3) .nil)) :=
  tree2 (by decide +kernel) (by decide +kernel) (by decide +kernel) ⟨_, rfl⟩ (by decide)
theorem nvals2i : Values Elem.box n2.i (.stk 2) [(.dyn 0, 7), (.dyn 1, 8)] := values (objs nt2i) (by decide +kernel)
theorem nvals2 : Values (setOf Elem.box) n2 v [(.dyn 0, [7, 8])] := ⟨_, no2, by
  show [(Ptr.dyn 0, setVal Elem.box n2.i (.stk 2))] = _
  rw [setVal_val na2 nvals2i]; rfl⟩
theorem nelem2 : IsElem n2 (.stk 2) := ⟨v, _, .dyn 0, alive (by decide +kernel), no2, by simp⟩
/-- The second inner set is to be moved into the outer one; it is compared with the element by `operator<`. -/
theorem nv2 : Valid (setOf Elem.box) n2 (.insert sord .plain v (.mov u)) :=
  ⟨alive (by decide +kernel), ⟨trivial, fun h => h.elim⟩, fun _ h => h.elim, by
    rintro q rfl; exact ⟨setVal_ne nr2.inv.inv (alive (by decide +kernel)), notElem nr2 (by decide +kernel)⟩, fun _ h => h.elim,
    by rintro o ⟨⟩; exact sord_ok⟩
/-- An element of the inner set is found. -/
theorem nclear2 : Valid Elem.box n2.i (.clear (.stk 2)) := plain na2 trivial (fun _ h => h) (fun _ h => h) (fun _ h => h) rfl

/-! ### Sets of boxes in a list and in a vector -/

open scoped VO.Demo

def l0 : LO.ST (ST Boxes) := ⟨LC.start LO.Demo.env, s5⟩
def l1 : LO.ST (ST Boxes) := LO.Demo.go (setOps boxOps) (.create 0) l0
/-- The first set is moved into a list. -/
def l2 : LO.ST (ST Boxes) := LO.Demo.go (setOps boxOps) (.pushFrontMove v v) l1
theorem lr0 : LO.Reach (setOf Elem.box) l0 := .start r5.inv
theorem lr1 : LO.Reach (setOf Elem.box) l1 :=
  LO.Demo.step lr0 (LO.Demo.plain trivial (fun _ h => h) (fun _ h => h) fun _ h => h) (by decide +kernel)
theorem lv1 : LO.Valid (setOf Elem.box) l1 (.pushFrontMove v v) :=
  ⟨LO.Demo.alive (by decide +kernel), fun _ h => h.elim, by
    rintro q rfl; exact ⟨setVal_ne (LO.Demo.inner_inv lr1) (alive (by decide +kernel)), LO.Demo.notElem lr1 (by decide +kernel)⟩, fun _ h => h.elim⟩
theorem lr2 : LO.Reach (setOf Elem.box) l2 := LO.Demo.step lr1 lv1 (by decide +kernel)
theorem lo2 : LO.Objs l2 v [(.dyn 0, .stk 2)] := LO.Demo.objs lr2 (LO.Demo.alive (by decide +kernel)) (by decide +kernel)
theorem la2 : Alive l2.i.o (.stk 2) := alive (by decide +kernel)
theorem lelem2 : LO.IsElem l2 (.stk 2) := ⟨v, _, .dyn 0, LO.Demo.alive (by decide +kernel), lo2, by simp⟩
theorem lv2 : LO.Valid (setOf Elem.box) l2 (.pushFrontMove v u) :=
  ⟨LO.Demo.alive (by decide +kernel), fun _ h => h.elim, by
    rintro q rfl; exact ⟨setVal_ne (LO.Demo.inner_inv lr2) (alive (by decide +kernel)), LO.Demo.notElem lr2 (by decide +kernel)⟩, fun _ h => h.elim⟩
theorem linsert2 : Valid Elem.box l2.i (.insert ord .plain (.stk 2) (.obj (.stk 0))) := v_insert la2 (live (by decide +kernel))

def k0 : VO.NS (ST Boxes) := ⟨VC.start VO.Demo.env, s5⟩
def k1 : VO.NS (ST Boxes) := VO.Demo.go (setOps boxOps) (.create 0) k0
/-- The first set is moved into a vector. -/
def k2 : VO.NS (ST Boxes) := VO.Demo.go (setOps boxOps) (.pushMove v v) k1
theorem kr0 : VO.Reach (setOf Elem.box) k0 := .start r5.inv
theorem kr1 : VO.Reach (setOf Elem.box) k1 := VO.Demo.step kr0 ⟨trivial, fun _ h => h.elim⟩ (by decide +kernel)
theorem kv1 : VO.Valid (setOf Elem.box) k1 (.pushMove v v) :=
  ⟨⟨VO.Demo.alive (by decide +kernel), trivial, .inl trivial⟩, by
    rintro q rfl; exact ⟨setVal_ne (LO.Demo.vinner_inv kr1) (alive (by decide +kernel)), VO.Demo.notElem kr1 (by decide +kernel)⟩⟩
theorem kr2 : VO.Reach (setOf Elem.box) k2 := VO.Demo.step kr1 kv1 (by decide +kernel)
theorem ka2 : Alive k2.i.o (.stk 2) := alive (by decide +kernel)
theorem ko2 : VO.Objs k2 v [.stk 2] := VO.Demo.objs kr2 (VO.Demo.alive (by decide +kernel)) (by decide +kernel)
theorem kelem2 : VO.IsElem k2 (.stk 2) := ⟨v, _, VO.Demo.alive (by decide +kernel), ko2, by simp⟩
theorem kv2 : VO.Valid (setOf Elem.box) k2 (.pushMove v u) :=
  ⟨⟨VO.Demo.alive (by decide +kernel), trivial, .inl trivial⟩, by
    rintro q rfl; exact ⟨setVal_ne (LO.Demo.vinner_inv kr2) (alive (by decide +kernel)), VO.Demo.notElem kr2 (by decide +kernel)⟩⟩
theorem kinsert2 : Valid Elem.box k2.i (.insert ord .plain (.stk 2) (.obj (.stk 0))) := v_insert ka2 (live (by decide +kernel))

/-! ### Lists and vectors of boxes in a multiset -/

/-- A comparator for which all objects are equivalent. -/
def same : Order S A := ⟨fun _ _ => pure false, fun _ _ => false⟩
theorem same_ok : Compares E (same : Order S A).less (same : Order S A).lt := fun i _ _ _ _ h _ _ => ⟨rfl, h, rfl, rfl⟩

def x0 : ST (LO.ST Boxes) := ⟨Set.start env, LO.Demo.s5⟩
def x1 : ST (LO.ST Boxes) := go (LO.listOps boxOps) (.create 0 : Call (LO.ST Boxes) (List Nat)) x0
/-- The first list is moved into a multiset. -/
def x2 : ST (LO.ST Boxes) := go (LO.listOps boxOps) (.insert (same : Order _ (List Nat)) .upper v (.mov v)) x1
theorem xr0 : Reach (LO.listOf Elem.box) x0 := .start LO.Demo.r5.inv
theorem xr1 : Reach (LO.listOf Elem.box) x1 := step xr0 v_create (r := .obj v) (by decide +kernel)
theorem xv {s : ST S} {t q : Ptr} (ha : Alive s.o t) (hq : E.val s.i q ≠ none) (hn : ¬ IsElem s q) : Valid E s (.insert same .upper t (.mov q)) :=
  ⟨ha, ⟨trivial, fun h => h.elim⟩, fun _ h => h.elim, by rintro q rfl; exact ⟨hq, hn⟩, fun _ h => h.elim, by rintro o ⟨⟩; exact same_ok⟩
theorem xv1 : Valid (LO.listOf Elem.box) x1 (.insert same .upper v (.mov v)) :=
  xv (alive (by decide +kernel)) (LO.Demo.listVal_ne xr1.inv.inv (LO.Demo.alive (by decide +kernel))) (notElem xr1 (by decide +kernel))
theorem xr2 : Reach (LO.listOf Elem.box) x2 := step xr1 xv1 (r := .pos (.dyn 0)) (by decide +kernel)
theorem xt2 : Tree x2.o.heap v 0 (.node (.dyn 0) .black .nil (.stk 2) .nil) := tree1 (by decide +kernel) (by decide +kernel) ⟨_, rfl⟩
theorem xelem2 : IsElem x2 (.stk 2) := ⟨v, _, .dyn 0, alive (by decide +kernel), objs xt2, by simp [RB.T.nodes]⟩
theorem xv2 : Valid (LO.listOf Elem.box) x2 (.insert same .upper v (.mov u)) :=
  xv (alive (by decide +kernel)) (LO.Demo.listVal_ne xr2.inv.inv (LO.Demo.alive (by decide +kernel))) (notElem xr2 (by decide +kernel))
theorem xpush2 : LO.Valid Elem.box x2.i (.pushBack (.stk 2) (.obj (.stk 3))) :=
  LO.Demo.v_pushBack (LO.Demo.alive (by decide +kernel)) (LO.Demo.live (by decide +kernel))

def y0 : ST (VO.NS Boxes) := ⟨Set.start env, VO.Demo.s5⟩
def y1 : ST (VO.NS Boxes) := go (VO.vecOps boxOps) (.create 0 : Call (VO.NS Boxes) (List Nat)) y0
/-- The first vector is moved into a multiset. -/
def y2 : ST (VO.NS Boxes) := go (VO.vecOps boxOps) (.insert (same : Order _ (List Nat)) .upper v (.mov v)) y1
theorem yr0 : Reach (Elem.vector Elem.box) y0 := .start VO.Demo.r5.inv
theorem yr1 : Reach (Elem.vector Elem.box) y1 := step yr0 v_create (r := .obj v) (by decide +kernel)
theorem yv1 : Valid (Elem.vector Elem.box) y1 (.insert same .upper v (.mov v)) :=
  xv (alive (by decide +kernel)) (live (by decide +kernel)) (notElem yr1 (by decide +kernel))
theorem yr2 : Reach (Elem.vector Elem.box) y2 := step yr1 yv1 (r := .pos (.dyn 0)) (by decide +kernel)
theorem yt2 : Tree y2.o.heap v 0 (.node (.dyn 0) .black .nil (.stk 3) .nil) := tree1 (by decide +kernel) (by decide +kernel) ⟨_, rfl⟩
theorem yelem2 : IsElem y2 (.stk 3) := ⟨v, _, .dyn 0, alive (by decide +kernel), objs yt2, by simp [RB.T.nodes]⟩
theorem yclear2 : VO.Valid Elem.box y2.i (.clear (.stk 3)) := ⟨VO.Demo.alive (by decide +kernel), fun _ h => h.elim⟩

/-! ### A multiset of `shared_ptr` -/

def p2 : ST (SP.W Nat) := ⟨Set.start env, VO.Demo.h1⟩
def p3 : ST (SP.W Nat) := go VO.sharedOps (.create 0 : Call (SP.W Nat) SP.Hnd) p2
/-- A `shared_ptr` is copied into a multiset. -/
def p4 : ST (SP.W Nat) := go VO.sharedOps (.insert (same : Order _ SP.Hnd) .upper v (.obj (.stk 0))) p3
theorem pr2 : Reach Elem.shared p2 := .start ⟨VO.Demo.noWeak1, fun _ _ _ => trivial⟩
theorem pr3 : Reach Elem.shared p3 := step pr2 v_create (r := .obj v) (by decide +kernel)
theorem pv3 : Valid Elem.shared p3 (.insert same .upper v (.obj (.stk 0))) :=
  ⟨alive (by decide +kernel), ⟨trivial, fun h => h.elim⟩, by rintro q rfl; exact live (by decide +kernel), fun _ h => h.elim, fun _ h => h.elim,
    by rintro o ⟨⟩; exact same_ok⟩
theorem pr4 : Reach Elem.shared p4 := step pr3 pv3 (r := .pos (.dyn 0)) (by decide +kernel)
theorem pt4 : Tree p4.o.heap v 0 (.node (.dyn 0) .black .nil (.stk 1) .nil) := tree1 (by decide +kernel) (by decide +kernel) ⟨_, rfl⟩
theorem po4 : IsElem p4 (.stk 1) := ⟨v, _, .dyn 0, alive (by decide +kernel), objs pt4, by simp [RB.T.nodes]⟩
theorem pval4 : VO.sharedVal p4.i (.stk 1) = some ⟨.dyn 0, .dyn 0⟩ := by decide +kernel
theorem pv4 : Valid Elem.shared p4 (.clear v) := plain (alive (by decide +kernel)) trivial (fun _ h => h) (fun _ h => h) (fun _ h => h) rfl

end Demo
end Nestl.TO
