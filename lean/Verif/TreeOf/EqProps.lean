import Verif.VectorOf.Equal
import Verif.TreeOf.NestProps
set_option autoImplicit false
/-
C109: `operator==` of containers of objects, nested to any depth.
-/

/-! ### Vectors -/

namespace Nestl.VO
open Nestl.Vec (ElemSize)
open Nestl.NO (Compares)
open Nestl.TO (listEq)
open Classical
variable {S A X : Type} {E : Elem S A X} {s : NS S}

variable [ElemSize Ptr] in
/-- C109: `operator==` of vectors compares the elements with the comparison of their class: it holds iff the vectors are equally long and
corresponding elements are equal, and it changes nothing: all vectors consist of the same objects, and all objects have the same values. -/
theorem vectorOf_equal (hr : Reach E s) {eqv : Ptr → Ptr → M S Bool} {eq : A → A → Bool} (hc : Compares E eqv eq) {t u : Ptr}
    {L L' : List A} (ha : VC.Alive s.o t) (ha' : VC.Alive s.o u) (hL : Values E s t L) (hL' : Values E s u L') :
    ∃ b s', Runs (equal eqv t u) s b s' ∧
      (b = true ↔ L.length = L'.length ∧ ∀ (k : Nat) a c, L[k]? = some a → L'[k]? = some c → eq a c = true) ∧
      Reach E s' ∧ E.val s'.i = E.val s.i ∧ E.rest s'.i = E.rest s.i ∧ (∀ B, Shows E s' B ↔ Shows E s B) ∧
      (∀ v qs, Objs s' v qs ↔ Objs s v qs) ∧ s'.o.err = s.o.err := by
  obtain ⟨σ, h⟩ := hr.inv
  obtain ⟨x, hx⟩ := (VC.alive_iff h.outer).1 ha
  obtain ⟨y, hy⟩ := (VC.alive_iff h.outer).1 ha'
  obtain ⟨qs, h1, h2⟩ := hL
  obtain rfl := (VC.contents_iff h.outer hx).1 h1
  obtain ⟨qs, h3, h4⟩ := hL'
  obtain rfl := (VC.contents_iff h.outer hy).1 h3
  obtain ⟨b, i, k1, k2, k3, k4, k5⟩ := h.equal hc hx hy h2 h4
  refine ⟨b, _, k1, k2, .client hr k3 fun q hq => ?_, k4, k5, fun B => ?_, fun _ _ => .rfl, rfl⟩
  · rw [k4]
    obtain ⟨t, x, k1, k2⟩ := h.owned.1 (h.isElem.1 hq)
    exact h.live _ _ _ k1 k2
  · unfold Shows Values
    simp only [k4]
    exact .rfl

namespace Demo
/-- The comparison returns `true`. -/
def says {σ : Type} (m : M σ Bool) (s : σ) : Bool :=
  match m s with
  | some (.ok (b, _)) => b
  | _ => false

/-- The second outer vector, with the second vector of boxes moved into it. -/
def q3 : NS (NS Boxes) := go (vecOps boxOps) (.create 0) n2
def q4 : NS (NS Boxes) := go (vecOps boxOps) (.pushMove u u) q3
theorem qr3 : Reach (Elem.vector Elem.box) q3 := step nr2 ⟨trivial, fun _ h => h.elim⟩ (by decide +kernel)
theorem qv3 : Valid (Elem.vector Elem.box) q3 (.pushMove u u) :=
  ⟨⟨alive (by decide +kernel), trivial, .inl trivial⟩, by
    rintro q rfl; exact ⟨live (by decide +kernel), notElem qr3 (by decide +kernel)⟩⟩
theorem qr4 : Reach (Elem.vector Elem.box) q4 := step qr3 qv3 (by decide +kernel)
theorem qvals : Values (Elem.vector Elem.box) q4 v [[7, 8]] :=
  values (objs qr4 (alive (by decide +kernel)) (L := [.stk 3]) (by decide +kernel)) (by decide +kernel)
theorem qvalsu : Values (Elem.vector Elem.box) q4 u [[7, 8]] :=
  values (objs qr4 (alive (by decide +kernel)) (L := [.stk 4]) (by decide +kernel)) (by decide +kernel)

theorem vecVal_of {s : NS S} (hr : Reach E s) {v : Ptr} {L : List A} (ha : VC.Alive s.o v) (hL : Values E s v L) : vecVal E s v = some L := by
  obtain ⟨σ, h⟩ := hr.inv
  obtain ⟨x, hx⟩ := (VC.alive_iff h.outer).1 ha
  obtain ⟨qs, h1, h2⟩ := hL
  obtain rfl := (VC.contents_iff h.outer hx).1 h1
  rw [h.vecVal]
  simp only [seqs, VC.abs, VO.lift, hx, Option.map_some, Option.some.injEq]
  rw [← map_live fun q hq => h.live _ _ _ hx hq] at h2
  exact (List.map_inj_right fun _ _ e => Option.some.inj e).1 h2

theorem qval : vecVal (Elem.vector Elem.box) q4 v = some [[7, 8]] := vecVal_of qr4 (alive (by decide +kernel)) qvals
theorem qvalu : vecVal (Elem.vector Elem.box) q4 u = some [[7, 8]] := vecVal_of qr4 (alive (by decide +kernel)) qvalsu

end Demo

open Demo in
/-- Two vectors with the values 7 and 8. -/
example : Reach Elem.box s5 ∧ Compares Elem.box LO.Demo.boxEq (fun x y => x == y) ∧ VC.Alive s5.o Demo.v ∧ VC.Alive s5.o Demo.u ∧
    Values Elem.box s5 Demo.v [7, 8] ∧ Values Elem.box s5 Demo.u [7, 8] ∧
    says (equal LO.Demo.boxEq Demo.v Demo.u) s5 = true :=
  ⟨r5, LO.Demo.boxEq_ok, alive (by decide +kernel), alive (by decide +kernel), vals5, vals5u, by decide +kernel⟩

variable [ElemSize Ptr] in
/-- C109: `operator==` of vectors is a comparison of elements of containers of vectors. -/
theorem vectorOf_equal_compares {eqv : Ptr → Ptr → M S Bool} {eq : A → A → Bool} (hc : Compares E eqv eq) :
    Compares (Elem.vector E) (equal eqv) (listEq eq) := by
  rintro s p q a b ⟨σ, h⟩ ha hb
  have ha : vecVal E s p = some a := ha
  have hb : vecVal E s q = some b := hb
  obtain ⟨x, hx⟩ := (VC.alive_iff h.outer).1 (h.vecAlive (v := p) (by rw [ha]; simp))
  obtain ⟨y, hy⟩ := (VC.alive_iff h.outer).1 (h.vecAlive (v := q) (by rw [hb]; simp))
  have e1 : x.els.map (E.val s.i) = a.map some := by
    rw [← map_live fun q hq => h.live _ _ _ hx hq]
    rw [h.vecVal] at ha
    simp only [seqs, VC.abs, VO.lift, hx, Option.map_some, Option.some.injEq] at ha
    rw [ha]
  have e2 : y.els.map (E.val s.i) = b.map some := by
    rw [← map_live fun q hq => h.live _ _ _ hy hq]
    rw [h.vecVal] at hb
    simp only [seqs, VC.abs, VO.lift, hy, Option.map_some, Option.some.injEq] at hb
    rw [hb]
  obtain ⟨r, i, k1, k2, k3, k4, k5⟩ := h.equal hc hx hy e1 e2
  refine wp_iff_runs.2 ⟨r, _, k1, ?_, ⟨σ, h.same k3 k4⟩, ?_, ?_⟩
  · rw [Bool.eq_iff_iff, k2]
    simp [listEq]
  · show outside E _ = outside E s
    unfold outside
    rw [k4, k5]
  · show vecVal E _ = vecVal E s
    funext v
    unfold vecVal
    rw [k4]

example : Compares Elem.box LO.Demo.boxEq (fun x y => x == y) := LO.Demo.boxEq_ok

end Nestl.VO

/-! ### Lists -/

namespace Nestl.LO
open Nestl.VO (Elem)
open Nestl.NO
open Nestl.TO (listEq)
open Classical
variable {S A X : Type} {E : Elem S A X}

/-- C109: `operator==` of lists is a comparison of elements of containers of lists. -/
theorem listOf_equal_compares {eqv : Ptr → Ptr → M S Bool} {eq : A → A → Bool} (hc : Compares E eqv eq) :
    Compares (listOf E) (equal eqv) (listEq eq) := by
  rintro s p q a b ⟨σ, h⟩ ha hb
  have ha : listVal E s p = some a := ha
  have hb : listVal E s q = some b := hb
  obtain ⟨x, hx⟩ := (LC.alive_iff h.outer).1 (h.listAlive (l := p) (by rw [ha]; simp))
  obtain ⟨y, hy⟩ := (LC.alive_iff h.outer).1 (h.listAlive (l := q) (by rw [hb]; simp))
  obtain ⟨hi, ho⟩ := h.lift
  have hl : LO.lift (E.val s.i) σ p = some ⟨x.alloc, x.els.filterMap (liftE (E.val s.i))⟩ := by simp [LO.lift, hx]
  have hl' : LO.lift (E.val s.i) σ q = some ⟨y.alloc, y.els.filterMap (liftE (E.val s.i))⟩ := by simp [LO.lift, hy]
  obtain ⟨r, w', h1, rfl, rfl⟩ := (LL.wp_equal eq hi hl hl' (Q := fun r w' => r = _ ∧ w' = _) ⟨rfl, rfl⟩).runs
  obtain ⟨s', k1, k2, k3, -⟩ := q_equal hc (Frozen.calm (E := E) (s₀ := s)) p q s (absW E s) h.rel ⟨fun _ _ => .rfl, rfl, rfl, rfl⟩ _ _ h1
  obtain ⟨σ', k4, k5⟩ := NInv.of_rel k2 hi ho
  have hsq : seqs E s'.i σ' = seqs E s.i σ := by unfold seqs; rw [k5]
  refine wp_iff_runs.2 ⟨_, s', k1, ?_, ⟨σ', k4⟩, ?_, ?_⟩
  · have e1 : (x.els.filterMap (liftE (E.val s.i))).map LL.El.v = a := by
      rw [h.listVal] at ha
      simp only [VO.seqOf, seqs_some hx, Option.map_some, Option.some.injEq] at ha
      rw [← ha, ← LC.view_snd, lv_view]
    have e2 : (y.els.filterMap (liftE (E.val s.i))).map LL.El.v = b := by
      rw [h.listVal] at hb
      simp only [VO.seqOf, seqs_some hy, Option.map_some, Option.some.injEq] at hb
      rw [← hb, ← LC.view_snd, lv_view]
    rw [e1, e2, Bool.eq_iff_iff, LC.allEq_iff]
    simp only [listEq, decide_eq_true_eq]
    refine and_congr_right fun hl => ⟨fun h k c d k1 k2 => ?_, fun h z hz => ?_⟩
    · exact h (c, d) (List.mem_iff_getElem?.2 ⟨k, by rw [List.getElem?_zip_eq_some]; exact ⟨k1, k2⟩⟩)
    · obtain ⟨k, hk⟩ := List.mem_iff_getElem?.1 hz
      rw [List.getElem?_zip_eq_some] at hk
      exact h k _ _ hk.1 hk.2
  · show outside E s' = outside E s
    unfold outside
    rw [k3.2.2.1, k3.2.2.2]
    congr 1
    funext q
    have : Owned s'.o q ↔ Owned s.o q := exists_congr fun p => k3.1 p q
    simp only [this]
  · show listVal E s' = listVal E s
    rw [h.listVal, k4.listVal, hsq]

example : Compares Elem.box LO.Demo.boxEq (fun x y => x == y) := LO.Demo.boxEq_ok

end Nestl.LO

/-! ### Any nesting -/

namespace Nestl.TO
open Nestl.VO (Elem ElemOps Boxes boxOps)
open Nestl.NO
open Nestl.Vec (ElemSize)
variable {S A X : Type} {E : Elem S A X}

/-- `operator==` of nested containers: vector.hpp:226-253, list.hpp:638-663 and red_black_tree.hpp:1282-1287; the comparison of elements that
one of them uses is that of the next level, and `eqv` is the one of the innermost elements. -/
def nestEq (eqv : Ptr → Ptr → M S Bool) : (t : Ty) → Ptr → Ptr → M (t.Mem S) Bool
  | .elem => eqv
  | .vec t => VO.equal (nestEq eqv t)
  | .list t => LO.equal (nestEq eqv t)
  | .set t => treeEq (nestEq eqv t)

/-- Specification: equality of nested sequences of values, up to `eq` of the innermost values. -/
noncomputable def Ty.eqOf (eq : A → A → Bool) : (t : Ty) → t.Val A → t.Val A → Bool
  | .elem => eq
  | .vec t | .list t | .set t => listEq (t.eqOf eq)

variable [ElemSize Ptr] in
theorem nest_equal_compares {eqv : Ptr → Ptr → M S Bool} {eq : A → A → Bool} (hc : Compares E eqv eq) (t : Ty) :
    Compares (nest E t) (nestEq eqv t) (t.eqOf eq) := by
  induction t with
  | elem => exact hc
  | vec t ih => exact VO.vectorOf_equal_compares ih
  | list t ih => exact LO.listOf_equal_compares ih
  | set t ih => exact treeOf_equal_compares ih

theorem listEq_iff {eq : A → A → Bool} (h : ∀ a b, eq a b = true ↔ a = b) {xs ys : List A} : listEq eq xs ys = true ↔ xs = ys := by
  simp only [listEq, decide_eq_true_eq]
  constructor
  · rintro ⟨h1, h2⟩
    refine List.ext_getElem h1 fun i k1 k2 => ?_
    exact (h _ _).1 (h2 i _ _ (List.getElem?_eq_getElem k1) (List.getElem?_eq_getElem k2))
  · rintro rfl
    refine ⟨rfl, fun i x y k1 k2 => ?_⟩
    rw [k1] at k2; cases k2
    exact (h _ _).2 rfl

theorem eqOf_iff {eq : A → A → Bool} (h : ∀ a b, eq a b = true ↔ a = b) : ∀ (t : Ty) (x y : t.Val A), t.eqOf eq x y = true ↔ x = y
  | .elem => h
  | .vec t => fun _ _ => listEq_iff (eqOf_iff h t)
  | .list t => fun _ _ => listEq_iff (eqOf_iff h t)
  | .set t => fun _ _ => listEq_iff (eqOf_iff h t)

variable [ElemSize Ptr] in
/-- C109: `operator==` of containers nested in any way and to any depth terminates without undefined behaviour, tells whether their
values (sequences of sequences of … of values) are equal, and changes nothing on any level. -/
theorem nest_equal (t : Ty) {eqv : Ptr → Ptr → M S Bool} {eq : A → A → Bool} (hc : Compares E eqv eq) (he : ∀ a b, eq a b = true ↔ a = b)
    {m : t.Mem S} (hm : (nest E t).inv m) {p q : Ptr} {x y : t.Val A} (hp : (nest E t).val m p = some x) (hq : (nest E t).val m q = some y) :
    ∃ b m', Runs (nestEq eqv t p q) m b m' ∧ (b = true ↔ x = y) ∧ (nest E t).inv m' ∧ (nest E t).val m' = (nest E t).val m ∧
      (nest E t).rest m' = (nest E t).rest m := by
  obtain ⟨b, m', h1, rfl, h2, h3, h4⟩ := (nest_equal_compares hc t m p q x y hm hp hq).runs
  exact ⟨_, m', h1, eqOf_iff he t x y, h2, h4, h3⟩

variable [ElemSize Ptr] in
/-- C109: a copy of a container, nested in any way and to any depth, compares equal to its source, which keeps its value. -/
theorem nest_copy_equal (t : Ty) {eqv : Ptr → Ptr → M S Bool} {eq : A → A → Bool} (hc : Compares E eqv eq) (he : ∀ a b, eq a b = true ↔ a = b)
    {m : t.Mem S} (hm : (nest E t).inv m) {q : Ptr} {x : t.Val A} (hq : (nest E t).val m q = some x) :
    ∃ r m', Runs ((nest E t).copy q) m r m' ∧ ∀ d, r = .ok d → ∃ m2, Runs (nestEq eqv t d q) m' true m2 ∧ (nest E t).val m2 q = some x := by
  obtain ⟨r, m', h1, h2, h3, h4⟩ := ((nest E t).copy_ok m q x hm hq).runs
  refine ⟨r, m', h1, ?_⟩
  rintro d rfl
  obtain ⟨h4, h5⟩ := h4
  have hd : (nest E t).val m' d = some x := by rw [h5, upd_same]
  have hq' : (nest E t).val m' q = some x := by
    rw [h5, upd_other _ _ (by rintro rfl; rw [hq] at h4; cases h4)]; exact hq
  obtain ⟨b, m2, k1, k2, -, k3, -⟩ := nest_equal t hc he h2 hd hq'
  rw [k2.2 rfl] at k1
  exact ⟨m2, k1, by rw [k3]; exact hq'⟩

variable [ElemSize Ptr] in
theorem nest_vec_val (t : Ty) (m : VO.NS (t.Mem S)) (p : Ptr) : (nest E (.vec t)).val m p = VO.vecVal (nest E t) m p := rfl

open scoped VO.Demo in
/-- Two vectors of vectors of boxes with equal values. -/
example : Compares Elem.box LO.Demo.boxEq (fun x y => x == y) ∧ (∀ a b : Nat, (a == b) = true ↔ a = b) ∧
    (nest Elem.box (.vec (.vec .elem))).inv VO.Demo.q4 ∧ (nest Elem.box (.vec (.vec .elem))).val VO.Demo.q4 VO.Demo.v = some ([[7, 8]] : List (List Nat)) ∧
    (nest Elem.box (.vec (.vec .elem))).val VO.Demo.q4 VO.Demo.u = some ([[7, 8]] : List (List Nat)) ∧
    VO.Demo.says (nestEq LO.Demo.boxEq (.vec (.vec .elem)) VO.Demo.v VO.Demo.u) VO.Demo.q4 = true :=
  ⟨LO.Demo.boxEq_ok, by simp, VO.Demo.qr4.inv, (nest_vec_val (.vec .elem) _ _).trans VO.Demo.qval,
    (nest_vec_val (.vec .elem) _ _).trans VO.Demo.qvalu, by decide +kernel⟩

end Nestl.TO
