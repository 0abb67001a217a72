import Verif.VectorOf.Weak
import Verif.VectorOf.InsertProps
import Verif.TreeOf.NestProps
set_option autoImplicit false
/-
C108: containers of `weak_ptr`.
-/

/-! ### Vectors -/

namespace Nestl.VO
open Nestl.Vec
open Nestl.SP (At Val Hnd)
variable {V : Type} {s s' : NS (SP.W V)}

theorem weak_inv [ElemSize Ptr] (hr : Reach Elem.weak s) : SP.Reach s.i := by
  obtain ⟨σ, h⟩ := hr.inv
  exact h.inv

theorem weak_elem [ElemSize Ptr] (hr : Reach Elem.weak s) {q : Ptr} (hq : IsElem s q) : weakVal s.i q ≠ none := by
  obtain ⟨σ, h⟩ := hr.inv
  obtain ⟨t, x, k1, k2⟩ := h.owned.1 (h.isElem.1 hq)
  exact h.live _ _ _ k1 k2

/-- Smart-pointer calls between the calls on containers. -/
theorem weak_between {w : SP.W V} {P : Ptr → Prop} (h : SP.Reach w) (hP : ∀ q, P q → weakVal w q ≠ none) {c : SP.Call V} (hv : SP.Valid w c)
    (hd : ∀ q, c = .dropWeak q → ¬ P q) :
    ∃ r w', Runs (SP.exec c) (SP.ready w) r w' ∧ SP.Reach w' ∧ ∀ q, P q → weakVal w' q ≠ none := by
  obtain ⟨r, w', h1, h2, -⟩ := SP.call_effect h hv
  refine ⟨r, w', h1, h2, fun q hq => ?_⟩
  obtain ⟨r1, w1, h3, -, h4⟩ := weak_stays h hv (hP q hq) fun e => hd q e hq
  obtain ⟨-, rfl⟩ := Runs.det h1 h3
  exact h4

namespace Demo
open scoped VO.Demo

/-- A `weak_ptr` to an object with an owner. -/
def w1 : SP.W Nat := SP.Demo.go (.toWeak .sh (.var (.stk 0))) h1
theorem wr1 : SP.Reach w1 := .step (r := some (.stk 1)) hr1 (c := .toWeak .sh (.var (.stk 0))) ⟨_, rfl⟩ rfl
def w2 : NS (SP.W Nat) := ⟨VC.start env, w1⟩
def w3 : NS (SP.W Nat) := go weakOps (.create 0) w2
/-- The `weak_ptr` is copied into a vector. -/
def w4 : NS (SP.W Nat) := go weakOps (.pushBack v (.obj (.stk 1))) w3
theorem wvr2 : Reach Elem.weak w2 := .start wr1
theorem wvr3 : Reach Elem.weak w3 := step wvr2 ⟨trivial, fun _ h => h.elim⟩ (by decide +kernel)
theorem wvv3 : Valid Elem.weak w3 (.pushBack v (.obj (.stk 1))) :=
  ⟨⟨alive (by decide +kernel), trivial, .inl trivial⟩, by
    rintro q rfl; exact ⟨live (by decide +kernel), notElem wvr3 (by decide +kernel)⟩⟩
theorem wvr4 : Reach Elem.weak w4 := step wvr3 wvv3 (by decide +kernel)
theorem wvo4 : IsElem w4 (.stk 2) :=
  ⟨v, [.stk 2], alive (by decide +kernel), objs wvr4 (alive (by decide +kernel)) (by decide +kernel), by simp⟩
theorem wvi4 : InsValid Elem.weak w4 v 0 (.move (.stk 1)) :=
  { alive := alive (by decide +kernel), pos := ⟨_, objs wvr4 (alive (by decide +kernel)) (L := [.stk 2]) (by decide +kernel), by simp⟩
    uses := by rintro q rfl; exact ⟨live (by decide +kernel), notElem wvr4 (by decide +kernel)⟩
    arg := trivial, apart := .inl trivial }

end Demo

variable [ElemSize Ptr] in
/-- C108: calls on vectors of `weak_ptr` keep no object alive and destroy none: all managed objects, their owners and all use counts are
as they were. -/
theorem vectorOf_weak_calls (hr : Reach Elem.weak s) {c : Call} (hv : Valid Elem.weak s c) :
    ∃ r s', Runs (exec weakOps c) (ready s) r s' ∧ Reach Elem.weak s' ∧ Unharmed s.i s'.i := by
  obtain ⟨r, s', h1, h2⟩ := vectorOf_calls_safe hr hv
  exact ⟨r, s', h1, h2, unharmed (weak_inv hr) (weak_inv h2) (vectorOf_calls_outside hr hv h1).1⟩

open Demo in
example : Reach Elem.weak w3 ∧ Valid Elem.weak w3 (.pushBack Demo.v (.obj (.stk 1))) ∧ SP.Alive w3.i (.dyn 0) :=
  ⟨wvr3, wvv3, 10, _, _, rfl, rfl, rfl⟩

variable [ElemSize Ptr] in
/-- C108: neither do insertions. -/
theorem vectorOf_weak_insert (hr : Reach Elem.weak s) {v : Ptr} {i : Nat} {x : Ins} (hv : InsValid Elem.weak s v i x) {r : VC.Res}
    (hrun : Runs (insExec weakOps v i x) (ready s) r s') (hok : s'.o.err = none ∨ ∃ qs, Objs s v qs ∧ i = qs.length) :
    Reach Elem.weak s' ∧ Unharmed s.i s'.i := by
  have h2 := Reach.insert hr hv hrun hok
  exact ⟨h2, unharmed (weak_inv hr) (weak_inv h2) (vectorOf_insert_outside hr hv hrun).1⟩

open Demo in
example : Reach Elem.weak w4 ∧ InsValid Elem.weak w4 Demo.v 0 (.move (.stk 1)) ∧
    Runs (insExec weakOps Demo.v 0 (.move (.stk 1))) (ready w4) (.pos 0) (goI weakOps Demo.v 0 (.move (.stk 1)) w4) ∧
    (goI weakOps Demo.v 0 (.move (.stk 1)) w4).o.err = none := ⟨wvr4, wvi4, runsI (by decide +kernel), by decide +kernel⟩

variable [ElemSize Ptr] in
/-- C108: the elements of vectors of `weak_ptr` tell whether their objects are alive. -/
theorem vectorOf_weak_tells (hr : Reach Elem.weak s) {q : Ptr} (hq : IsElem s q) : Tells s.i q := tells (weak_inv hr) (weak_elem hr hq)

variable [ElemSize Ptr] in
/-- C108: in between, the client may use `shared_ptr` and `weak_ptr` (except for destroying elements of the vectors). -/
theorem vectorOf_weak_between (hr : Reach Elem.weak s) {c : SP.Call V} (hv : SP.Valid s.i c) (hd : ∀ q, c = .dropWeak q → ¬ IsElem s q) :
    ∃ r i', Runs (SP.exec c) (SP.ready s.i) r i' ∧ Reach Elem.weak ⟨s.o, i'⟩ := by
  obtain ⟨r, i', h1, h2, h3⟩ := weak_between (weak_inv hr) (fun q hq => weak_elem hr hq) hv hd
  exact ⟨r, i', h1, .client hr h2 h3⟩

namespace Demo

/-- The only handles are three variables, the first of which is the only owner. -/
theorem at4 {k : SP.Kind} {l : SP.Loc} {z : Hnd} (h : At w4.i.heap k l z) :
    (k = .sh ∧ l = .var (.stk 0)) ∨ (k = .wk ∧ l = .var (.stk 1)) ∨ (k = .wk ∧ l = .var (.stk 2)) := by
  rcases l with p | ⟨b, i⟩
  · have h : w4.i.heap p = _ := h
    rcases p with _ | j | j
    · cases h
    · rcases j with _ | _ | _ | j
      · cases h; exact .inl ⟨rfl, rfl⟩
      · cases h; exact .inr (.inl ⟨rfl, rfl⟩)
      · cases h; exact .inr (.inr ⟨rfl, rfl⟩)
      · cases h
    · rcases j with _ | j <;> cases h
  · obtain ⟨c, o, h1, h2, h3⟩ := h
    rcases b with _ | j | j
    · cases h1
    · rcases j with _ | _ | _ | j <;> cases h1
    · rcases j with _ | j
      · cases h1; cases h2; cases h3
      · cases h1

theorem wsv4 : SP.Valid w4.i (.dropShared (.stk 0)) :=
  ⟨⟨_, rfl⟩, fun b x i z _ _ hz => by rcases at4 hz.2 with ⟨-, h⟩ | ⟨-, h⟩ | ⟨-, h⟩ <;> cases h⟩

/-- The last owner is destroyed: the element of the vector is still there and has expired. -/
theorem expires : ∃ i', Runs (SP.exec (.dropShared (.stk 0))) (SP.ready w4.i) none i' ∧ Reach Elem.weak ⟨w4.o, i'⟩ ∧
    IsElem (⟨w4.o, i'⟩ : NS (SP.W Nat)) (.stk 2) ∧ ¬ SP.Alive i' (.dyn 0) ∧ Runs (SP.expired (.var (.stk 2))) i' true i' := by
  obtain ⟨r, i', h1, h2⟩ := vectorOf_weak_between wvr4 wsv4 (by intro q e; cases e)
  obtain ⟨r1, w1, A1, h3, h4, -, h5⟩ := SP.destroys_exactly_doomed_partial (weak_inv wvr4) wsv4 (by intros; simp)
  obtain ⟨rfl, rfl⟩ := Runs.det h1 h3
  rcases r with _ | r
  · have h4 : A1 = _ := h4
    subst h4
    have he : IsElem (⟨w4.o, i'⟩ : NS (SP.W Nat)) (.stk 2) := wvo4
    have hw : At i'.heap .wk (.var (.stk 2)) ⟨.dyn 0, .dyn 0⟩ := (h5 _ _ _).2 ⟨⟨by simp, rfl⟩, fun _ _ e => by cases e⟩
    have hdead : ¬ SP.Alive i' (.dyn 0) := by
      intro h
      obtain ⟨l, -, z, hz, -⟩ := (SP.alive_iff_owned_partial (weak_inv h2) _).1 h
      obtain ⟨⟨h6, h7⟩, -⟩ := (h5 _ _ _).1 hz
      rcases at4 h7 with ⟨-, h⟩ | ⟨h, -⟩ | ⟨h, -⟩
      · exact h6 h
      · cases h
      · cases h
    obtain ⟨n, e, -, -, h8, h9⟩ := SP.expired_correct_partial (weak_inv h2) (l := .var (.stk 2)) ⟨by simp, _, hw, rfl⟩
    obtain rfl := h9.2 hdead
    exact ⟨i', h1, h2, he, hdead, h8⟩
  · exact h4.elim

end Demo

open Demo in
/-- Before and after the last owner goes. -/
example : Reach Elem.weak w4 ∧ IsElem w4 (.stk 2) ∧ Runs (SP.expired (.var (.stk 2))) w4.i false w4.i ∧
    SP.Valid w4.i (.dropShared (.stk 0)) ∧
    ∃ i', Reach Elem.weak ⟨w4.o, i'⟩ ∧ IsElem (⟨w4.o, i'⟩ : NS (SP.W Nat)) (.stk 2) ∧ Runs (SP.expired (.var (.stk 2))) i' true i' := by
  obtain ⟨i', -, h1, h2, -, h3⟩ := expires
  exact ⟨wvr4, wvo4, rfl, wsv4, i', h1, h2, h3⟩

end Nestl.VO

/-! ### Lists -/

namespace Nestl.LO
open Nestl.VO (Elem Unharmed Tells weakOps weakVal unharmed tells weak_between)
variable {V : Type} {s s' : ST (SP.W V)}

theorem weak_inv (hr : Reach Elem.weak s) : SP.Reach s.i := by
  obtain ⟨σ, h⟩ := hr.inv
  exact h.inv

theorem weak_elem (hr : Reach Elem.weak s) {q : Ptr} (hq : IsElem s q) : weakVal s.i q ≠ none := by
  obtain ⟨σ, h⟩ := hr.inv
  obtain ⟨t, x, e, k1, k2, rfl⟩ := h.owned.1 (h.isElem.1 hq)
  exact h.live _ _ _ k1 k2

namespace Demo

def w2 : ST (SP.W Nat) := ⟨LC.start env, VO.Demo.w1⟩
def w3 : ST (SP.W Nat) := go weakOps (.create 0) w2
/-- A `weak_ptr` is copied into a list. -/
def w4 : ST (SP.W Nat) := go weakOps (.pushBack v (.obj (.stk 1))) w3
theorem wr2 : Reach Elem.weak w2 := .start VO.Demo.wr1
theorem wr3 : Reach Elem.weak w3 := step wr2 (plain trivial (fun _ h => h) (fun _ h => h) fun _ h => h) (by decide +kernel)
theorem wv3 : Valid Elem.weak w3 (.pushBack v (.obj (.stk 1))) :=
  ⟨alive (by decide +kernel), by rintro q rfl; exact live (by decide +kernel), fun _ h => h.elim, fun _ h => h.elim⟩
theorem wr4 : Reach Elem.weak w4 := step wr3 wv3 (by decide +kernel)
theorem wo4 : IsElem w4 (.stk 2) :=
  ⟨v, [(.dyn 0, .stk 2)], .dyn 0, alive (by decide +kernel), objs wr4 (alive (by decide +kernel)) (by decide +kernel), by simp⟩
theorem wsv4 : SP.Valid w4.i (.resetWeak (.var (.stk 2))) := ⟨_, rfl⟩

end Demo

/-- C108: calls on lists of `weak_ptr` keep no object alive and destroy none: all managed objects, their owners and all use counts are
as they were. -/
theorem listOf_weak_calls (hr : Reach Elem.weak s) {c : Call (SP.W V)} (hv : Valid Elem.weak s c) :
    ∃ r s', Runs (exec weakOps c) (ready s) r s' ∧ Reach Elem.weak s' ∧ Unharmed s.i s'.i := by
  obtain ⟨r, s', h1, h2⟩ := listOf_calls_safe hr hv
  exact ⟨r, s', h1, h2, unharmed (weak_inv hr) (weak_inv h2) (listOf_calls_outside hr hv h1).1⟩

example : Reach Elem.weak Demo.w3 ∧ Valid Elem.weak Demo.w3 (.pushBack Demo.v (.obj (.stk 1))) ∧ SP.Alive Demo.w3.i (.dyn 0) :=
  ⟨Demo.wr3, Demo.wv3, 10, _, _, rfl, rfl, rfl⟩

/-- C108: the elements of lists of `weak_ptr` tell whether their objects are alive. -/
theorem listOf_weak_tells (hr : Reach Elem.weak s) {q : Ptr} (hq : IsElem s q) : Tells s.i q := tells (weak_inv hr) (weak_elem hr hq)

example : Reach Elem.weak Demo.w4 ∧ IsElem Demo.w4 (.stk 2) ∧ Runs (SP.weakUseCount (.var (.stk 2))) Demo.w4.i 1 Demo.w4.i :=
  ⟨Demo.wr4, Demo.wo4, rfl⟩

/-- C108: in between, the client may use `shared_ptr` and `weak_ptr` (except for destroying elements of the lists). -/
theorem listOf_weak_between (hr : Reach Elem.weak s) {c : SP.Call V} (hv : SP.Valid s.i c) (hd : ∀ q, c = .dropWeak q → ¬ IsElem s q) :
    ∃ r i', Runs (SP.exec c) (SP.ready s.i) r i' ∧ Reach Elem.weak ⟨s.o, i'⟩ := by
  obtain ⟨r, i', h1, h2, h3⟩ := weak_between (weak_inv hr) (fun q hq => weak_elem hr hq) hv hd
  exact ⟨r, i', h1, .client hr h2 h3⟩

/-- An element of the list is reset. -/
example : Reach Elem.weak Demo.w4 ∧ IsElem Demo.w4 (.stk 2) ∧ SP.Valid Demo.w4.i (.resetWeak (.var (.stk 2))) :=
  ⟨Demo.wr4, Demo.wo4, Demo.wsv4⟩

end Nestl.LO

/-! ### Sets and trees -/

namespace Nestl.TO
open Nestl.RB Nestl.VO
variable {V : Type}

section
variable {s s' : ST (SP.W V)}

theorem weak_elem (hr : Reach Elem.weak s) {q : Ptr} (hq : IsElem s q) : weakVal s.i q ≠ none := by
  obtain ⟨p, hp⟩ := hr.inv.isElem.1 hq
  exact hr.inv.live _ _ hp

end

namespace Demo
open scoped VO.Demo

def wt2 : ST (SP.W Nat) := ⟨Set.start env, VO.Demo.w1⟩
def wt3 : ST (SP.W Nat) := go weakOps (.create 0 : Call (SP.W Nat) SP.Hnd) wt2
/-- A `weak_ptr` is copied into a multiset. -/
def wt4 : ST (SP.W Nat) := go weakOps (.insert (same : Order _ SP.Hnd) .upper v (.obj (.stk 1))) wt3
theorem wtr2 : Reach Elem.weak wt2 := .start VO.Demo.wr1
theorem wtr3 : Reach Elem.weak wt3 := step wtr2 v_create (r := .obj v) (by decide +kernel)
theorem wtv3 : Valid Elem.weak wt3 (.insert same .upper v (.obj (.stk 1))) :=
  ⟨alive (by decide +kernel), ⟨trivial, fun h => h.elim⟩, by rintro q rfl; exact live (by decide +kernel), fun _ h => h.elim, fun _ h => h.elim,
    by rintro o ⟨⟩; exact same_ok⟩
theorem wtr4 : Reach Elem.weak wt4 := step wtr3 wtv3 (r := .pos (.dyn 0)) (by decide +kernel)
theorem wtt4 : Tree wt4.o.heap v 0 (.node (.dyn 0) .black .nil (.stk 2) .nil) := tree1 (by decide +kernel) (by decide +kernel) ⟨_, rfl⟩
theorem wto4 : IsElem wt4 (.stk 2) := ⟨v, _, .dyn 0, alive (by decide +kernel), objs wtt4, by simp [RB.T.nodes]⟩
theorem wts4 : SP.Valid wt4.i (.lock (.var (.stk 2))) := ⟨⟨_, rfl⟩, fun x hx _ => by cases hx; exact ⟨10, _, _, rfl, rfl, rfl⟩⟩

/-- A vector with a `weak_ptr` is to be copied into a list. -/
def wn0 : LO.ST (VO.NS (SP.W Nat)) := ⟨LC.start LO.Demo.env, VO.Demo.w4⟩
def wn1 : LO.ST (VO.NS (SP.W Nat)) := LO.Demo.go (VO.vecOps weakOps) (.create 0) wn0
theorem wnr0 : LO.Reach (Elem.vector Elem.weak) wn0 := .start VO.Demo.wvr4.inv
theorem wnr1 : LO.Reach (Elem.vector Elem.weak) wn1 :=
  LO.Demo.step wnr0 (LO.Demo.plain trivial (fun _ h => h) (fun _ h => h) fun _ h => h) (by decide +kernel)
theorem wnv1 : LO.Valid (Elem.vector Elem.weak) wn1 (.pushBack LO.Demo.v (.obj VO.Demo.v)) :=
  ⟨LO.Demo.alive (by decide +kernel), by rintro q rfl; exact LO.Demo.live (by decide +kernel), fun _ h => h.elim, fun _ h => h.elim⟩

/-- A list with a `weak_ptr` is to be copied into a vector. -/
def wm0 : VO.NS (LO.ST (SP.W Nat)) := ⟨VC.start VO.Demo.env, LO.Demo.w4⟩
def wm1 : VO.NS (LO.ST (SP.W Nat)) := VO.Demo.go (LO.listOps weakOps) (.create 0) wm0
theorem wmr0 : VO.Reach (LO.listOf Elem.weak) wm0 := .start LO.Demo.wr4.inv
theorem wmr1 : VO.Reach (LO.listOf Elem.weak) wm1 := VO.Demo.step wmr0 ⟨trivial, fun _ h => h.elim⟩ (by decide +kernel)
theorem wmv1 : VO.Valid (LO.listOf Elem.weak) wm1 (.pushBack VO.Demo.v (.obj LO.Demo.v)) :=
  ⟨⟨VO.Demo.alive (by decide +kernel), trivial, .inl trivial⟩, by
    rintro q rfl
    exact ⟨LO.Demo.listVal_ne (LO.Demo.vinner_inv wmr1) (LO.Demo.alive (by decide +kernel)), VO.Demo.notElem wmr1 (by decide +kernel)⟩⟩

/-- A vector with a `weak_ptr` is to be moved into a set. -/
def wk0 : ST (VO.NS (SP.W Nat)) := ⟨Set.start env, VO.Demo.w4⟩
def wk1 : ST (VO.NS (SP.W Nat)) := go (VO.vecOps weakOps) (.create 0 : Call (VO.NS (SP.W Nat)) (List SP.Hnd)) wk0
theorem wkr0 : Reach (Elem.vector Elem.weak) wk0 := .start VO.Demo.wvr4.inv
theorem wkr1 : Reach (Elem.vector Elem.weak) wk1 := step wkr0 v_create (r := .obj v) (by decide +kernel)
theorem wkv1 : Valid (Elem.vector Elem.weak) wk1 (.insert same .upper v (.mov v)) :=
  xv (alive (by decide +kernel)) (live (by decide +kernel)) (notElem wkr1 (by decide +kernel))

end Demo

section
variable {s s' : ST (SP.W V)}

/-- C108: calls on trees of `weak_ptr` keep no object alive and destroy none: all managed objects, their owners and all use counts are
as they were. -/
theorem treeOf_weak_calls (hr : Reach Elem.weak s) {c : Call (SP.W V) SP.Hnd} (hv : Valid Elem.weak s c) :
    ∃ r s', Runs (exec weakOps c) (ready s) r s' ∧ Reach Elem.weak s' ∧ Unharmed s.i s'.i := by
  obtain ⟨r, s', h1, h2⟩ := treeOf_calls_safe hr hv
  exact ⟨r, s', h1, h2, unharmed hr.inv.inv h2.inv.inv (treeOf_calls_outside hr hv h1).1⟩

example : Reach Elem.weak Demo.wt3 ∧ Valid Elem.weak Demo.wt3 (.insert Demo.same .upper Demo.v (.obj (.stk 1))) ∧
    SP.Alive Demo.wt3.i (.dyn 0) := ⟨Demo.wtr3, Demo.wtv3, 10, _, _, rfl, rfl, rfl⟩

/-- C108: the elements of trees of `weak_ptr` tell whether their objects are alive. -/
theorem treeOf_weak_tells (hr : Reach Elem.weak s) {q : Ptr} (hq : IsElem s q) : Tells s.i q := tells hr.inv.inv (weak_elem hr hq)

example : Reach Elem.weak Demo.wt4 ∧ IsElem Demo.wt4 (.stk 2) ∧ Runs (SP.weakUseCount (.var (.stk 2))) Demo.wt4.i 1 Demo.wt4.i :=
  ⟨Demo.wtr4, Demo.wto4, rfl⟩

/-- C108: in between, the client may use `shared_ptr` and `weak_ptr` (except for destroying elements of the trees). -/
theorem treeOf_weak_between (hr : Reach Elem.weak s) {c : SP.Call V} (hv : SP.Valid s.i c) (hd : ∀ q, c = .dropWeak q → ¬ IsElem s q) :
    ∃ r i', Runs (SP.exec c) (SP.ready s.i) r i' ∧ Reach Elem.weak ⟨s.o, i'⟩ := by
  obtain ⟨r, i', h1, h2, h3⟩ := weak_between (w := s.i) hr.inv.inv (fun q hq => weak_elem hr hq) hv hd
  exact ⟨r, i', h1, .client hr h2 h3⟩

/-- An element of the set is locked. -/
example : Reach Elem.weak Demo.wt4 ∧ SP.Valid Demo.wt4.i (.lock (.var (.stk 2))) := ⟨Demo.wtr4, Demo.wts4⟩

end

/-! ### Nested containers -/

/-- The memory of the innermost objects. -/
def Ty.base {S : Type} : (t : Ty) → t.Mem S → S
  | .elem, m => m
  | .vec t, m => t.base (m : VO.NS (t.Mem S)).i
  | .list t, m => t.base (m : LO.ST (t.Mem S)).i
  | .set t, m => t.base (m : ST (t.Mem S)).i

/-- The part of `Ty.Rest` that belongs to the innermost memory. -/
def Ty.bottom {A X : Type} : (t : Ty) → t.Rest A X → X
  | .elem, x => x
  | .vec t, x => t.bottom (x : (Ptr → Option (t.Val A)) × t.Rest A X).2
  | .list t, x => t.bottom (x : (Ptr → Option (t.Val A)) × t.Rest A X).2
  | .set t, x => t.bottom (x : (Ptr → Option (t.Val A)) × t.Rest A X).2

section
variable {S A X : Type} {E : Elem S A X}

variable [Vec.ElemSize Ptr] in
theorem nest_bottom (t : Ty) : ∀ m : t.Mem S, t.bottom ((nest E t).rest m) = E.rest (t.base m) := by
  induction t with
  | elem => intro m; rfl
  | vec t ih => intro m; exact ih _
  | list t ih => intro m; exact ih _
  | set t ih => intro m; exact ih _

variable [Vec.ElemSize Ptr] in
theorem nest_base (t : Ty) : ∀ m : t.Mem S, (nest E t).inv m → E.inv (t.base m) := by
  induction t with
  | elem => intro m h; exact h
  | vec t ih => rintro m ⟨σ, h⟩; exact ih _ h.inv
  | list t ih => rintro m ⟨σ, h⟩; exact ih _ h.inv
  | set t ih => intro m h; exact ih _ (show NInv (nest E t) m from h).inv

variable [Vec.ElemSize Ptr] in
/-- C108: the same for vectors of containers of … of `weak_ptr`. -/
theorem nest_weak_vector_calls (t : Ty) {s : VO.NS (t.Mem (SP.W V))} (hr : VO.Reach (nest Elem.weak t) s) {c : VO.Call}
    (hv : VO.Valid (nest Elem.weak t) s c) :
    ∃ r s', Runs (VO.exec (nest Elem.weak t).toElemOps c) (VO.ready s) r s' ∧ VO.Reach (nest Elem.weak t) s' ∧
      Unharmed (t.base s.i) (t.base s'.i) := by
  obtain ⟨r, s', h1, h2⟩ := VO.vectorOf_calls_safe hr hv
  obtain ⟨σ, hi⟩ := hr.inv
  obtain ⟨σ', hi'⟩ := h2.inv
  have h3 := congrArg t.bottom (VO.vectorOf_calls_outside hr hv h1).1
  rw [nest_bottom, nest_bottom] at h3
  exact ⟨r, s', h1, h2, unharmed (nest_base t _ hi.inv) (nest_base t _ hi'.inv) h3⟩

open scoped VO.Demo in
example : VO.Reach (nest Elem.weak (.list .elem)) Demo.wm1 ∧ VO.Valid (nest Elem.weak (.list .elem)) Demo.wm1 (.pushBack VO.Demo.v (.obj LO.Demo.v)) ∧
    SP.Alive ((Ty.list .elem).base Demo.wm1.i) (.dyn 0) := ⟨Demo.wmr1, Demo.wmv1, 10, _, _, rfl, rfl, rfl⟩

variable [Vec.ElemSize Ptr] in
/-- C108: the same for lists of containers of … of `weak_ptr`. -/
theorem nest_weak_list_calls (t : Ty) {s : LO.ST (t.Mem (SP.W V))} (hr : LO.Reach (nest Elem.weak t) s) {c : LO.Call (t.Mem (SP.W V))}
    (hv : LO.Valid (nest Elem.weak t) s c) :
    ∃ r s', Runs (LO.exec (nest Elem.weak t).toElemOps c) (LO.ready s) r s' ∧ LO.Reach (nest Elem.weak t) s' ∧
      Unharmed (t.base s.i) (t.base s'.i) := by
  obtain ⟨r, s', h1, h2⟩ := LO.listOf_calls_safe hr hv
  obtain ⟨σ, hi⟩ := hr.inv
  obtain ⟨σ', hi'⟩ := h2.inv
  have h3 := congrArg t.bottom (LO.listOf_calls_outside hr hv h1).1
  rw [nest_bottom, nest_bottom] at h3
  exact ⟨r, s', h1, h2, unharmed (nest_base t _ hi.inv) (nest_base t _ hi'.inv) h3⟩

open scoped VO.Demo in
example : LO.Reach (nest Elem.weak (.vec .elem)) Demo.wn1 ∧ LO.Valid (nest Elem.weak (.vec .elem)) Demo.wn1 (.pushBack LO.Demo.v (.obj VO.Demo.v)) ∧
    SP.Alive ((Ty.vec .elem).base Demo.wn1.i) (.dyn 0) := ⟨Demo.wnr1, Demo.wnv1, 10, _, _, rfl, rfl, rfl⟩

variable [Vec.ElemSize Ptr] in
/-- C108: the same for sets and trees of containers of … of `weak_ptr`. -/
theorem nest_weak_set_calls (t : Ty) {s : ST (t.Mem (SP.W V))} (hr : Reach (nest Elem.weak t) s) {c : Call (t.Mem (SP.W V)) (t.Val SP.Hnd)}
    (hv : Valid (nest Elem.weak t) s c) :
    ∃ r s', Runs (exec (nest Elem.weak t).toElemOps c) (ready s) r s' ∧ Reach (nest Elem.weak t) s' ∧
      Unharmed (t.base s.i) (t.base s'.i) := by
  obtain ⟨r, s', h1, h2⟩ := treeOf_calls_safe hr hv
  have h3 := congrArg t.bottom (treeOf_calls_outside hr hv h1).1
  rw [nest_bottom, nest_bottom] at h3
  exact ⟨r, s', h1, h2, unharmed (nest_base t _ hr.inv.inv) (nest_base t _ h2.inv.inv) h3⟩

open scoped VO.Demo in
example : Reach (nest Elem.weak (.vec .elem)) Demo.wk1 ∧ Valid (nest Elem.weak (.vec .elem)) Demo.wk1 (.insert Demo.same .upper Demo.v (.mov Demo.v)) ∧
    SP.Alive ((Ty.vec .elem).base Demo.wk1.i) (.dyn 0) := ⟨Demo.wkr1, Demo.wkv1, 10, _, _, rfl, rfl, rfl⟩

end
end Nestl.TO
