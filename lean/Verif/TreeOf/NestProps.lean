import Verif.TreeOf.NestDemo
set_option autoImplicit false
/-
C99: nested containers: sets, lists and vectors of sets, lists and vectors of … of any class; trees of `shared_ptr`.
-/
namespace Nestl.TO
open Nestl.VO (Elem ElemOps Boxes boxOps)
open Nestl.NO
open Nestl.Set (Alive put)
open Nestl.Full (FCall)
open Nestl.Vec (ElemSize)
variable {S A X : Type} {E : Elem S A X}

/-! ### Any nesting -/

/-- The types of nested containers of an element class. -/
inductive Ty
  | elem              -- `T`
  | vec (t : Ty)      -- `vector<t>`
  | list (t : Ty)     -- `list<t>`
  | set (t : Ty)      -- `set<t>` and trees of `t`

/-- The memory of objects of such a type. -/
def Ty.Mem (S : Type) : Ty → Type
  | .elem => S
  | .vec t => VO.NS (t.Mem S)
  | .list t => LO.ST (t.Mem S)
  | .set t => ST (t.Mem S)

/-- The values of objects of such a type: sequences of sequences of … of values. -/
def Ty.Val (A : Type) : Ty → Type
  | .elem => A
  | .vec t | .list t | .set t => List (t.Val A)

/-- What the client has of the lower levels. -/
def Ty.Rest (A X : Type) : Ty → Type
  | .elem => X
  | .vec t | .list t | .set t => (Ptr → Option (t.Val A)) × t.Rest A X

/-- Nested containers as an element class. -/
noncomputable def nest [ElemSize Ptr] (E : Elem S A X) : (t : Ty) → Elem (t.Mem S) (t.Val A) (t.Rest A X)
  | .elem => E
  | .vec t => Elem.vector (nest E t)
  | .list t => LO.listOf (nest E t)
  | .set t => setOf (nest E t)

variable [ElemSize Ptr] in
/-- C99: sets of sets, lists and vectors of …, nested in any way and to any depth, of any element class: every call on the outermost
sets (or trees) whose precondition holds terminates without undefined behaviour on any level, has the specified effect on the
sequences (of sequences …) of values, and leaves everything alone that is not part of a set, apart from emptying what was moved into
one. -/
theorem nest_set_calls (t : Ty) {s : ST (t.Mem S)} (hr : Reach (nest E t) s) {c : Call (t.Mem S) (t.Val A)} (hv : Valid (nest E t) s c)
    {c' : FCall (t.Val A)} (hm : c.Means (nest E t).blank ((nest E t).val s.i) c') {B : AState (t.Val A)} (hB : Shows (nest E t) s B) :
    ∃ r s' B', Runs (exec (nest E t).toElemOps c) (ready s) r s' ∧ Reach (nest E t) s' ∧ Shows (nest E t) s' B' ∧
      Spec c.lt B c' r s'.o.err.isSome B' ∧ (nest E t).rest s'.i = (nest E t).rest s.i ∧
      (∀ q, ¬ IsElem s' q ∧ (nest E t).val s'.i q ≠ none ↔ ¬ IsElem s q ∧ (nest E t).val s.i q ≠ none) ∧
      ∀ q x y, ¬ IsElem s q → (nest E t).val s.i q = some x → (nest E t).val s'.i q = some y →
        c.After (nest E t).blank r s'.o.err.isSome q x y := by
  obtain ⟨r, s', h1, h2⟩ := treeOf_calls_safe hr hv
  obtain ⟨B', h3, h4⟩ := treeOf_calls_refine hr hv h1 hm hB
  obtain ⟨h5, h6, h7⟩ := treeOf_calls_outside hr hv h1
  exact ⟨r, s', B', h1, h2, h3, h4, h5, h6, h7⟩

open scoped VO.Demo in
/-- A set of sets of boxes, a multiset of lists of boxes and one of vectors of boxes. -/
example : Reach (nest Elem.box (.set .elem)) Demo.n2 ∧ Valid (nest Elem.box (.set .elem)) Demo.n2 (.insert Demo.sord .plain Demo.v (.mov Demo.u)) ∧
    Values (nest Elem.box (.set .elem)) Demo.n2 Demo.v [(.dyn 0, ([7, 8] : List Nat))] ∧ SWO Demo.sord.lt ∧
    Reach (nest Elem.box (.list .elem)) Demo.x2 ∧ Valid (nest Elem.box (.list .elem)) Demo.x2 (.insert Demo.same .upper Demo.v (.mov Demo.u)) ∧
    Reach (nest Elem.box (.vec .elem)) Demo.y2 :=
  ⟨Demo.nr2, Demo.nv2, Demo.nvals2, Demo.sord_swo, Demo.xr2, Demo.xv2, Demo.yr2⟩

variable [ElemSize Ptr] in
/-- C99: as `nest_set_calls`, for lists of such nested containers. -/
theorem nest_list_calls (t : Ty) {s : LO.ST (t.Mem S)} (hr : LO.Reach (nest E t) s) {c : LO.Call (t.Mem S)} (hv : LO.Valid (nest E t) s c)
    {c' : LC.Call (t.Val A)} (hm : c.Means (nest E t) ((nest E t).val s.i) c') {B : LC.AState (t.Val A)} (hB : LO.Shows (nest E t) s B) :
    ∃ r s' B', Runs (LO.exec (nest E t).toElemOps c) (LO.ready s) r s' ∧ LO.Reach (nest E t) s' ∧ LO.Shows (nest E t) s' B' ∧
      LC.Spec B c' r s'.o.err.isSome B' ∧ (nest E t).rest s'.i = (nest E t).rest s.i ∧
      (∀ q, ¬ LO.IsElem s' q ∧ (nest E t).val s'.i q ≠ none ↔ ¬ LO.IsElem s q ∧ (nest E t).val s.i q ≠ none) ∧
      ∀ q x y, ¬ LO.IsElem s q → (nest E t).val s.i q = some x → (nest E t).val s'.i q = some y →
        c.After (nest E t).blank s'.o.err.isSome q x y := by
  obtain ⟨r, s', h1, h2⟩ := LO.listOf_calls_safe hr hv
  obtain ⟨B', h3, h4⟩ := LO.listOf_calls_refine hr hv h1 hm hB
  obtain ⟨h5, h6, h7⟩ := LO.listOf_calls_outside hr hv h1
  exact ⟨r, s', B', h1, h2, h3, h4, h5, h6, h7⟩

open scoped VO.Demo in
/-- A list of sets of boxes. -/
example : LO.Reach (nest Elem.box (.set .elem)) Demo.l2 ∧ LO.Valid (nest Elem.box (.set .elem)) Demo.l2 (.pushFrontMove Demo.v Demo.u) :=
  ⟨Demo.lr2, Demo.lv2⟩

variable [ElemSize Ptr] in
/-- C99: as `nest_set_calls`, for vectors of such nested containers. -/
theorem nest_vector_calls (t : Ty) {s : VO.NS (t.Mem S)} (hr : VO.Reach (nest E t) s) {c : VO.Call} (hv : VO.Valid (nest E t) s c)
    {c' : VC.Call (t.Val A)} (hm : c.Means (nest E t).blank ((nest E t).val s.i) c') {B : VC.AState (t.Val A)}
    (hB : VO.Shows (nest E t) s B) :
    ∃ r s' B', Runs (VO.exec (nest E t).toElemOps c) (VO.ready s) r s' ∧ VO.Reach (nest E t) s' ∧ VO.Shows (nest E t) s' B' ∧
      VC.Spec B c' r s'.o.err.isSome B' ∧ (nest E t).rest s'.i = (nest E t).rest s.i ∧
      (∀ q, ¬ VO.IsElem s' q ∧ (nest E t).val s'.i q ≠ none ↔ ¬ VO.IsElem s q ∧ (nest E t).val s.i q ≠ none) ∧
      ∀ q x y, ¬ VO.IsElem s q → (nest E t).val s.i q = some x → (nest E t).val s'.i q = some y →
        c.After (nest E t).blank s'.o.err.isSome q x y := by
  obtain ⟨r, s', h1, h2⟩ := VO.vectorOf_calls_safe hr hv
  obtain ⟨B', h3, h4⟩ := VO.vectorOf_calls_refine hr hv h1 hm hB
  obtain ⟨h5, h6, h7⟩ := VO.vectorOf_calls_outside hr hv h1
  exact ⟨r, s', B', h1, h2, h3, h4, h5, h6, h7⟩

open scoped VO.Demo in
/-- A vector of sets of boxes. -/
example : VO.Reach (nest Elem.box (.set .elem)) Demo.k2 ∧ VO.Valid (nest Elem.box (.set .elem)) Demo.k2 (.pushMove Demo.v Demo.u) :=
  ⟨Demo.kr2, Demo.kv2⟩

/-! ### All levels destroyed -/

/-- No container of any level exists. -/
def Ty.Gone (S : Type) : (t : Ty) → t.Mem S → Prop
  | .elem, _ => True
  | .vec t, m => (∀ v, ¬ VC.Alive (m : VO.NS (t.Mem S)).o v) ∧ t.Gone S (m : VO.NS (t.Mem S)).i
  | .list t, m => (∀ v, ¬ LC.Alive (m : LO.ST (t.Mem S)).o v) ∧ t.Gone S (m : LO.ST (t.Mem S)).i
  | .set t, m => (∀ v, ¬ Alive (m : ST (t.Mem S)).o v) ∧ t.Gone S (m : ST (t.Mem S)).i

/-- No memory of any level is allocated, and no object is an element of a container. -/
def Ty.Clean (S : Type) : (t : Ty) → t.Mem S → Prop
  | .elem, _ => True
  | .vec t, m => ((∀ p, (m : VO.NS (t.Mem S)).o.heap p = none) ∧ ∀ q, ¬ VO.IsElem (m : VO.NS (t.Mem S)) q) ∧
      t.Clean S (m : VO.NS (t.Mem S)).i
  | .list t, m => ((∀ p, (m : LO.ST (t.Mem S)).o.heap p = none) ∧ ∀ q, ¬ LO.IsElem (m : LO.ST (t.Mem S)) q) ∧
      t.Clean S (m : LO.ST (t.Mem S)).i
  | .set t, m => ((∀ a, (m : ST (t.Mem S)).o.heap (.dyn a) = none) ∧ ∀ q, ¬ IsElem (m : ST (t.Mem S)) q) ∧
      t.Clean S (m : ST (t.Mem S)).i

variable [ElemSize Ptr] in
theorem nest_clean (t : Ty) : ∀ m : t.Mem S, (nest E t).inv m → t.Gone S m → t.Clean S m := by
  induction t with
  | elem => intro _ _ _; trivial
  | vec t ih =>
    rintro m ⟨σ, h⟩ ⟨h1, h2⟩
    refine ⟨⟨fun p => Classical.byContradiction fun h0 => ?_, fun q ⟨v, qs, h3, _⟩ => h1 _ h3⟩, ih _ h.inv h2⟩
    rcases h.outer.noLeak p h0 with h3 | ⟨v, h3, _⟩
    · exact h1 _ h3
    · exact h1 _ h3
  | list t ih =>
    rintro m ⟨σ, h⟩ ⟨h1, h2⟩
    refine ⟨⟨fun p => Classical.byContradiction fun h0 => ?_, fun q ⟨v, qs, _, h3, _⟩ => h1 _ h3⟩, ih _ h.inv h2⟩
    rcases h.outer.st.cover p (by rw [Ne, LL.dat_none]; exact h0) with h3 | ⟨t, ls, h3, _⟩
    · exact h1 _ ((LC.alive_iff h.outer).2 (Option.ne_none_iff_exists'.1 h3))
    · exact h1 _ ((LC.alive_iff h.outer).2 ⟨ls, h3⟩)
  | set t ih =>
    rintro m h ⟨h1, h2⟩
    have h : NInv (nest E t) m := h
    refine ⟨⟨fun p => Classical.byContradiction fun h0 => ?_, fun q ⟨v, qs, _, h3, _⟩ => h1 _ h3⟩, ih _ h.inv h2⟩
    obtain ⟨i, o, t, h3, -⟩ := h.outer.cover p h0
    exact h1 _ ⟨i, rfl, h3.ne_none⟩

variable [ElemSize Ptr] in
/-- C99: when the containers of all levels have been destroyed, no memory of any level is left. -/
theorem nest_all_destroyed (t : Ty) {s : ST (t.Mem S)} (hr : Reach (nest E t) s) (hd : (Ty.set t).Gone S s) : (Ty.set t).Clean S s :=
  nest_clean (E := E) (.set t) s hr.inv hd

open scoped VO.Demo in
/-- The inner sets have been destroyed, and there is no outer set (any more). -/
example : ∃ s : ST (ST Boxes), Reach (nest Elem.box (.set .elem)) s ∧ (Ty.set (.set .elem)).Gone Boxes s := by
  obtain ⟨s, h1, h2⟩ := Demo.gone
  exact ⟨⟨Set.start Demo.env, s⟩, .start h1.inv, (by rintro t ⟨i, rfl, h⟩; exact h rfl), h2, trivial⟩

/-! ### The inner containers -/

theorem put_ne {B : AState A} {v p : Ptr} {x : Option (Nat × List (Ptr × A))} (hv : B v ≠ none) (hx : v = p → x ≠ none) : put B p x v ≠ none := by
  unfold put
  split
  · rename_i e; exact hx e
  · exact hv

theorem Added.alive {lt : A → A → Bool} {B B' : AState A} {s p v : Ptr} {k : A} {place : List (Ptr × A) → List (Ptr × A) → Prop}
    (h : Added lt B s k p place B') (hv : B v ≠ none) : B' v ≠ none := by
  obtain ⟨o, Y, Z, -, rfl, -⟩ := h
  exact put_ne hv fun _ => by simp

/-- Only destruction ends the lifetime of a tree. -/
theorem Spec.alive {lt : A → A → Bool} {B B' : AState A} {c : FCall A} {r : Res} {b : Bool} (h : Spec lt B c r b B') {v : Ptr}
    (hv : B v ≠ none) (hn : c ≠ .multi (.base (.destroy v))) : B' v ≠ none := by
  match c, h, hn with
  | .multi (.base (.create a)), ⟨p, _, _, _, h⟩, _ => rw [h]; exact put_ne hv fun _ => by simp
  | .multi (.base (.insert s k)), h, _ =>
    rcases h with ⟨p, -, -, -, rfl⟩ | ⟨-, -, -, rfl⟩ | ⟨p, -, -, h⟩
    · exact hv
    · exact hv
    · exact h.alive hv
  | .multi (.base (.eraseKey s k)), ⟨o, Y, M, Z, _, _, _, h, _⟩, _ => rw [h]; exact put_ne hv fun _ => by simp
  | .multi (.base (.eraseAt s it)), ⟨o, Y, k, Z, _, _, _, h⟩, _ => rw [h]; exact put_ne hv fun _ => by simp
  | .multi (.base (.eraseRange s f l)), ⟨o, Y, M, Z, _, _, _, _, _, h⟩, _ => rw [h]; exact put_ne hv fun _ => by simp
  | .multi (.base (.clear s)), ⟨o, L, _, _, _, h⟩, _ => rw [h]; exact put_ne hv fun _ => by simp
  | .multi (.base (.find s k)), ⟨_, h, _⟩, _ => rw [h]; exact hv
  | .multi (.base (.copy prop d s)), ⟨_, h⟩, _ =>
    rcases h with ⟨-, -, -, rfl⟩ | ⟨o, o', L, L', L2, -, -, -, rfl, -⟩
    · exact hv
    · exact put_ne hv fun _ => by simp
  | .multi (.base (.move s)), ⟨p, o, L, _, _, _, _, h⟩, _ => rw [h]; exact put_ne (put_ne hv fun _ => by simp) fun _ => by simp
  | .multi (.base (.destroy s)), ⟨_, _, _, h⟩, hn => rw [h]; exact put_ne hv fun e => (hn (by rw [e])).elim
  | .multi (.equal m s k), h, _ =>
    rcases h with ⟨-, -, -, rfl⟩ | ⟨p, -, -, h⟩
    · exact hv
    · exact h.alive hv
  | .swap _ s t, ⟨h1, h2, _, _, h⟩, _ => rw [h]; exact put_ne (put_ne hv fun _ => h2) fun _ => h1
  | .assign prop d s, ⟨o, o', L, L', _, _, _, h⟩, _ =>
    rcases h with ⟨-, -, -, rfl⟩ | ⟨-, -, rfl⟩
    · exact hv
    · exact put_ne (put_ne hv fun _ => by simp) fun _ => by simp
  | .eraseKeys s ks, ⟨o, L, L', _, _, _, h, _⟩, _ => rw [h]; exact put_ne hv fun _ => by simp
  | .unique m s k, h, _ =>
    rcases h with ⟨p, -, -, -, rfl⟩ | ⟨-, -, -, rfl⟩ | ⟨p, -, -, h⟩
    · exact hv
    · exact hv
    · exact h.alive hv

theorem destroy_means {c : Call S A} {blank : A} {f : Ptr → Option A} {v : Ptr} (hm : c.Means blank f (.multi (.base (.destroy v)))) :
    c = .destroy v := by
  cases c
  case destroy t =>
    have hm : (FCall.multi (.base (.destroy v)) : FCall A) = .multi (.base (.destroy t)) := hm
    cases hm; rfl
  case insert o h t a => obtain ⟨x, -, hm⟩ := hm; cases h <;> cases hm
  case eraseKey => obtain ⟨x, -, hm⟩ := hm; cases hm
  case eraseKeys => obtain ⟨x, -, hm⟩ := hm; cases hm
  case find => obtain ⟨x, -, hm⟩ := hm; cases hm
  all_goals cases (show _ = _ from hm)

/-- A call on inner sets does not destroy other inner sets. -/
theorem inner_call {i : ST S} (hi : NInv E i) {c : Call S A} (hv : Valid E i c) :
    ∃ r i', Runs (exec E.toElemOps c) (ready i) r i' ∧ NInv E i' ∧ ∀ t, setVal E i t ≠ none → c ≠ .destroy t → setVal E i' t ≠ none := by
  obtain ⟨c', hm⟩ := hv.means
  obtain ⟨B, hB, -⟩ := hi.shows
  obtain ⟨r, i', B', h1, h2, -, h3, h4⟩ := hi.call hB hv hm
  refine ⟨r, i', h1, h2, fun t ht hc => ?_⟩
  rw [setVal_eq h3]
  rw [setVal_eq hB] at ht
  exact fun e => Spec.alive h4 (fun e => ht (VO.seqOf_none.2 e)) (fun e => hc (destroy_means (by rw [← e]; exact hm))) (VO.seqOf_none.1 e)

variable [ElemSize Ptr] in
/-- A call on inner vectors does not destroy other inner vectors. -/
theorem inner_vector_call {i : VO.NS S} (hi : ∃ τ, VO.NInv E i τ) {c : VO.Call} (hv : VO.Valid E i c) :
    ∃ r i', Runs (VO.exec E.toElemOps c) (VO.ready i) r i' ∧ (∃ τ, VO.NInv E i' τ) ∧
      ∀ t, VO.vecVal E i t ≠ none → c ≠ .destroy t → VO.vecVal E i' t ≠ none := by
  obtain ⟨τ, h2⟩ := hi
  obtain ⟨c', hm⟩ := VO.Call.Means.exists (blank := E.blank) fun q hq => (hv.2 q hq).1
  obtain ⟨r, i', τ', h3, h4, h5, h6⟩ := h2.call hv hm
  refine ⟨r, i', h3, ⟨τ', h4⟩, fun t k3 hd => ?_⟩
  rw [h4.vecVal]
  rw [h2.vecVal] at k3
  have k4 : VO.seqs E i.i τ t ≠ none := fun e => k3 (by rw [e]; rfl)
  have k5 := VO.vc_spec_alive h6 k4 (by
    rintro rfl
    refine hd ?_
    cases c
    case destroy v =>
      have hm : VC.Call.destroy t = VC.Call.destroy v := hm
      cases hm; rfl
    case pushBack => obtain ⟨b, -, hm⟩ := hm; cases hm
    case resize => obtain ⟨b, -, hm⟩ := hm; cases hm
    case assignN => obtain ⟨b, -, hm⟩ := hm; cases hm
    case pushMove => obtain ⟨b, -, hm⟩ := hm; cases hm
    case assignObjs => obtain ⟨b, -, hm⟩ := hm; cases hm
    all_goals cases (show _ = _ from hm))
  obtain ⟨y, e⟩ := Option.ne_none_iff_exists'.1 k5
  rw [e]; simp

/-- C99: between calls on the outer sets, the inner sets - those of the client and the elements of outer sets - can be used with all
calls, as long as no element of an outer set is destroyed. -/
theorem nest_set_set_inner {s : ST (ST S)} (hr : Reach (setOf E) s) {c : Call S A} (hv : Valid E s.i c)
    (hd : ∀ t, c = .destroy t → ¬ IsElem s t) : ∃ r i', Runs (exec E.toElemOps c) (ready s.i) r i' ∧ Reach (setOf E) ⟨s.o, i'⟩ := by
  have h := hr.inv
  obtain ⟨r, i', h1, h2, h3⟩ := inner_call h.inv hv
  refine ⟨r, i', h1, .client hr h2 fun q hq => ?_⟩
  obtain ⟨p, hp⟩ := h.isElem.1 hq
  exact h3 _ (h.live _ _ hp) fun hc => hd _ hc hq

/-- A set in a set is cleared. -/
example : Reach (setOf Elem.box) Demo.n2 ∧ IsElem Demo.n2 (.stk 2) ∧ Valid Elem.box Demo.n2.i (.clear (.stk 2)) :=
  ⟨Demo.nr2, Demo.nelem2, Demo.nclear2⟩

/-- C99: the same for sets in lists. -/
theorem nest_list_set_inner {s : LO.ST (ST S)} (hr : LO.Reach (setOf E) s) {c : Call S A} (hv : Valid E s.i c)
    (hd : ∀ t, c = .destroy t → ¬ LO.IsElem s t) : ∃ r i', Runs (exec E.toElemOps c) (ready s.i) r i' ∧ LO.Reach (setOf E) ⟨s.o, i'⟩ := by
  obtain ⟨σ, h⟩ := hr.inv
  obtain ⟨r, i', h1, h2, h3⟩ := inner_call h.inv hv
  refine ⟨r, i', h1, .client hr h2 fun q hq => ?_⟩
  obtain ⟨t, x, e, k1, k2, rfl⟩ := h.owned.1 (h.isElem.1 hq)
  exact h3 _ (h.live _ _ _ k1 k2) fun hc => hd _ hc hq

/-- A box is inserted into a set in a list. -/
example : LO.Reach (setOf Elem.box) Demo.l2 ∧ LO.IsElem Demo.l2 (.stk 2) ∧
    Valid Elem.box Demo.l2.i (.insert Demo.ord .plain (.stk 2) (.obj (.stk 0))) := ⟨Demo.lr2, Demo.lelem2, Demo.linsert2⟩

variable [ElemSize Ptr] in
/-- C99: the same for sets in vectors. -/
theorem nest_vector_set_inner {s : VO.NS (ST S)} (hr : VO.Reach (setOf E) s) {c : Call S A} (hv : Valid E s.i c)
    (hd : ∀ t, c = .destroy t → ¬ VO.IsElem s t) : ∃ r i', Runs (exec E.toElemOps c) (ready s.i) r i' ∧ VO.Reach (setOf E) ⟨s.o, i'⟩ := by
  obtain ⟨σ, h⟩ := hr.inv
  obtain ⟨r, i', h1, h2, h3⟩ := inner_call h.inv hv
  refine ⟨r, i', h1, .client hr h2 fun q hq => ?_⟩
  obtain ⟨t, x, k1, k2⟩ := h.owned.1 (h.isElem.1 hq)
  exact h3 _ (h.live _ _ _ k1 k2) fun hc => hd _ hc hq

open scoped VO.Demo in
/-- A box is inserted into a set in a vector. -/
example : VO.Reach (setOf Elem.box) Demo.k2 ∧ VO.IsElem Demo.k2 (.stk 2) ∧
    Valid Elem.box Demo.k2.i (.insert Demo.ord .plain (.stk 2) (.obj (.stk 0))) := ⟨Demo.kr2, Demo.kelem2, Demo.kinsert2⟩

/-- C99: the same for lists in sets. -/
theorem nest_set_list_inner {s : ST (LO.ST S)} (hr : Reach (LO.listOf E) s) {c : LO.Call S} (hv : LO.Valid E s.i c)
    (hd : ∀ t, c = .destroy t → ¬ IsElem s t) : ∃ r i', Runs (LO.exec E.toElemOps c) (LO.ready s.i) r i' ∧ Reach (LO.listOf E) ⟨s.o, i'⟩ := by
  have h := hr.inv
  obtain ⟨r, i', h1, h2, h3⟩ := LO.inner_call h.inv hv
  refine ⟨r, i', h1, .client hr h2 fun q hq => ?_⟩
  obtain ⟨p, hp⟩ := h.isElem.1 hq
  exact h3 _ (h.live _ _ hp) fun hc => hd _ hc hq

/-- An element of a list in a multiset is copied to the end of that list. -/
example : Reach (LO.listOf Elem.box) Demo.x2 ∧ IsElem Demo.x2 (.stk 2) ∧ LO.Valid Elem.box Demo.x2.i (.pushBack (.stk 2) (.obj (.stk 3))) :=
  ⟨Demo.xr2, Demo.xelem2, Demo.xpush2⟩

variable [ElemSize Ptr] in
/-- C99: the same for vectors in sets. -/
theorem nest_set_vector_inner {s : ST (VO.NS S)} (hr : Reach (Elem.vector E) s) {c : VO.Call} (hv : VO.Valid E s.i c)
    (hd : ∀ t, c = .destroy t → ¬ IsElem s t) : ∃ r i', Runs (VO.exec E.toElemOps c) (VO.ready s.i) r i' ∧ Reach (Elem.vector E) ⟨s.o, i'⟩ := by
  have h := hr.inv
  obtain ⟨r, i', h1, h2, h3⟩ := inner_vector_call h.inv hv
  refine ⟨r, i', h1, .client hr h2 fun q hq => ?_⟩
  obtain ⟨p, hp⟩ := h.isElem.1 hq
  exact h3 _ (h.live _ _ hp) fun hc => hd _ hc hq

open scoped VO.Demo in
/-- A vector in a multiset is cleared. -/
example : Reach (Elem.vector Elem.box) Demo.y2 ∧ IsElem Demo.y2 (.stk 3) ∧ VO.Valid Elem.box Demo.y2.i (.clear (.stk 3)) :=
  ⟨Demo.yr2, Demo.yelem2, Demo.yclear2⟩

/-! ### Trees of `shared_ptr` -/

open Nestl.SP (At Val Hnd)
variable {V : Type}

/-- C99: the objects owned by the elements of trees of `shared_ptr` are alive, and `use_count()` counts the elements among the
owners. -/
theorem treeOf_shared_alive {s : ST (SP.W V)} (hr : Reach Elem.shared s) {q : Ptr} (hq : IsElem s q) :
    ∃ h, At s.i.heap .sh (.var q) h ∧ (h.ref ≠ .null → SP.Alive s.i h.ref ∧
      ∃ n, SP.Card (fun m => SP.Refers s.i .sh m h.ref) n ∧ 0 < n ∧ Runs (SP.useCount (.var q)) s.i n s.i) := by
  have h := hr.inv
  obtain ⟨p, hp⟩ := h.isElem.1 hq
  obtain ⟨y, hy⟩ := Option.ne_none_iff_exists'.1 (h.live _ _ hp)
  have hy : At s.i.heap .sh (.var q) y := VO.sharedVal_some.1 hy
  refine ⟨y, hy, fun hn => ?_⟩
  have hR : SP.Refers s.i .sh (.var q) y.ref := ⟨hn, y, hy, rfl⟩
  have hreach : SP.Reach s.i := h.inv.1.1
  refine ⟨(SP.alive_iff_owned_partial hreach _).2 ⟨_, hR⟩, ?_⟩
  obtain ⟨n, h1, h2, h3, -⟩ := SP.use_count_correct hreach.hist hR
  exact ⟨n, h1, h2, h3⟩

example : Reach Elem.shared Demo.p4 ∧ IsElem Demo.p4 (.stk 1) ∧ VO.sharedVal Demo.p4.i (.stk 1) = some ⟨.dyn 0, .dyn 0⟩ :=
  ⟨Demo.pr4, Demo.po4, Demo.pval4⟩

/-- C99: a call on trees of `shared_ptr` whose comparator only looks at the handles (e.g. compares the addresses of the managed
objects) destroys exactly those managed objects whose last owners it destroys; the others keep their values. -/
theorem treeOf_shared_objects {s s' : ST (SP.W V)} (hr : Reach Elem.shared s) {c : Call (SP.W V) Hnd} (hv : Valid Elem.shared s c)
    (hc : ∀ ord, c.ord = some ord → ∀ P, Compares (Elem.sharedIn P) ord.less ord.lt) {r : Res}
    (hrun : Runs (exec VO.sharedOps c) (ready s) r s') (b : Ptr) (v : V) :
    Val s'.i.heap b v ↔ Val s.i.heap b v ∧ ∃ l, SP.Refers s'.i .sh l b := by
  have h := hr.inv
  have h' : NInv (Elem.sharedIn (Val s.i.heap)) s := ⟨h.outer, ⟨h.inv.1, fun _ _ h => h⟩, h.live, h.typed, h.uniq⟩
  have hv' : Valid (Elem.sharedIn (Val s.i.heap)) s c := ⟨hv.1, hv.2.1, hv.2.2.1, hv.2.2.2.1, hv.2.2.2.2.1, fun ord ho => hc ord ho _⟩
  obtain ⟨c', hm⟩ := hv'.means
  obtain ⟨B, hB, -⟩ := h'.shows
  obtain ⟨r1, s1, B', h1, h2, -⟩ := h'.call hB hv' hm
  obtain ⟨rfl, rfl⟩ := Runs.det hrun h1
  have hreach : SP.Reach s'.i := h2.inv.1.1
  have hal := SP.alive_iff_owned_partial hreach b
  constructor
  · intro hb; exact ⟨h2.inv.2 _ _ hb, hal.1 ⟨_, hb⟩⟩
  · rintro ⟨hb, hl⟩
    obtain ⟨u, hu⟩ := hal.2 hl
    have h3 := h2.inv.2 _ _ hu
    obtain ⟨c1, o1, a1, a2, rfl⟩ := hb
    obtain ⟨c2, o2, a3, a4, rfl⟩ := h3
    rw [a1] at a3; cases a3
    rw [a2] at a4; cases a4
    exact hu

example : Reach Elem.shared Demo.p3 ∧ Valid Elem.shared Demo.p3 (.insert Demo.same .upper Demo.v (.obj (.stk 0))) ∧
    (∀ P : Ptr → Nat → Prop, Compares (Elem.sharedIn P) (Demo.same : Order (SP.W Nat) Hnd).less (Demo.same : Order (SP.W Nat) Hnd).lt) ∧
    Runs (exec VO.sharedOps (.insert (Demo.same : Order (SP.W Nat) Hnd) .upper Demo.v (.obj (.stk 0)))) (ready Demo.p3) (.pos (.dyn 0)) Demo.p4 :=
  ⟨Demo.pr3, Demo.pv3, fun _ => Demo.same_ok, Demo.runs (by decide +kernel)⟩

end Nestl.TO
