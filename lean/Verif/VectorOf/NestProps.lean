import Verif.VectorOf.NestDemo
set_option autoImplicit false
/-
C96: nested containers: vectors of vectors of … of any class, vectors of lists, vectors of `shared_ptr`.
-/
namespace Nestl.VO
open Nestl.Vec (W Sg ElemSize)
open Nestl.SP (At Val Hnd)
variable {S A X V : Type}

/-! ### Any depth -/

/-- The memory of `vector<vector<…<T>…>>`, `n` levels of vectors above `T`. -/
def Deep (S : Type) : Nat → Type
  | 0 => S
  | n + 1 => NS (Deep S n)

/-- The values of such vectors: sequences of sequences of … of values. -/
def Seqs (A : Type) : Nat → Type
  | 0 => A
  | n + 1 => List (Seqs A n)

/-- What the client has of the lower levels. -/
def Rests (A X : Type) : Nat → Type
  | 0 => X
  | n + 1 => (Ptr → Option (Seqs A n)) × Rests A X n

/-- Vectors nested `n` deep as an element class. -/
noncomputable def Elem.deep [ElemSize Ptr] (E : Elem S A X) : (n : Nat) → Elem (Deep S n) (Seqs A n) (Rests A X n)
  | 0 => E
  | n + 1 => Elem.vector (Elem.deep E n)

variable [ElemSize Ptr] in
/-- C96: vectors nested to any depth, of any element class: every call on the outermost vectors whose precondition holds
terminates without undefined behaviour on any level, has the specified effect on the sequences (of sequences …) of values, and
leaves everything alone that is not part of a vector, apart from emptying what was moved into one. -/
theorem nested_calls {E : Elem S A X} (n : Nat) {s : NS (Deep S n)} (hr : Reach (Elem.deep E n) s) {c : Call}
    (hv : Valid (Elem.deep E n) s c) {c' : VC.Call (Seqs A n)} (hm : c.Means (Elem.deep E n).blank ((Elem.deep E n).val s.i) c')
    {B : VC.AState (Seqs A n)} (hB : Shows (Elem.deep E n) s B) :
    ∃ r s' B', Runs (exec (Elem.deep E n).toElemOps c) (ready s) r s' ∧ Reach (Elem.deep E n) s' ∧
      Shows (Elem.deep E n) s' B' ∧ VC.Spec B c' r s'.o.err.isSome B' ∧ (Elem.deep E n).rest s'.i = (Elem.deep E n).rest s.i ∧
      (∀ q, ¬ IsElem s' q ∧ (Elem.deep E n).val s'.i q ≠ none ↔ ¬ IsElem s q ∧ (Elem.deep E n).val s.i q ≠ none) ∧
      ∀ q x y, ¬ IsElem s q → (Elem.deep E n).val s.i q = some x → (Elem.deep E n).val s'.i q = some y →
        c.After (Elem.deep E n).blank s'.o.err.isSome q x y := by
  obtain ⟨r, s', h1, h2⟩ := vectorOf_calls_safe hr hv
  obtain ⟨B', h3, h4⟩ := vectorOf_calls_refine hr hv h1 hm hB
  obtain ⟨h5, h6, h7⟩ := vectorOf_calls_outside hr hv h1
  exact ⟨r, s', B', h1, h2, h3, h4, h5, h6, h7⟩

open Demo in
/-- A vector of vectors of boxes: an inner vector is copied, and one of the boxes refuses to be copied. -/
example : Reach (Elem.deep Elem.box 1) n2 ∧ Valid (Elem.deep Elem.box 1) n2 (.pushBack v (.obj u)) ∧
    Values (Elem.deep Elem.box 1) n2 v [([7, 8] : List Nat)] ∧ n3.o.err.isSome = true ∧ Values (Elem.deep Elem.box 1) n3 v [([7, 8] : List Nat)] :=
  ⟨nr2, nv2, nvals2, nerr3, nvals3⟩

variable [ElemSize Ptr] in
/-- C96: when the vectors of both levels have been destroyed, no memory of either level is left. -/
theorem nested_all_destroyed {E : Elem S A X} {s : NS (NS S)} (hr : Reach (Elem.vector E) s) (hd : ∀ v, ¬ VC.Alive s.o v)
    (hd' : ∀ v, ¬ VC.Alive s.i.o v) : (∀ p, s.o.heap p = none) ∧ (∀ p, s.i.o.heap p = none) ∧ ∀ q, ¬ IsElem s.i q := by
  refine ⟨(vectorOf_all_destroyed hr hd).1, ?_⟩
  obtain ⟨σ, h⟩ := hr.inv
  obtain ⟨τ, h2⟩ := h.inv
  refine ⟨?_, fun q hq => ?_⟩
  · intro p
    refine Classical.byContradiction fun h0 => ?_
    rcases h2.outer.noLeak p h0 with h1 | ⟨v, h1, _⟩
    · exact hd' _ h1
    · exact hd' _ h1
  · obtain ⟨v, qs, h1, -⟩ := hq
    exact hd' _ h1

open Demo in
/-- All vectors of both levels are destroyed, the outer one with its element. -/
example : Reach (Elem.vector Elem.box) n7 ∧ (∀ v, ¬ VC.Alive n7.o v) ∧ (∀ v, ¬ VC.Alive n7.i.o v) := ⟨nr7, ngone7, ngone7i⟩

theorem vc_spec_alive {B B' : VC.AState A} {c : VC.Call A} {r : VC.Res} {b : Bool} (h : VC.Spec B c r b B') {v : Ptr}
    (hv : B v ≠ none) (hn : c ≠ .destroy v) : B' v ≠ none := by
  obtain ⟨P, hP⟩ : ∃ P : VC.AState A → Prop, ∀ C, P C ↔ C v ≠ none := ⟨fun C => C v ≠ none, fun _ => Iff.rfl⟩
  have u1 : ∀ (C : VC.AState A) (t : Ptr) (y : Nat × List A), P C → P (upd C t (some y)) := by
    intro C t y hC
    rw [hP] at *
    rw [upd_apply]; split
    · simp
    · exact hC
  have u2 : ∀ (C : VC.AState A) (t : Ptr), t ≠ v → P C → P (upd C t none) := by
    intro C t ht hC
    rw [hP] at *
    rw [upd_other _ _ (Ne.symm ht)]; exact hC
  rw [← hP] at *
  clear hP
  cases c <;> simp only [VC.Spec] at h <;> grind

variable [ElemSize Ptr] in
/-- C96: between calls on the outer vectors, the inner vectors - those of the client and the elements of outer vectors - can be
used with all calls, as long as no element of an outer vector is destroyed. -/
theorem nested_inner_calls {E : Elem S A X} {s : NS (NS S)} (hr : Reach (Elem.vector E) s) {c : Call} (hv : Valid E s.i c)
    (hd : ∀ v, c = .destroy v → ¬ IsElem s v) :
    ∃ r i', Runs (exec E.toElemOps c) (ready s.i) r i' ∧ Reach (Elem.vector E) ⟨s.o, i'⟩ := by
  obtain ⟨σ, h⟩ := hr.inv
  obtain ⟨τ, h2⟩ := h.inv
  obtain ⟨c', hm⟩ := Call.Means.exists (blank := E.blank) fun q hq => (hv.2 q hq).1
  obtain ⟨r, i', τ', h3, h4, h5, h6⟩ := h2.call hv hm
  refine ⟨r, i', h3, .client hr ⟨τ', h4⟩ ?_⟩
  intro q hq
  obtain ⟨t, x, k1, k2⟩ := h.owned.1 (h.isElem.1 hq)
  have k3 : vecVal E s.i q ≠ none := h.live _ _ _ k1 k2
  show vecVal E i' q ≠ none
  rw [h4.vecVal]
  rw [h2.vecVal] at k3
  have k4 : seqs E s.i.i τ q ≠ none := fun e => k3 (by rw [e]; rfl)
  have k5 := vc_spec_alive h6 k4 (by
    rintro rfl
    refine hd q ?_ hq
    cases c
    case destroy v =>
      have hm : VC.Call.destroy q = VC.Call.destroy v := hm
      cases hm; rfl
    case pushBack => obtain ⟨b, -, hm⟩ := hm; cases hm
    case resize => obtain ⟨b, -, hm⟩ := hm; cases hm
    case assignN => obtain ⟨b, -, hm⟩ := hm; cases hm
    case pushMove => obtain ⟨b, -, hm⟩ := hm; cases hm
    case assignObjs => obtain ⟨b, -, hm⟩ := hm; cases hm
    all_goals cases (show _ = _ from hm))
  obtain ⟨y, e⟩ := Option.ne_none_iff_exists'.1 k5
  rw [e]; simp

open Demo in
/-- The inner vector in the outer one is cleared. -/
example : Reach (Elem.vector Elem.box) n2 ∧ IsElem n2 (.stk 3) ∧ Valid Elem.box n2.i (.clear (.stk 3)) := ⟨nr2, nelem2, nclear2⟩

open Demo in
/-- C96: growth copies the elements although they could be moved: a `push_back` on an outer vector replaces the inner vectors by
copies, so that references to elements of inner vectors become invalid (with `std::vector` they stay valid). -/
theorem nested_growth_copies_violated : ∃ (s s' : NS (NS Boxes)) (w q b : Ptr) (r : VC.Res),
    Reach (Elem.vector Elem.box) s ∧ Valid (Elem.vector Elem.box) s (.pushBack w .fresh) ∧ Objs s w [q] ∧
    (∃ bs, Objs s.i q (b :: bs)) ∧ s.i.i.box b = some 7 ∧
    Runs (exec (vecOps boxOps) (.pushBack w .fresh)) (ready s) r s' ∧ s'.o.err.isSome = false ∧ s'.i.i.box b = none := by
  obtain ⟨r, h⟩ := nrun4
  exact ⟨n4, n5, v, .stk 3, .stk 3, r, nr4, nv4, no4, ⟨_, no4i⟩, by decide +kernel, h, by decide +kernel, by decide +kernel⟩

/-! ### Vectors of lists -/

theorem lc_spec_alive {B B' : LC.AState V} {c : LC.Call V} {r : LC.Res} {b : Bool} (h : LC.Spec B c r b B') {v : Ptr}
    (hv : B v ≠ none) (hn : c ≠ .destroy v) : B' v ≠ none := by
  obtain ⟨P, hP⟩ : ∃ P : LC.AState V → Prop, ∀ C, P C ↔ C v ≠ none := ⟨fun C => C v ≠ none, fun _ => Iff.rfl⟩
  have u1 : ∀ (C : LC.AState V) (t : Ptr) (y : Nat × List (Ptr × V)), P C → P (upd C t (some y)) := by
    intro C t y hC
    rw [hP] at *
    rw [upd_apply]; split
    · simp
    · exact hC
  have u2 : ∀ (C : LC.AState V) (t : Ptr), t ≠ v → P C → P (upd C t none) := by
    intro C t ht hC
    rw [hP] at *
    rw [upd_other _ _ (Ne.symm ht)]; exact hC
  rw [← hP] at *
  clear hP
  cases c <;> simp only [LC.Spec] at h <;> grind

variable [ElemSize Ptr] in
/-- C96: between calls on the vectors, the lists - those of the client and the elements of vectors - can be used with all calls, as
long as no element of a vector is destroyed. -/
theorem vectorOf_lists_inner_calls {s : NS (LL.W V)} (hr : Reach Elem.list s) {c : LC.Call V} (hv : LC.Valid s.i c)
    (hd : ∀ l, c = .destroy l → ¬ IsElem s l) :
    ∃ r i', Runs (LC.exec c) (LC.ready s.i) r i' ∧ Reach Elem.list ⟨s.o, i'⟩ := by
  obtain ⟨σ, h⟩ := hr.inv
  obtain ⟨B, h2⟩ := h.inv
  obtain ⟨r, i', B', h3, h4, h5⟩ := l_call h2 hv
  refine ⟨r, i', h3, .client hr ⟨B', h4⟩ ?_⟩
  intro q hq
  obtain ⟨t, x, k1, k2⟩ := h.owned.1 (h.isElem.1 hq)
  have k3 : listVal s.i q ≠ none := h.live _ _ _ k1 k2
  show listVal i' q ≠ none
  rw [listVal_eq h4]
  rw [listVal_eq h2] at k3
  exact fun e => lc_spec_alive h5 (fun e => k3 (seqOf_none.2 e)) (fun e => hd q e hq) (seqOf_none.1 e)

open Demo in
/-- `v[0].push_back_nothrow(err, 5)` -/
example : Reach Elem.list l2 ∧ IsElem l2 (.stk 0) ∧ LC.Valid l2.i (.pushBack (.stk 0) 5) := ⟨lr2, lo2, lv2⟩

/-! ### Vectors of `shared_ptr` -/

variable [ElemSize Ptr] in
/-- C96: the objects owned by the elements of vectors of `shared_ptr` are alive, and `use_count()` counts the elements among the
owners. -/
theorem vectorOf_shared_alive {s : NS (SP.W V)} (hr : Reach Elem.shared s) {q : Ptr} (hq : IsElem s q) :
    ∃ h, At s.i.heap .sh (.var q) h ∧ (h.ref ≠ .null → SP.Alive s.i h.ref ∧
      ∃ n, SP.Card (fun m => SP.Refers s.i .sh m h.ref) n ∧ 0 < n ∧ Runs (SP.useCount (.var q)) s.i n s.i) := by
  obtain ⟨σ, h⟩ := hr.inv
  obtain ⟨t, x, k1, k2⟩ := h.owned.1 (h.isElem.1 hq)
  obtain ⟨y, hy⟩ := Option.ne_none_iff_exists'.1 (h.live _ _ _ k1 k2)
  have hy : At s.i.heap .sh (.var q) y := sharedVal_some.1 hy
  refine ⟨y, hy, fun hn => ?_⟩
  have hR : SP.Refers s.i .sh (.var q) y.ref := ⟨hn, y, hy, rfl⟩
  have hreach : SP.Reach s.i := h.inv.1.1
  refine ⟨(SP.alive_iff_owned_partial hreach _).2 ⟨_, hR⟩, ?_⟩
  obtain ⟨n, h1, h2, h3, -⟩ := SP.use_count_correct hreach.hist hR
  exact ⟨n, h1, h2, h3⟩

open Demo in
example : Reach Elem.shared h4 ∧ IsElem h4 (.stk 1) ∧ sharedVal h4.i (.stk 1) = some ⟨.dyn 0, .dyn 0⟩ := ⟨hr4, ho4, hval4⟩

variable [ElemSize Ptr] in
/-- C96: a call on vectors of `shared_ptr` destroys exactly those managed objects whose last owners it destroys; the others keep
their values. -/
theorem vectorOf_shared_objects {s s' : NS (SP.W V)} (hr : Reach Elem.shared s) {c : Call} (hv : Valid Elem.shared s c) {r : VC.Res}
    (hrun : Runs (exec sharedOps c) (ready s) r s') (b : Ptr) (v : V) :
    Val s'.i.heap b v ↔ Val s.i.heap b v ∧ ∃ l, SP.Refers s'.i .sh l b := by
  obtain ⟨σ, h⟩ := hr.inv
  have h' : NInv (Elem.sharedIn (Val s.i.heap)) s σ := ⟨h.outer, ⟨h.inv.1, fun _ _ h => h⟩, h.live, h.uniq⟩
  have hv' : Valid (Elem.sharedIn (Val s.i.heap)) s c := hv
  obtain ⟨c', hm⟩ := Call.Means.exists (blank := Hnd.nil) fun q hq => (hv.2 q hq).1
  obtain ⟨r1, s1, σ', h1, h2, -⟩ := h'.call hv' hm
  obtain ⟨rfl, rfl⟩ := Runs.det hrun h1
  have hreach : SP.Reach s'.i := h2.inv.1.1
  have hal := SP.alive_iff_owned_partial hreach b
  constructor
  · intro hb; exact ⟨h2.inv.2 _ _ hb, hal.1 ⟨_, hb⟩⟩
  · rintro ⟨hb, hl⟩
    obtain ⟨u, hu⟩ := hal.2 hl
    have h3 := h2.inv.2 _ _ hu
    obtain ⟨c1, o1, a1, a2, rfl⟩ := hb
    obtain ⟨c2, o2, a3, a4, rfl⟩ := h3
    rw [a1] at a3; cases a3
    rw [a2] at a4; cases a4
    exact hu

open Demo in
example : Reach Elem.shared h3 ∧ Valid Elem.shared h3 (.pushBack v (.obj (.stk 0))) ∧
    ∃ r, Runs (exec sharedOps (.pushBack v (.obj (.stk 0)))) (ready h3) r h4 := ⟨hr3, hv3, hrun3⟩

end Nestl.VO
