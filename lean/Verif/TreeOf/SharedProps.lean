import Verif.TreeOf.WeakProps
set_option autoImplicit false
/-
C96, C97, C99: containers of `shared_ptr` and programs that use smart pointers between the calls on containers.
-/
namespace Nestl.VO
open Nestl.SP (At Val Hnd Hs Moved Collect)
variable {V : Type} {w w' : SP.W V}

/-- No objects with `weak_ptr` members are made. -/
def Plain (c : SP.Call V) : Prop := ∀ al v ks, c = .makeShared al v ks → SP.Kind.wk ∉ ks

/-- Without objects with `weak_ptr` members, `shared_ptr`s in variables exist until they are destroyed. -/
theorem shared_stays {c : SP.Call V} (h : NoWeak w) (hv : SP.Valid w c) (hp : Plain c) :
    ∃ r w', Runs (SP.exec c) (SP.ready w) r w' ∧ NoWeak w' ∧
      ∀ q, sharedVal w q ≠ none → c ≠ .dropShared q → sharedVal w' q ≠ none := by
  obtain ⟨r, w', h1, h2, h3⟩ := SP.call_effect h.1 hv
  -- The moves of handles: members are never `weak_ptr`s, `shared_ptr` variables stay.
  suffices key : ∃ A1 : Hs, (∀ k l z, At w'.heap k l z → A1 k l z) ∧ (∀ k q z, A1 k (.var q) z → At w'.heap k (.var q) z) ∧
      (∀ b i z, ¬ A1 .wk (.mem b i) z) ∧ ∀ q, sharedVal w q ≠ none → c ≠ .dropShared q → ∃ x, A1 .sh (.var q) x by
    obtain ⟨A1, k1, k2, k3, k4⟩ := key
    refine ⟨r, w', h1, ⟨h2, fun b i z hz => k3 b i z (k1 _ _ _ hz)⟩, fun q hq hd => ?_⟩
    obtain ⟨x, hx⟩ := k4 q hq hd
    rw [sharedVal_some.2 (k2 _ _ _ hx)]; intro e; cases e
  have hsome : ∀ q, sharedVal w q ≠ none → ∃ x, At w.heap .sh (.var q) x := fun q hq => by
    obtain ⟨x, hx⟩ := Option.ne_none_iff_exists'.1 hq
    exact ⟨x, sharedVal_some.1 hx⟩
  -- A handle of kind `k` is put into a variable or replaces a handle of the same kind.
  have hput : ∀ {A : Hs} {k : SP.Kind} {l : SP.Loc} {y : Hnd}, (∀ b i z, ¬ A .wk (.mem b i) z) →
      (∀ q, sharedVal w q ≠ none → ∃ x, A .sh (.var q) x) →
      ((∃ p, l = .var p ∧ sharedVal w p = none) ∨ SP.Has (At w.heap) k l) →
      (∀ b i z, ¬ (A.put k l y) .wk (.mem b i) z) ∧ ∀ q, sharedVal w q ≠ none → ∃ x, (A.put k l y) .sh (.var q) x := by
    intro A k l y a1 a2 hl
    constructor
    · intro b i z hz
      by_cases e : SP.Loc.mem b i = l
      · subst e
        simp [Hs.put] at hz
        obtain ⟨rfl, rfl⟩ := hz
        rcases hl with ⟨p, e, -⟩ | ⟨x, hx⟩
        · cases e
        · exact h.2 _ _ _ hx
      · simp [Hs.put, e] at hz; exact a1 _ _ _ hz
    · intro q hq
      obtain ⟨x, hx⟩ := a2 q hq
      by_cases e : SP.Loc.var q = l
      · subst e
        rcases hl with ⟨p, e, hp⟩ | ⟨x', hx'⟩
        · cases e; exact (hq hp).elim
        · obtain ⟨x0, hx0⟩ := hsome q hq
          obtain ⟨rfl, -⟩ := hx'.det hx0
          exact ⟨y, by simp [Hs.put]⟩
      · exact ⟨x, by simp [Hs.put, e, hx]⟩
  have hnew : ∀ {p : Ptr} {k : SP.Kind}, r = some p → (∃ p', SP.Loc.var p = .var p' ∧ sharedVal w p' = none) ∨ SP.Has (At w.heap) k (.var p) :=
    fun {p k} hp => .inl ⟨p, rfl, fresh_val (h3.1 p hp)⟩
  have hcol : ∀ {A1 : Hs} {B B' : Ptr → V → Prop}, Collect A1 B (At w'.heap) B' →
      ((∀ b i z, ¬ A1 .wk (.mem b i) z) ∧ ∀ q, sharedVal w q ≠ none → ∃ x, A1 .sh (.var q) x) →
      ∃ A1 : Hs, (∀ k l z, At w'.heap k l z → A1 k l z) ∧ (∀ k q z, A1 k (.var q) z → At w'.heap k (.var q) z) ∧
        (∀ b i z, ¬ A1 .wk (.mem b i) z) ∧ ∀ q, sharedVal w q ≠ none → c ≠ .dropShared q → ∃ x, A1 .sh (.var q) x :=
    fun {A1 _ _} hc hA => ⟨A1, fun k l z hz => ((hc.at_ k l z).1 hz).1, fun k q z hz => (Collect.vars hc k q z).2 hz, hA.1, fun q hq _ => hA.2 q hq⟩
  have h0 := h.2
  have h0' := hsome
  cases c with
  | makeShared al v ks =>
    obtain ⟨p, hp', ⟨-, e, -⟩ | ⟨-, b, -, -, -, e, -⟩⟩ := h3.2
    · obtain ⟨a1, a2⟩ := hput (y := .nil) h0 h0' (hnew (k := .sh) hp')
      exact ⟨_, fun k l z hz => by rw [e] at hz; exact hz, fun k q z hz => by rw [e]; exact hz, a1, fun q hq _ => a2 q hq⟩
    · obtain ⟨a1, a2⟩ := hput (A := Hs.obj (At w.heap) b ks) (y := ⟨b, b⟩) (by
        rintro d i z (hz | ⟨j, -, hk, -⟩)
        · exact h0 _ _ _ hz
        · exact hp _ _ _ rfl (List.mem_of_getElem? hk)) (fun q hq => by
          obtain ⟨x, hx⟩ := hsome q hq
          exact ⟨x, .inl hx⟩) (hnew (k := .sh) hp')
      exact ⟨_, fun k l z hz => by rw [e] at hz; exact hz, fun k q z hz => by rw [e]; exact hz, a1, fun q hq _ => a2 q hq⟩
  | newShared | newWeak =>
    obtain ⟨-, A1, hm, hc⟩ := h3.2
    rcases r with _ | p
    · exact hm.elim
    · have hm : A1 = _ := hm
      subst hm; exact hcol hc (hput h0 h0' (hnew rfl))
  | copyShared l | lock l | toWeak k l =>
    obtain ⟨-, A1, hm, hc⟩ := h3.2
    rcases r with _ | p
    · exact hm.elim
    · obtain ⟨x, -, rfl⟩ := hm
      exact hcol hc (hput h0 h0' (hnew rfl))
  | moveShared l | moveWeak l =>
    obtain ⟨-, A1, hm, hc⟩ := h3.2
    rcases r with _ | p
    · exact hm.elim
    · obtain ⟨x, hx, rfl⟩ := hm
      obtain ⟨a1, a2⟩ := hput (y := .nil) h0 h0' (.inr ⟨x, hx⟩)
      exact hcol hc (hput a1 a2 (hnew rfl))
  | dropShared p =>
    obtain ⟨-, A1, hm, hc⟩ := h3.2
    rcases r with _ | p'
    · have hm : A1 = _ := hm
      subst hm
      refine ⟨Hs.del (At w.heap) (.var p), fun k l z hz => ((hc.at_ k l z).1 hz).1, fun k q z hz => (Collect.vars hc k q z).2 hz, fun b i z hz => h0 _ _ _ hz.2, fun q hq hd => ?_⟩
      obtain ⟨x, hx⟩ := hsome q hq
      exact ⟨x, by intro e; cases e; exact hd rfl, hx⟩
    · exact hm.elim
  | dropWeak p =>
    obtain ⟨-, A1, hm, hc⟩ := h3.2
    rcases r with _ | p'
    · have hm : A1 = _ := hm
      subst hm
      refine ⟨Hs.del (At w.heap) (.var p), fun k l z hz => ((hc.at_ k l z).1 hz).1, fun k q z hz => (Collect.vars hc k q z).2 hz, fun b i z hz => h0 _ _ _ hz.2, fun q hq _ => ?_⟩
      obtain ⟨x, hx⟩ := hsome q hq
      obtain ⟨y, hy⟩ : SP.Has (At w.heap) .wk (.var p) := hv
      exact ⟨x, (by intro e; cases e; cases (hy.det hx).1), hx⟩
    · exact hm.elim
  | assignShared l m | assignSharedY l m =>
    obtain ⟨-, A1, hm, hc⟩ := h3.2
    rcases r with _ | p'
    · obtain ⟨x, -, rfl⟩ := hm
      exact hcol hc (hput h0 h0' (.inr hv.1))
    · exact hm.elim
  | moveAssignShared l m =>
    obtain ⟨-, A1, hm, hc⟩ := h3.2
    rcases r with _ | p'
    · obtain ⟨x, -, rfl⟩ := hm
      obtain ⟨a1, a2⟩ := hput (y := x) h0 h0' (.inr hv.1)
      exact hcol hc (hput a1 a2 (.inr hv.2.1))
    · exact hm.elim
  | swapShared l m =>
    obtain ⟨-, A1, hm, hc⟩ := h3.2
    rcases r with _ | p'
    · obtain ⟨x, y, -, -, rfl⟩ := hm
      obtain ⟨a1, a2⟩ := hput (y := y) h0 h0' (.inr hv.1)
      exact hcol hc (hput a1 a2 (.inr hv.2))
    · exact hm.elim
  | resetShared l =>
    obtain ⟨-, A1, hm, hc⟩ := h3.2
    rcases r with _ | p'
    · have hm : A1 = _ := hm
      subst hm; exact hcol hc (hput h0 h0' (.inr hv.1))
    · exact hm.elim
  | resetWeak l =>
    obtain ⟨-, A1, hm, hc⟩ := h3.2
    rcases r with _ | p'
    · have hm : A1 = _ := hm
      subst hm; exact hcol hc (hput h0 h0' (.inr hv))
    · exact hm.elim
  | assignWeak k l m =>
    obtain ⟨-, A1, hm, hc⟩ := h3.2
    rcases r with _ | p'
    · obtain ⟨x, -, rfl⟩ := hm
      exact hcol hc (hput h0 h0' (.inr hv.1))
    · exact hm.elim
  | moveAssignWeak l m =>
    obtain ⟨-, A1, hm, hc⟩ := h3.2
    rcases r with _ | p'
    · obtain ⟨x, -, rfl⟩ := hm
      obtain ⟨a1, a2⟩ := hput (y := x) h0 h0' (.inr hv.1)
      exact hcol hc (hput a1 a2 (.inr hv.2.1))
    · exact hm.elim

variable [Vec.ElemSize Ptr] in
/-- C96: between the calls on vectors of `shared_ptr` the client may use smart pointers, also the elements, as long as it destroys no
element and makes no objects with `weak_ptr` members. -/
theorem vectorOf_shared_between {s : NS (SP.W V)} (hr : Reach Elem.shared s) {c : SP.Call V} (hv : SP.Valid s.i c) (hp : Plain c)
    (hd : ∀ q, c = .dropShared q → ¬ IsElem s q) :
    ∃ r i', Runs (SP.exec c) (SP.ready s.i) r i' ∧ Reach Elem.shared ⟨s.o, i'⟩ := by
  obtain ⟨σ, h⟩ := hr.inv
  obtain ⟨r, i', h1, h2, h3⟩ := shared_stays h.inv.1 hv hp
  refine ⟨r, i', h1, .client hr ⟨h2, fun _ _ _ => trivial⟩ fun q hq => ?_⟩
  obtain ⟨t, x, k1, k2⟩ := h.owned.1 (h.isElem.1 hq)
  exact h3 q (h.live _ _ _ k1 k2) fun e => hd q e hq

open Demo in
/-- The element of the vector is reset, which leaves one owner. -/
example : Reach Elem.shared h4 ∧ IsElem h4 (.stk 1) ∧ SP.Valid h4.i (.resetShared (.var (.stk 1))) ∧
    Plain (.resetShared (.var (.stk 1)) : SP.Call Nat) := by
  refine ⟨hr4, ho4, ⟨⟨⟨.dyn 0, .dyn 0⟩, rfl⟩, ?_⟩, fun _ _ _ e => by cases e⟩
  obtain ⟨σ, h⟩ := hr4.inv
  intro b x i z _ _ hz
  have : At h4.i.heap .wk (.mem x i) z := by simpa [Hs.put] using hz
  exact (h.inv.1.2 _ _ _ this).elim

end Nestl.VO

namespace Nestl.LO
open Nestl.VO (Elem Plain)
variable {V : Type}

/-- C97: the same for lists. -/
theorem listOf_shared_between {s : ST (SP.W V)} (hr : Reach Elem.shared s) {c : SP.Call V} (hv : SP.Valid s.i c) (hp : Plain c)
    (hd : ∀ q, c = .dropShared q → ¬ IsElem s q) :
    ∃ r i', Runs (SP.exec c) (SP.ready s.i) r i' ∧ Reach Elem.shared ⟨s.o, i'⟩ := by
  obtain ⟨σ, h⟩ := hr.inv
  obtain ⟨r, i', h1, h2, h3⟩ := VO.shared_stays h.inv.1 hv hp
  refine ⟨r, i', h1, .client hr ⟨h2, fun _ _ _ => trivial⟩ fun q hq => ?_⟩
  obtain ⟨t, x, e, k1, k2, rfl⟩ := h.owned.1 (h.isElem.1 hq)
  exact h3 _ (h.live _ _ _ k1 k2) fun e => hd _ e hq

/-- A `weak_ptr` to the object owned by an element of the list. -/
example : Reach Elem.shared Demo.p4 ∧ IsElem Demo.p4 (.stk 1) ∧ SP.Valid Demo.p4.i (.toWeak .sh (.var (.stk 1))) ∧
    Plain (.toWeak .sh (.var (.stk 1)) : SP.Call Nat) := ⟨Demo.pr4, Demo.po4, ⟨_, rfl⟩, fun _ _ _ e => by cases e⟩

end Nestl.LO

namespace Nestl.TO
open Nestl.VO (Elem Plain)
variable {V : Type}

/-- C99: the same for trees. -/
theorem treeOf_shared_between {s : ST (SP.W V)} (hr : Reach Elem.shared s) {c : SP.Call V} (hv : SP.Valid s.i c) (hp : Plain c)
    (hd : ∀ q, c = .dropShared q → ¬ IsElem s q) :
    ∃ r i', Runs (SP.exec c) (SP.ready s.i) r i' ∧ Reach Elem.shared ⟨s.o, i'⟩ := by
  have h := hr.inv
  obtain ⟨r, i', h1, h2, h3⟩ := VO.shared_stays h.inv.1 hv hp
  refine ⟨r, i', h1, .client hr ⟨h2, fun _ _ _ => trivial⟩ fun q hq => ?_⟩
  obtain ⟨p, hp⟩ := h.isElem.1 hq
  exact h3 q (h.live _ _ hp) fun e => hd q e hq

/-- A new object is made. -/
example : Reach Elem.shared Demo.p4 ∧ SP.Valid Demo.p4.i (.makeShared 0 5 [.sh]) ∧ Plain (.makeShared 0 5 [.sh] : SP.Call Nat) :=
  ⟨Demo.pr4, trivial, fun _ _ _ e => by cases e; decide⟩

end Nestl.TO
