import Verif.VectorOf.InsertDemo
set_option autoImplicit false
/-
C104: insertion of single objects at any position of a vector of objects.  The preconditions are in `InsValid`
(Verif/VectorOf/Client.lean), the specification is `VC.Spec` (Verif/Vector/Client.lean).
-/
namespace Nestl.VO
open Nestl.Vec (W VCell Obj Blk Sg ElemSize maxBytes)
variable {S A X : Type} {E : Elem S A X} {s s' : NS S} {r : VC.Res} {v t : Ptr} {i : Nat} {x : Ins} {qs : List Ptr} {b : VC.CArg A}

variable [ElemSize Ptr] in
/-- C104: insertions terminate without undefined behaviour, whatever fails. -/
theorem vectorOf_insert_safe (hr : Reach E s) (hv : InsValid E s v i x) : ∃ r s', Runs (insExec E.toElemOps v i x) (ready s) r s' := by
  obtain ⟨σ, h⟩ := hr.inv
  obtain ⟨b, hm⟩ := Ins.Means.exists (blank := E.blank) fun q hq => (hv.uses q hq).1
  obtain ⟨r, s', y, h1, -⟩ := h.insertion hv hm
  exact ⟨r, s', h1⟩

open Demo in
example : Reach Elem.box c5 ∧ InsValid Elem.box c5 Demo.v 1 (.copy (.obj (.stk 0))) ∧ InsValid Elem.box c5 Demo.v 1 (.copy (.elem Demo.v 0)) ∧
    Reach Elem.box c6 ∧ InsValid Elem.box c6 Demo.v 0 (.move (.stk 0)) ∧ Reach Elem.box s5 ∧ InsValid Elem.box s5 Demo.v 0 (.copy (.obj (.stk 0))) :=
  ⟨rc5, vc5, vc5e, rc6, vc6, r5, ve5⟩

variable [ElemSize Ptr] in
/-- The state after an insertion that succeeded or was at the end. -/
theorem insert_good (hr : Reach E s) (hv : InsValid E s v i x) (hrun : Runs (insExec E.toElemOps v i x) (ready s) r s')
    (hok : s'.o.err = none ∨ ∃ qs, Objs s v qs ∧ i = qs.length) (hm : x.Means E.blank (E.val s.i) b) {B : VC.AState A} (hB : Shows E s B) :
    ∃ B', Shows E s' B' ∧ VC.Spec B (.insert v i b) r s'.o.err.isSome B' := by
  obtain ⟨σ, h⟩ := hr.inv
  obtain ⟨r1, s1, y, h1, -, hy, h2, -⟩ := h.insertion hv hm
  obtain ⟨rfl, rfl⟩ := Runs.det hrun h1
  obtain ⟨σ', h3, h4⟩ := h2 (by
    rcases hok with hok | ⟨qs, k1, k2⟩
    · exact .inr hok
    · obtain rfl := (h.objs hy).1 k1; exact .inl k2)
  obtain rfl := h.shows.1 hB
  exact ⟨_, h3.shows.2 rfl, h4⟩

variable [ElemSize Ptr] in
/-- C104 (the full claim would cover failures in front of an element, which break the vector: `vectorOf_insert_failure_violated`): an
insertion that succeeds puts the value at the position; one at the end that fails changes no sequence. -/
theorem vectorOf_insert_partial (hr : Reach E s) (hv : InsValid E s v i x) (hrun : Runs (insExec E.toElemOps v i x) (ready s) r s')
    (hok : s'.o.err = none ∨ ∃ qs, Objs s v qs ∧ i = qs.length) (hm : x.Means E.blank (E.val s.i) b) {B : VC.AState A} (hB : Shows E s B) :
    Reach E s' ∧ ∃ B', Shows E s' B' ∧ VC.Spec B (.insert v i b) r s'.o.err.isSome B' :=
  ⟨.insert hr hv hrun hok, insert_good hr hv hrun hok hm hB⟩

open Demo in
example : Reach Elem.box c5 ∧ InsValid Elem.box c5 Demo.v 1 (.copy (.obj (.stk 0))) ∧
    Runs (insExec boxOps Demo.v 1 (.copy (.obj (.stk 0)))) (ready c5) (.pos 1) c6 ∧ c6.o.err = none ∧
    Ins.Means 0 c5.i.box (.copy (.obj (.stk 0))) (.val 7) ∧ (∃ B, Shows Elem.box c5 B) ∧ Values Elem.box c6 Demo.v [7, 7, 8] :=
  ⟨rc5, vc5, runc5, by decide +kernel, show _ = _ by decide +kernel, (vectorOf_shows rc5).imp fun _ h => h.1, valc6⟩

variable [ElemSize Ptr] in
/-- C104: if the copies of elements do not fail (as those of a `shared_ptr`), insertions at any position are all or nothing. -/
theorem vectorOf_insert_sure (hr : Reach E s) (hv : InsValid E s v i x) (hrun : Runs (insExec E.toElemOps v i x) (ready s) r s')
    (hw : Sure E.toElemOps) (hm : x.Means E.blank (E.val s.i) b) {B : VC.AState A} (hB : Shows E s B) :
    Reach E s' ∧ ∃ B', Shows E s' B' ∧ VC.Spec B (.insert v i b) r s'.o.err.isSome B' := by
  by_cases he : s'.o.err = none
  · exact vectorOf_insert_partial hr hv hrun (.inl he) hm hB
  · obtain ⟨σ, h⟩ := hr.inv
    obtain ⟨y, hy⟩ := (VC.alive_iff h.outer).1 hv.alive
    have ho : Objs s v y.els := (h.objs hy).2 rfl
    have hi : i ≤ y.els.length := by
      obtain ⟨qs, k1, k2⟩ := hv.pos
      obtain rfl := (h.objs hy).1 k1; exact k2
    have hv' : InsValid E s v y.els.length x := ⟨hv.alive, ⟨_, ho, Nat.le_refl _⟩, hv.arg, hv.apart.imp id fun ⟨k1, j, k2, k3⟩ =>
      ⟨k1, j, k2, by omega⟩, hv.uses⟩
    obtain ⟨h1, B', h2, al, L, z, h3, h4, h5, h6⟩ := vectorOf_insert_partial hr hv' (h.insert_sure hw hy hrun he) (.inr ⟨_, ho, rfl⟩) hm hB
    have hs : s'.o.err.isSome = true := VC.isSome_some he
    refine ⟨h1, B', h2, al, L, z, h3, h4, by omega, ?_⟩
    rw [hs] at h6 ⊢
    exact h6

open Demo in
/-- The second request for memory is refused. -/
example : Reach Elem.shared g4 ∧ InsValid Elem.shared g4 Demo.v 0 (.copy (.obj (.stk 0))) ∧
    Runs (insExec sharedOps Demo.v 0 (.copy (.obj (.stk 0)))) (ready g4) (.pos 1) g5 ∧ Sure (sharedOps : ElemOps (SP.W Nat)) ∧
    (∃ b, Ins.Means (@Elem.blank (SP.W Nat) _ _ Elem.shared) (Elem.shared.val g4.i) (.copy (.obj (.stk 0))) b) ∧ (∃ B, Shows Elem.shared g4 B) ∧
    Objs g4 Demo.v [.stk 1] ∧ g5.o.err = some .badAlloc :=
  ⟨rg4, vg4, rung4, fun _ _ _ _ => shared_copy, Ins.Means.exists fun q hq => (vg4.uses q hq).1, (vectorOf_shows rg4).imp fun _ h => h.1, og4,
    by decide +kernel⟩

/-- Specification: the value of an object of the client after an insertion: a moved-from object is empty. -/
noncomputable def Ins.after (blank : A) (x : Ins) (failed : Bool) (q : Ptr) (a : A) : A :=
  open Classical in if x = .move q ∧ failed = false then blank else a

variable [ElemSize Ptr] in
/-- C104: whatever fails, the objects of the client exist as before and have the values they had, except that an object that was moved
into the vector without an error is empty. -/
theorem vectorOf_insert_outside (hr : Reach E s) (hv : InsValid E s v i x) (hrun : Runs (insExec E.toElemOps v i x) (ready s) r s') :
    E.rest s'.i = E.rest s.i ∧
      ∀ q a, ¬ IsElem s q → E.val s.i q = some a → E.val s'.i q = some (x.after E.blank s'.o.err.isSome q a) := by
  obtain ⟨σ, h⟩ := hr.inv
  obtain ⟨b, hm⟩ := Ins.Means.exists (blank := E.blank) fun q hq => (hv.uses q hq).1
  obtain ⟨r1, s1, y, h1, h2, -⟩ := h.insertion hv hm
  obtain ⟨rfl, rfl⟩ := Runs.det hrun h1
  have hval : ∀ q a, (outside E s').1 q = some a → E.val s'.i q = some a := by
    intro q a hq
    unfold outside at hq
    simp only at hq
    split at hq
    · cases hq
    · exact hq
  have keep : Keep E (outside E s) s' → (∀ q a, x.after E.blank s'.o.err.isSome q a = a) → E.rest s'.i = E.rest s.i ∧
      ∀ q a, ¬ IsElem s q → E.val s.i q = some a → E.val s'.i q = some (x.after E.blank s'.o.err.isSome q a) := by
    intro hk hx
    have hk : outside E s' = outside E s := hk
    refine ⟨congrArg Prod.snd hk, fun q a k1 k2 => ?_⟩
    rw [hx]
    exact hval q a (by rw [hk, h.out k1, k2])
  cases x with
  | copy a => exact keep h2 fun q a => by unfold Ins.after; rw [if_neg (fun e => by cases e.1)]
  | move t =>
    rcases h2 with ⟨h2, h3⟩ | ⟨h2, h3⟩
    · refine keep h2 fun q a => ?_
      unfold Ins.after
      rw [if_neg]
      rintro ⟨-, e⟩
      rw [VC.isSome_some h3] at e
      cases e
    · have hk : outside E s' = movedOut E (outside E s) t := h2
      refine ⟨congrArg Prod.snd hk, fun q a k1 k2 => ?_⟩
      unfold Ins.after
      by_cases e : q = t
      · subst e
        rw [if_pos ⟨rfl, by rw [h3]; rfl⟩]
        exact hval q _ (by rw [hk]; exact upd_same _ _ _)
      · rw [if_neg (fun k => e (by cases k.1; rfl))]
        refine hval q a ?_
        rw [hk]
        show upd _ _ _ _ = _
        rw [upd_other _ _ e, h.out k1, k2]

open Demo in
/-- A box is moved into the vector; the failing insertion leaves the boxes of the client alone. -/
example : Reach Elem.box d6 ∧ InsValid Elem.box d6 Demo.v 0 (.move (.stk 0)) ∧
    Runs (insExec boxOps Demo.v 0 (.move (.stk 0))) (ready d6) (.pos 0) d7 ∧ ¬ IsElem d6 (.stk 0) ∧ d6.i.box (.stk 0) = some 7 ∧
    d7.i.box (.stk 0) = some 0 ∧ Runs (insExec boxOps Demo.v 0 (.copy (.obj (.stk 0)))) (ready s5) (.pos 2) e6 ∧ e6.o.err ≠ none ∧
    e6.i.box (.stk 0) = some 7 :=
  ⟨rd6, vd6, rund6, (vd6.uses _ rfl).2, by decide +kernel, by decide +kernel, rune5, by decide +kernel, by decide +kernel⟩

variable [ElemSize Ptr] in
/-- C104: no object is left behind by an insertion that succeeded or was at the end. -/
theorem vectorOf_insert_leaves (hr : Reach E s) (hv : InsValid E s v i x) (hrun : Runs (insExec E.toElemOps v i x) (ready s) r s')
    (hok : s'.o.err = none ∨ ∃ qs, Objs s v qs ∧ i = qs.length) (q : Ptr) :
    ¬ IsElem s' q ∧ E.val s'.i q ≠ none ↔ ¬ IsElem s q ∧ E.val s.i q ≠ none := by
  obtain ⟨σ', h'⟩ := (Reach.insert hr hv hrun hok).inv
  obtain ⟨σ, h⟩ := hr.inv
  obtain ⟨b, hm⟩ := Ins.Means.exists (blank := E.blank) fun q hq => (hv.uses q hq).1
  obtain ⟨r1, s1, y, h1, h2, -⟩ := h.insertion hv hm
  obtain ⟨rfl, rfl⟩ := Runs.det hrun h1
  have hfree : ∀ {s : NS S} {σ : Sg Ptr}, NInv E s σ → ∀ q, ¬ IsElem s q ∧ E.val s.i q ≠ none ↔ (outside E s).1 q ≠ none := by
    intro s σ h q
    by_cases hq : IsElem s q
    · rw [h.out_elem hq]; simp [hq]
    · rw [h.out hq]; simp [hq]
  rw [hfree h, hfree h']
  cases x with
  | copy a => rw [show outside E s' = outside E s from h2]
  | move t =>
    rcases h2 with ⟨h2, -⟩ | ⟨h2, -⟩
    · rw [show outside E s' = outside E s from h2]
    · rw [show outside E s' = movedOut E (outside E s) t from h2]
      by_cases e : q = t
      · subst e
        have := (hfree h q).1 ⟨(hv.uses q rfl).2, (hv.uses q rfl).1⟩
        simp [movedOut, this]
      · show upd _ _ _ _ ≠ none ↔ _
        rw [upd_other _ _ e]

open Demo in
example : Reach Elem.box d6 ∧ InsValid Elem.box d6 Demo.v 0 (.move (.stk 0)) ∧
    Runs (insExec boxOps Demo.v 0 (.move (.stk 0))) (ready d6) (.pos 0) d7 ∧ d7.o.err = none ∧ ¬ IsElem d6 (.stk 1) ∧ d6.i.box (.stk 1) ≠ none :=
  ⟨rd6, vd6, rund6, by decide +kernel, notElem rd6 (by decide +kernel), by decide +kernel⟩

variable [ElemSize Ptr] in
/-- C104: whatever fails, the other vectors keep their elements: the same objects with the same values. -/
theorem vectorOf_insert_others (hr : Reach E s) (hv : InsValid E s v i x) (hrun : Runs (insExec E.toElemOps v i x) (ready s) r s') :
    OthersKeep E v s s' := by
  obtain ⟨σ, h⟩ := hr.inv
  exact h.insert_others hv hrun

open Demo in
/-- The insertion fails and breaks its vector, but not the other one. -/
example : Reach Elem.box s5 ∧ InsValid Elem.box s5 Demo.v 0 (.copy (.obj (.stk 0))) ∧
    Runs (insExec boxOps Demo.v 0 (.copy (.obj (.stk 0)))) (ready s5) (.pos 2) e6 ∧ e6.o.err ≠ none ∧ Demo.u ≠ Demo.v ∧
    VC.Alive s5.o Demo.u ∧ Objs s5 Demo.u [.stk 5, .stk 6] :=
  ⟨r5, ve5, rune5, by decide +kernel, by decide, alive (by decide +kernel), objs r5 (alive (by decide +kernel)) (by decide +kernel)⟩

variable [ElemSize Ptr] in
/-- C104: if there is room, an insertion that succeeds leaves the elements in front of the position where they are: they are the same
objects, so references to them stay valid. -/
theorem vectorOf_insert_references (hr : Reach E s) (hv : InsValid E s v i x) (hrun : Runs (insExec E.toElemOps v i x) (ready s) r s')
    (hs : VC.Spare s.o v) (he : s'.o.err = none) (ho : Objs s v qs) : ∃ rs, Objs s' v (qs.take i ++ rs) := by
  obtain ⟨σ', h'⟩ := (Reach.insert hr hv hrun (.inl he)).inv
  obtain ⟨σ, h⟩ := hr.inv
  obtain ⟨y, hy⟩ := (VC.alive_iff h.outer).1 hv.alive
  obtain rfl := (h.objs hy).1 ho
  obtain ⟨L, cap, h1, h2, h3⟩ := hs
  obtain rfl := (VC.contents_iff h.outer hy).1 h1
  obtain rfl := (VC.hasCap_iff h.outer hy).1 h2
  obtain ⟨qs, k1, k2⟩ := hv.pos
  obtain rfl := (h.objs hy).1 k1
  obtain ⟨a, n, -, h4⟩ := ins_run hrun
  obtain ⟨-, -, h5⟩ := runs_insert_room rfl (h.ready.outer.st.obj _ _ hy).2 h3 h4
  rcases h5.obj with ⟨h6, -⟩ | ⟨-, h6⟩
  · exact (h6 he).elim
  obtain ⟨⟨j, rfl⟩, -⟩ := h.outer.st.obj _ _ hy
  obtain ⟨y', hy'⟩ := (VC.alive_iff h'.outer).1 ⟨j, rfl, by rw [h6]; simp⟩
  have h7 := (h'.outer.st.obj _ _ hy').2
  rw [h6] at h7
  simp only [Vec.Vec.obj, Option.some.injEq, VCell.obj.injEq, Obj.mk.injEq] at h7
  obtain ⟨-, h8, h9, -⟩ := h7
  have := same_els h.ready h' hy hy' h8.symm k2 (by omega) h5.blk
  exact ⟨y'.els.drop i, (h'.objs hy').2 (by rw [← this, List.take_append_drop])⟩

open Demo in
example : Reach Elem.box c5 ∧ InsValid Elem.box c5 Demo.v 1 (.copy (.obj (.stk 0))) ∧
    Runs (insExec boxOps Demo.v 1 (.copy (.obj (.stk 0)))) (ready c5) (.pos 1) c6 ∧ VC.Spare c5.o Demo.v ∧ c6.o.err = none ∧
    Objs c5 Demo.v [.stk 3, .stk 4] ∧ Objs c6 Demo.v [.stk 3, .stk 8, .stk 7] :=
  ⟨rc5, vc5, runc5, sparec5, by decide +kernel, oc5, oc6⟩

variable [ElemSize Ptr] in
/-- C104: an insertion makes one request for memory if the vector is full, and none otherwise. -/
theorem vectorOf_insert_requests (hr : Reach E s) (hv : InsValid E s v i x) (hrun : Runs (insExec E.toElemOps v i x) (ready s) r s') :
    (∀ n, InsAsks s v n → s'.o.nAlloc = s.o.nAlloc + 1) ∧ ((∀ n, ¬ InsAsks s v n) → s'.o.nAlloc = s.o.nAlloc) := by
  obtain ⟨ask, h1, h2, -⟩ := fair_insertion hr hv hrun
  have := h1.allocs
  constructor
  · intro n hn
    rw [(h2 n).2 hn] at this
    exact this
  · intro hn
    cases ask with
    | none => exact this
    | some n => exact (hn n ((h2 n).1 rfl)).elim

variable [ElemSize Ptr] in
/-- C104: an insertion that fails has a cause: memory was needed, and the request was too large or refused; or an element could not be
copied, and the error is the one reported by the element. -/
theorem vectorOf_insert_error_cause (hr : Reach E s) (hv : InsValid E s v i x) (hrun : Runs (insExec E.toElemOps v i x) (ready s) r s')
    {e : Err} (he : s'.o.err = some e) :
    (e = .badAlloc ∧ ∃ n, InsAsks s v n ∧ (maxBytes < n * ElemSize.size Ptr ∨ Denied s.o s.o.nAlloc)) ∨
      ∃ q i i', Runs (E.copy q) i (.error e) i' := by
  obtain ⟨ask, h1, h2, h3⟩ := fair_insertion hr hv hrun
  rcases h1.bad e he with ⟨rfl, n, h4, h5⟩ | h4
  · refine .inl ⟨rfl, n, (h2 n).1 h4, ?_⟩
    rcases h5 with h5 | h5
    · rw [Vec.wrap, Nat.mod_eq_of_lt (h3 n h4)] at h5
      exact .inl h5
    · exact .inr fun a ha => .inl (h5 a ha)
  · exact .inr h4

variable [ElemSize Ptr] in
/-- C104: if the copies of elements do not fail and the allocator does not hand out memory twice, then an insertion fails exactly if the
vector is full and the request for memory is too large or refused. -/
theorem vectorOf_insert_error_iff (hr : Reach E s) (hv : InsValid E s v i x) (hrun : Runs (insExec E.toElemOps v i x) (ready s) r s')
    (hd : Distinct s.o.env) (hw : Sure E.toElemOps) :
    s'.o.err = none ↔ ∀ n, InsAsks s v n → n * ElemSize.size Ptr ≤ maxBytes ∧ s.o.env.addr s.o.nAlloc ≠ none := by
  obtain ⟨ask, h1, h2, h3⟩ := fair_insertion hr hv hrun
  constructor
  · intro he n hn
    have h4 := h1.good he n ((h2 n).2 hn)
    rw [Vec.wrap, Nat.mod_eq_of_lt (h3 n ((h2 n).2 hn))] at h4
    exact h4
  · intro hs
    cases he : s'.o.err with
    | none => rfl
    | some e =>
      rcases vectorOf_insert_error_cause hr hv hrun he with ⟨-, n, h4, h5⟩ | ⟨q, i, i', h4⟩
      · obtain ⟨h6, h7⟩ := hs n h4
        rcases h5 with h5 | h5
        · omega
        · exact (h7 (Denied.none hd hr.handed (Nat.le_refl _) h5)).elim
      · exact (hw _ _ _ _ h4).elim

open Demo in
/-- A full vector, one that is not full, and a vector of `shared_ptr` without memory. -/
example : Reach Elem.box d6 ∧ InsValid Elem.box d6 Demo.v 0 (.move (.stk 0)) ∧ InsAsks d6 Demo.v 6 ∧ d7.o.nAlloc = d6.o.nAlloc + 1 ∧
    Reach Elem.box c5 ∧ InsValid Elem.box c5 Demo.v 1 (.copy (.obj (.stk 0))) ∧ (∀ n, ¬ InsAsks c5 Demo.v n) ∧
    Reach Elem.shared g4 ∧ InsValid Elem.shared g4 Demo.v 0 (.copy (.obj (.stk 0))) ∧ Distinct g4.o.env ∧
    Runs (insExec sharedOps Demo.v 0 (.copy (.obj (.stk 0)))) (ready g4) (.pos 1) g5 ∧ Sure (sharedOps : ElemOps (SP.W Nat)) ∧
    g5.o.err = some .badAlloc := by
  refine ⟨rd6, vd6, ⟨_, od6, cap (by decide +kernel) (alive (by decide +kernel)) rd6, by decide⟩, by decide +kernel, rc5, vc5, fun n hn => ?_,
    rg4, vg4, fun i j a k1 k2 => ?_, rung4, fun _ _ _ _ => shared_copy, by decide +kernel⟩
  · obtain ⟨qs, k1, k2, -⟩ := hn
    obtain rfl := (Runs.det k1 oc5).1
    cases (Runs.det k2 capc5).1
  · have k1 : (if i = 0 then some 0 else none) = some a := k1
    have k2 : (if j = 0 then some 0 else none) = some a := k2
    split at k1
    · split at k2
      · omega
      · cases k2
    · cases k1

open Demo in
/-- C104: the insertion in front of an element does not keep its promise when the copy of an element fails: an element is lost, and the
destructor of the vector then has undefined behaviour. -/
theorem vectorOf_insert_failure_violated : ∃ (s s' : NS Boxes) (r : VC.Res), Reach Elem.box s ∧
    InsValid Elem.box s Demo.v 0 (.copy (.obj (.stk 0))) ∧ Runs (insExec boxOps Demo.v 0 (.copy (.obj (.stk 0)))) (ready s) r s' ∧
    s'.o.err ≠ none ∧ Objs s Demo.v [.stk 3, .stk 4] ∧ (∀ qs, ¬ Objs s' Demo.v qs) ∧ s'.i.box (.stk 4) = none ∧
    ∃ f, Faults (exec boxOps (.destroy Demo.v)) (ready s') f := by
  refine ⟨s5, e6, .pos 2, r5, ve5, rune5, by decide +kernel, o5, fun qs hq => ?_, by decide +kernel, ?_⟩
  · have h : elems e6 Demo.v = none := by decide +kernel
    unfold elems at h
    rw [show VC.walk Demo.v e6.o = _ from hq] at h
    cases h
  · have h : (match exec boxOps (.destroy Demo.v) (ready e6) with | some (.error _) => true | _ => false) = true := by decide +kernel
    unfold Faults
    split at h
    · rename_i f e
      exact ⟨f, e⟩
    · cases h

end Nestl.VO
