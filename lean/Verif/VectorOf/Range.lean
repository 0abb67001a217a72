import Verif.VectorOf.InsertProps
set_option autoImplicit false
/-
Insertion of ranges of objects into vectors of objects: calls, preconditions, and lemmas for C105.
-/
namespace Nestl.VO
open Nestl.Vec (W VCell Obj Blk Sg ElemSize rdObj)
variable {S A X : Type}

/-- The references to the elements of a range; they are the same when the iterators are dereferenced later, since insertions leave other
vectors alone (`vectorOf_insert_others`). -/
def evalArgs : List CArg → M (NS S) (List Arg)
  | [] => pure []
  | c :: cs => do
    let a ← evalArg c
    let as ← evalArgs cs
    pure (a :: as)

/-- The program executed by `v.insert_nothrow(err, v.begin() + i, first, last)`: vector.hpp:576-585, 741-763. -/
def rangeExec [ElemSize Ptr] (E : ElemOps S) (v : Ptr) (i : Nat) (cs : List CArg) : M (NS S) VC.Res := do
  insertRange E v i (← evalArgs cs)
  pure .unit

/-- Preconditions of the insertion of a range: the position exists; the range consists of objects that do not belong to a vector, or of
elements of other vectors. -/
structure RangeValid (E : Elem S A X) (s : NS S) (v : Ptr) (i : Nat) (cs : List CArg) : Prop where
  alive : VC.Alive s.o v
  pos : ∃ qs, Objs s v qs ∧ i ≤ qs.length
  args : ∀ c, c ∈ cs → VC.ArgOk s.o c.addr ∧ VC.Foreign v c.addr ∧ ∀ q, c.uses q → E.val s.i q ≠ none ∧ ¬ IsElem s q

/-- Specification: the value of an argument. -/
def CArg.Is (E : Elem S A X) (s : NS S) : CArg → A → Prop
  | .obj t, a => E.val s.i t = some a
  | .elem u j, a => ∃ qs q, Objs s u qs ∧ qs[j]? = some q ∧ E.val s.i q = some a
  | .fresh, a => a = E.blank

/-- Specification: the values of a range. -/
def AreAll (E : Elem S A X) (s : NS S) : List CArg → List A → Prop
  | [], [] => True
  | c :: cs, a :: as => c.Is E s a ∧ AreAll E s cs as
  | _, _ => False

variable {E : Elem S A X} {s s' : NS S} {v : Ptr} {i : Nat} {c : CArg} {cs : List CArg} {xs : List A} [ElemSize Ptr]

omit [ElemSize Ptr] in
theorem runs_failed (s : NS S) : Runs failed s s.o.err.isSome s := rfl

omit [ElemSize Ptr] in
theorem evalArg_elem {u : Ptr} {j : Nat} {a : Arg} :
    Runs (evalArg (.elem u j)) s a s ↔ u ≠ .null ∧ ∃ o, s.o.heap u = some (.obj o) ∧ j < o.fin ∧ a = .ref o.start j := by
  constructor
  · intro h
    obtain ⟨o, s1, h1, h2⟩ := runs_bind_iff.1 h
    obtain ⟨w, h3, rfl⟩ := of_onO h1
    obtain ⟨k1, k2, rfl⟩ := runs_rdObj.1 h3
    obtain ⟨_, s2, h4, h5⟩ := runs_bind_iff.1 h2
    obtain ⟨k3, rfl⟩ := of_assert h4
    cases h5
    exact ⟨k1, o, k2, by simpa using k3, rfl⟩
  · rintro ⟨k1, o, k2, k3, rfl⟩
    refine runs_bind_iff.2 ⟨o, s, runs_onO (runs_rdObj.2 ⟨k1, k2, rfl⟩), runs_bind_iff.2 ⟨(), s, ?_, rfl⟩⟩
    simp [assertM, k3]; rfl

/-- Arguments can be evaluated. -/
theorem evalArg_runs (hr : Reach E s) (h : VC.ArgOk s.o c.addr) : ∃ a, Runs (evalArg c) s a s := by
  cases c with
  | obj t => exact ⟨_, rfl⟩
  | fresh => exact ⟨_, rfl⟩
  | elem u j =>
    obtain ⟨σ, hi⟩ := hr.inv
    obtain ⟨h1, L, h2, h3⟩ := h
    obtain ⟨y, hy⟩ := (VC.alive_iff hi.outer).1 h1
    obtain rfl := (VC.contents_iff hi.outer hy).1 h2
    obtain ⟨⟨k, rfl⟩, h4⟩ := hi.outer.st.obj _ _ hy
    exact ⟨_, evalArg_elem.2 ⟨by simp, _, h4, h3, rfl⟩⟩

omit [ElemSize Ptr] in
/-- Insertions into `v` do not change the arguments that are not elements of `v`. -/
theorem evalArg_keep (hk : OthersKeep E v s s') (h : VC.ArgOk s.o c.addr) (hf : VC.Foreign v c.addr) {a : Arg} (ha : Runs (evalArg c) s a s) :
    Runs (evalArg c) s' a s' ∧ VC.ArgOk s'.o c.addr := by
  cases c with
  | obj t => cases ha; exact ⟨rfl, trivial⟩
  | fresh => cases ha; exact ⟨rfl, trivial⟩
  | elem u j =>
    obtain ⟨h1, L, h2, h3⟩ := h
    obtain ⟨k0, k1, k2, -⟩ := hk u L hf h1 h2
    obtain ⟨a1, o, a2, a3⟩ := evalArg_elem.1 ha
    exact ⟨evalArg_elem.2 ⟨a1, o, by rw [k0]; exact a2, a3⟩, k1, L, k2, h3⟩

omit [ElemSize Ptr] in
theorem evalArgs_runs (ha : ∀ c, c ∈ cs → ∃ a, Runs (evalArg c) s a s) : ∃ as, Runs (evalArgs cs) s as s := by
  induction cs with
  | nil => exact ⟨[], rfl⟩
  | cons c cs ih =>
    obtain ⟨a, h1⟩ := ha c (by simp)
    obtain ⟨as, h2⟩ := ih fun c hc => ha c (by simp [hc])
    exact ⟨_, runs_bind_iff.2 ⟨a, s, h1, runs_bind_iff.2 ⟨as, s, h2, rfl⟩⟩⟩

/-- What the insertion of a range ensures whatever fails. -/
structure RangeKeeps (E : Elem S A X) (v : Ptr) (s s' : NS S) : Prop where
  others : OthersKeep E v s s'
  rest : E.rest s'.i = E.rest s.i
  client : ∀ q a, ¬ IsElem s q → E.val s.i q = some a → E.val s'.i q = some a

omit [ElemSize Ptr] in
theorem Shows.at {B : VC.AState A} (hB : Shows E s B) (ha : VC.Alive s.o v) {qs : List Ptr} (ho : Objs s v qs) :
    ∃ al L, B v = some (al, L) ∧ qs.map (E.val s.i) = L.map some := by
  obtain ⟨⟨al, L⟩, h1⟩ := Option.ne_none_iff_exists'.1 ((hB.1 v).1 ha)
  obtain ⟨qs', h2, h3⟩ := (hB.2 _ _ _ h1).2
  obtain rfl := (Runs.det ho h2).1
  exact ⟨al, L, h1, h3⟩

omit [ElemSize Ptr] in
/-- The value of an argument, in terms of the sequences. -/
theorem CArg.Is.argIs {B : VC.AState A} (hB : Shows E s B) {b : VC.CArg A} (hm : c.Means E.blank (E.val s.i) b) {a z : A} (h : c.Is E s a)
    (hz : VC.ArgIs B z b) : z = a := by
  cases c <;> cases b <;> try exact (show False from hm).elim
  · have h : E.val s.i _ = some a := h
    rw [show E.val s.i _ = _ from hm] at h
    cases h
    exact hz
  · obtain ⟨rfl, rfl⟩ := hm
    obtain ⟨al, L, h1, h2⟩ := hz
    obtain ⟨qs, q, h3, h4, h5⟩ := h
    obtain ⟨qs', h6, h7⟩ := (hB.2 _ _ _ h1).2
    obtain rfl := (Runs.det h3 h6).1
    rename_i j
    have := congrArg (fun l => l[j]?) h7
    simp only [List.getElem?_map, h4, h2, Option.map_some, h5, Option.some.injEq] at this
    exact this.symm
  · exact (show z = _ from hz).trans ((show _ = _ from hm).trans (show a = _ from h).symm)

omit [ElemSize Ptr] in
/-- The values of arguments are kept. -/
theorem AreAll.keep (hk : RangeKeeps E v s s') : ∀ {cs : List CArg} {xs : List A},
    (∀ c, c ∈ cs → VC.ArgOk s.o c.addr ∧ VC.Foreign v c.addr ∧ ∀ q, c.uses q → E.val s.i q ≠ none ∧ ¬ IsElem s q) →
    AreAll E s cs xs → AreAll E s' cs xs
  | [], [], _, _ => trivial
  | [], _ :: _, _, h => h.elim
  | _ :: _, [], _, h => h.elim
  | c :: cs, x :: xs, hv, h => by
    refine ⟨?_, AreAll.keep hk (fun c hc => hv c (by simp [hc])) h.2⟩
    obtain ⟨h1, h2, h3⟩ := hv c (by simp)
    have h4 := h.1
    cases c with
    | obj t => exact hk.client t x (h3 t rfl).2 h4
    | fresh => exact h4
    | elem u j =>
      obtain ⟨qs, q, k1, k2, k3⟩ := h4
      obtain ⟨-, -, k4, k5⟩ := hk.others u qs h2 h1.1 k1
      exact ⟨qs, q, k4, k2, (k5 q (List.mem_of_getElem? k2)).trans k3⟩

/-- The loop of the insertion of a range. -/
theorem range_loop (cs : List CArg) : ∀ {s : NS S} {i : Nat} {as : List Arg} {xs : List A}, Reach E s → s.o.err = none → RangeValid E s v i cs →
    Runs (evalArgs cs) s as s → AreAll E s cs xs → ∃ s', Runs (insertRangeLoop E.toElemOps v i as) s () s' ∧ RangeKeeps E v s s' ∧
      ((s'.o.err = none ∨ (∃ qs, Objs s v qs ∧ i = qs.length) ∨ Sure E.toElemOps) → Reach E s' ∧
        ∀ B, Shows E s B → ∃ B', Shows E s' B' ∧ VC.Spec B (.insertVals v i xs) .unit s'.o.err.isSome B') := by
  induction cs with
  | nil =>
    intro s i as xs hr he hv ha hx
    cases ha
    cases xs with
    | cons _ _ => exact hx.elim
    | nil =>
      refine ⟨s, rfl, ⟨.refl _ _, rfl, fun _ _ _ h => h⟩, fun _ => ⟨hr, fun B hB => ⟨B, hB, ?_⟩⟩⟩
      obtain ⟨qs, h1, h2⟩ := hv.pos
      obtain ⟨al, L, h3, h4⟩ := hB.at hv.alive h1
      have h5 := congrArg List.length h4
      simp only [List.length_map] at h5
      exact ⟨al, L, 0, h3, by omega, Nat.le_refl _, by simp [he], by simp [upd_self _ _ _ h3]⟩
  | cons c cs ih =>
    intro s i as xs hr he hv ha hx
    cases xs with
    | nil => exact hx.elim
    | cons x xs =>
    obtain ⟨a, s0, h1, h2⟩ := runs_bind_iff.1 ha
    obtain rfl := of_evalArg h1
    obtain ⟨as, s0, h3, h4⟩ := runs_bind_iff.1 h2
    have : s0 = s := by cases h4; rfl
    subst this
    cases h4
    obtain ⟨hc1, hc2, hc3⟩ := hv.args c (by simp)
    have hiv : InsValid E s0 v i (.copy c) := ⟨hv.alive, hv.pos, hc1, .inl hc2, hc3⟩
    obtain ⟨r, s1, hrun⟩ := vectorOf_insert_safe hr hiv
    have hins : ∃ n, r = .pos n ∧ Runs (insertValue E.toElemOps v i a) s0 n s1 := by
      have hrun' := hrun
      rw [ready_of he] at hrun'
      obtain ⟨a', s2, k1, k2⟩ := runs_bind_iff.1 hrun'
      obtain ⟨rfl, rfl⟩ := Runs.det k1 h1
      obtain ⟨n, s3, k3, k4⟩ := runs_bind_iff.1 k2
      cases k4
      exact ⟨n, rfl, k3⟩
    obtain ⟨n, rfl, hins⟩ := hins
    obtain ⟨b, hm⟩ := Ins.Means.exists (x := .copy c) (blank := E.blank) fun q hq => (hc3 q hq).1
    have hkeep : RangeKeeps E v s0 s1 := by
      refine ⟨vectorOf_insert_others hr hiv hrun, (vectorOf_insert_outside hr hiv hrun).1, fun q a k1 k2 => ?_⟩
      have := (vectorOf_insert_outside hr hiv hrun).2 q a k1 k2
      unfold Ins.after at this
      rwa [if_neg (fun e => by cases e.1)] at this
    by_cases he1 : s1.o.err = none
    · have hr1 : Reach E s1 := .insert hr hiv hrun (.inl he1)
      have hspec := fun B (hB : Shows E s0 B) => insert_good hr hiv hrun (.inl he1) hm hB
      have hl := fun q => vectorOf_insert_leaves hr hiv hrun (.inl he1) q
      obtain ⟨B0, hB0, -⟩ := vectorOf_shows hr
      obtain ⟨qs, hq1, hq2⟩ := hv.pos
      have hlen : ∃ qs', VC.Alive s1.o v ∧ Objs s1 v qs' ∧ qs'.length = qs.length + 1 := by
        obtain ⟨B1, k1, al, L, z, k2, k3, k4, k5⟩ := hspec B0 hB0
        rw [he1] at k5
        have k6 : B1 v = some (al, L.take i ++ z :: L.drop i) := by rw [k5.2, upd_same]
        obtain ⟨qs', k7, k8⟩ := (k1.2 _ _ _ k6).2
        obtain ⟨al', L', k9, k10⟩ := hB0.at hv.alive hq1
        rw [k2] at k9; cases k9
        have e1 := congrArg List.length k8
        have e2 := congrArg List.length k10
        simp at e1 e2
        exact ⟨qs', (k1.1 v).2 (by rw [k6]; simp), k7, by omega⟩
      obtain ⟨qs', hq3, hq4, hq5⟩ := hlen
      have hv1 : RangeValid E s1 v (i + 1) cs := by
        refine ⟨hq3, ⟨qs', hq4, by omega⟩, fun c' hc' => ?_⟩
        obtain ⟨k1, k2, k3⟩ := hv.args c' (by simp [hc'])
        obtain ⟨a', k4⟩ := evalArg_runs hr k1
        refine ⟨(evalArg_keep hkeep.others k1 k2 k4).2, k2, fun q hq => ?_⟩
        have := (hl q).2 ⟨(k3 q hq).2, (k3 q hq).1⟩
        exact ⟨this.2, this.1⟩
      have hargs : ∀ {cs : List CArg} {as : List Arg}, (∀ c, c ∈ cs → VC.ArgOk s0.o c.addr ∧ VC.Foreign v c.addr) →
          Runs (evalArgs cs) s0 as s0 → Runs (evalArgs cs) s1 as s1 := by
        intro cs
        induction cs with
        | nil => intro as _ k; cases k; rfl
        | cons c cs ih =>
          intro as k1 k2
          obtain ⟨a, s2, k3, k4⟩ := runs_bind_iff.1 k2
          obtain rfl := of_evalArg k3
          obtain ⟨as', s2, k5, k6⟩ := runs_bind_iff.1 k4
          cases k6
          obtain ⟨k7, k8⟩ := k1 c (by simp)
          exact runs_bind_iff.2 ⟨a, s1, (evalArg_keep hkeep.others k7 k8 k3).1,
            runs_bind_iff.2 ⟨as', s1, ih (fun c hc => k1 c (by simp [hc])) k5, rfl⟩⟩
      obtain ⟨s2, k1, k2, k3⟩ := ih hr1 he1 hv1 (hargs (fun c hc => ⟨(hv.args c (by simp [hc])).1, (hv.args c (by simp [hc])).2.1⟩) h3)
        (AreAll.keep hkeep (fun c hc => hv.args c (by simp [hc])) hx.2)
      refine ⟨s2, ?_, ⟨hkeep.others.trans k2.others, k2.rest.trans hkeep.rest, fun q a a1 a2 => ?_⟩, fun hok => ?_⟩
      · refine runs_bind_iff.2 ⟨n, s1, hins, runs_bind_iff.2 ⟨false, s1, ?_, ?_⟩⟩
        · have := runs_failed s1
          rwa [he1] at this
        · exact k1
      · exact k2.client q a ((hl q).2 ⟨a1, by rw [a2]; simp⟩).1 (hkeep.client q a a1 a2)
      · obtain ⟨k4, k5⟩ := k3 (hok.imp id (Or.imp (fun ⟨qs2, e1, e2⟩ => ⟨qs', hq4, by
          obtain rfl := (Runs.det e1 hq1).1; omega⟩) id))
        refine ⟨k4, fun B hB => ?_⟩
        obtain ⟨B1, k6, al, L, z, k7, k8, k9, k10⟩ := hspec B hB
        obtain rfl := CArg.Is.argIs hB hm hx.1 k8
        rw [he1] at k10
        obtain ⟨-, rfl⟩ := k10
        obtain ⟨B2, k11, al', L', k, k12, k13, k14, k15, k16⟩ := k5 _ k6
        rw [upd_same] at k12
        cases k12
        refine ⟨B2, k11, al, L, k + 1, k7, k9, by simp; omega, by rw [k15]; simp, ?_⟩
        have e1 : (L.take i ++ z :: L.drop i).take (i + 1) = L.take i ++ [z] := by
          rw [List.take_append, List.length_take, Nat.min_eq_left k9, List.take_of_length_le (by simp; omega)]
          simp
        have e2 : (L.take i ++ z :: L.drop i).drop (i + 1) = L.drop i := by
          rw [List.drop_append, List.length_take, Nat.min_eq_left k9, List.drop_eq_nil_of_le (by simp; omega)]
          simp
        rw [k16, upd_upd, e1, e2]
        simp
    · refine ⟨s1, ?_, hkeep, fun hok => ?_⟩
      · refine runs_bind_iff.2 ⟨n, s1, hins, runs_bind_iff.2 ⟨true, s1, ?_, rfl⟩⟩
        have := runs_failed s1
        rwa [VC.isSome_some he1] at this
      · have hs : s1.o.err.isSome = true := VC.isSome_some he1
        have main : Reach E s1 ∧ ∀ B, Shows E s0 B → ∃ B', Shows E s1 B' ∧ VC.Spec B (.insert v i b) (.pos n) s1.o.err.isSome B' := by
          obtain ⟨B0, hB0, -⟩ := vectorOf_shows hr
          rcases hok with hok | hok | hok
          · exact (he1 hok).elim
          · exact ⟨.insert hr hiv hrun (.inr hok), fun B hB => insert_good hr hiv hrun (.inr hok) hm hB⟩
          · exact ⟨(vectorOf_insert_sure hr hiv hrun hok hm hB0).1, fun B hB => (vectorOf_insert_sure hr hiv hrun hok hm hB).2⟩
        refine ⟨main.1, fun B hB => ?_⟩
        obtain ⟨B', k1, al, L, z, k2, -, k3, k4⟩ := main.2 B hB
        rw [hs] at k4 ⊢
        obtain ⟨-, rfl⟩ := k4
        exact ⟨_, k1, al, L, 0, k2, k3, by simp, by simp, by simp [upd_self _ _ _ k2]⟩

end Nestl.VO
