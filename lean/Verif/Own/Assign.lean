import Verif.Own.Any
set_option autoImplicit false
/-
Move assignment of sets (C111): set.hpp:170-184.  `m_move_assign` may refuse to take the nodes of the source (C73, C92); the set
then transfers the elements one by one.

The function is ill-formed if instantiated (`m_move_assign` does not compile, and `set` has no `insert`); it is modelled by
intent: `insert(first, last)` is `m_insert_unique(err, first, last)` of the tree with an error object of its own, since the
operator has no way to report an error.
-/
namespace Nestl.Own
open Nestl.RB Nestl.Set Nestl.Multi Nestl.Full
variable {K : Type}

/-- `m_insert_unique(err, first, last)` for a range of another tree: rbt.hpp:2116-2129. -/
def insertFrom (lt : Less K) (d first last : Ptr) : M (W K) Unit := do
  if first ≠ last then
    let _ ← insertUniqueAt lt d d (← keyOf first)
    if (← hasErr) then pure () else insertFrom lt d (← increment first) last
  else pure ()
partial_fixpoint

/-- The error object of `insert` is destroyed; whatever it held is forgotten by the program. -/
def dropErr : M (W K) (Option Err) := fun w => some (.ok (w.err, { w with err := none }))

/-- `set::operator=(set&&)`: set.hpp:170-184.  The result is the error of `insert`, which the code does not return. -/
def setAssign (prop : Bool) (d s : Ptr) : M (OW K) (Option Err) := do
  if (← moveAssignO prop d s) then pure none
  else
    lift (clear d)
    let lt ← getCmp d
    lift (do insertFrom lt d (← begin_ s) s)
    let e ← lift dropErr
    lift (clear s)
    pure e

section
variable {dflt : Less K} {env : Env (TNode K)} {x x' : OW K} {d s : Ptr}

theorem ready_of {w : W K} (h : w.err = none) : Set.ready w = w := by
  cases w; cases h; rfl

theorem oready_of (h : x.w.err = none) : oready x = x := by
  unfold oready; rw [ready_of h]

/-- A call on an object in order. -/
theorem LHist.step' {c : FCall K} (hh : LHist dflt env x) (hv : LValid dflt x (.on c)) (hW : WeakIn (used dflt x.cmp c) x.w c.keyed) :
    ∃ r x', Runs (oexec dflt (.on c)) (oready x) r x' ∧ LHist dflt env x' ∧ FEffect (used dflt x.cmp c) (Set.ready x.w) c r x'.w ∧
      CmpStep dflt x.cmp (.on c) r x'.w.err.isSome x'.cmp := by
  obtain ⟨r, x', h1, h2, h3⟩ := wp.runs (osim (x := oready x) (dflt := dflt) (fexec_effect_in hh.mem.ready hW (FValid.ready hh.mem hv) rfl))
  exact ⟨r, x', h1, .call hh hv h1, h2, h3⟩

/-- The same from a state without an error. -/
theorem LHist.step {c : FCall K} (hh : LHist dflt env x) (hv : LValid dflt x (.on c)) (he : x.w.err = none)
    (hW : WeakIn (used dflt x.cmp c) x.w c.keyed) :
    ∃ r x', Runs (oexec dflt (.on c)) x r x' ∧ LHist dflt env x' ∧ FEffect (used dflt x.cmp c) x.w c r x'.w ∧
      CmpStep dflt x.cmp (.on c) r x'.w.err.isSome x'.cmp := by
  have := hh.step' hv hW
  rwa [oready_of he, ready_of he] at this

theorem runs_lift_inv {α : Type} {m : M (W K) α} {a : α} (h : Runs (lift m) x a x') : Runs m x.w a x'.w ∧ x'.cmp = x.cmp := by
  unfold Runs lift at h
  unfold Runs
  cases h1 : m x.w with
  | none => rw [h1] at h; cases h
  | some r =>
    rw [h1] at h
    cases r with
    | error f => cases h
    | ok p => cases h; exact ⟨rfl, rfl⟩

theorem runs_lift {α : Type} {m : M (W K) α} {a : α} {w' : W K} : Runs (lift m) x a ⟨w', x.cmp⟩ ↔ Runs m x.w a w' := by
  refine ⟨fun h => (runs_lift_inv h).1, fun h => ?_⟩
  unfold Runs at h
  unfold Runs lift
  rw [h]

theorem put_put {α : Type} (f : Ptr → α) (p : Ptr) (a b : α) : put (put f p a) p b = put f p b := by
  funext q
  by_cases e : q = p
  · subst e; rw [put_same, put_same]
  · rw [put_other _ _ e, put_other _ _ e, put_other _ _ e]

/-- Transferring the elements `C` of `s` to the end of `d`. -/
theorem insertFrom_runs : ∀ {C A : List (Ptr × K)} {x : OW K} {u v : T K} {o o' : Nat}, LHist dflt env x → x.w.err = none →
    SWO (x.cmp d) → d ≠ s → Tree x.w.heap d o u → Tree x.w.heap s o' v → v.nodes = A ++ C → u.nodes.map Prod.snd = A.map Prod.snd →
    (v.nodes.map Prod.snd).Pairwise (fun a b => x.cmp d a b = true) →
    ∃ x' u' D, Runs (lift (insertFrom (x.cmp d) d (firstP s C) s)) x () x' ∧ LHist dflt env x' ∧ x'.cmp = x.cmp ∧ Tree x'.w.heap d o u' ∧
      Tree x'.w.heap s o' v ∧ u'.nodes.map Prod.snd = u.nodes.map Prod.snd ++ D ∧ D <+: C.map Prod.snd ∧
      (x'.w.err = none → D = C.map Prod.snd) ∧ (Good x.w → x'.w.err = none) ∧ (C ≠ [] → Refused x.w → D = [] ∧ x'.w.err ≠ none) ∧
      (∀ i oi ti, Ptr.stk i ≠ d → Ptr.stk i ≠ s → Tree x.w.heap (.stk i) oi ti → Tree x'.w.heap (.stk i) oi ti) ∧
      x'.w.env = x.w.env ∧ ∀ Z, KAbs x.w Z → KAbs x'.w (put Z d (u'.nodes.map Prod.snd)) := by
  intro C
  induction C with
  | nil =>
    intro A x u v o o' hh he hs hne hu hv hn hk hP
    refine ⟨x, u, [], ?_, hh, rfl, hu, hv, by simp, by simp, by simp, fun _ => he, by simp, fun _ _ _ _ _ h => h, rfl,
      fun Z hZ => by rw [hZ _ _ _ hu, put_self]; exact hZ⟩
    refine runs_lift.2 ?_
    rw [insertFrom]
    simp [firstP]
    rfl
  | cons c C ih =>
    obtain ⟨p, k⟩ := c
    intro A x u v o o' hh he hs hne hu hv hn hk hP
    have hps : p ≠ s := hv.node_ne_hdr (by simp [T.ptrs, hn])
    have hI := hh.mem
    have hasym : Asym (x.cmp d) := fun a b h => hs.asymm h
    have hsorted : WSorted (x.cmp d) u.nodes := by
      have : (u.nodes.map Prod.snd).Pairwise (fun a b => x.cmp d a b = true) := by
        rw [hk]
        rw [hn, List.map_append] at hP
        exact (List.pairwise_append.1 hP).1
      rw [List.pairwise_map] at this
      exact this.imp fun h => hs.asymm h
    have hbefore : ∀ a ∈ u.nodes, x.cmp d a.2 k = true := by
      intro a ha
      have h1 : a.2 ∈ A.map Prod.snd := hk ▸ List.mem_map_of_mem ha
      rw [hn, List.map_append] at hP
      exact (List.pairwise_append.1 hP).2.2 _ h1 _ (by simp)
    obtain ⟨i, hi⟩ := hu.ok.hdr
    have hval : LValid dflt x (.on (.unique (.at d) d k)) :=
      ⟨⟨i, hi, hi ▸ hu.ne_none⟩, hasym, u.nodes, (contents_iff hu).2 rfl, .inl rfl⟩
    obtain ⟨r, x1, hr, hh1, hf, hc⟩ := hh.step (c := .unique (.at d) d k) hval he (by
      rintro _ o2 t2 ⟨⟩ ht2 _
      rw [(Tree.unique ht2 hu).2]
      exact hsorted)
    have hcmp : x1.cmp = x.cmp := hc
    have hrun : ∃ q, Runs (insertUniqueAt (x.cmp d) d d k) x.w q x1.w := by
      have h2 : Runs (lift (do pure (FRes.pos (← insertUniqueAt (x.cmp d) d d k)))) x r x1 := hr
      obtain ⟨h3, -⟩ := runs_lift_inv h2
      obtain ⟨q, w2, h4, h5⟩ := runs_seq_inv h3
      cases h5
      exact ⟨q, h4⟩
    obtain ⟨q, hrun⟩ := hrun
    have hkey : Runs (keyOf p) x.w k x.w := by
      obtain ⟨a, w2, g1, rfl, rfl⟩ := wp.runs ((wp_keyOf_mem (Q := fun a w2 => a = k ∧ w2 = x.w) hv hn).2 ⟨rfl, rfl⟩)
      exact g1
    have frame : ∀ {j oj tj}, Ptr.stk j ≠ d → Tree x.w.heap (.stk j) oj tj → Tree x1.w.heap (.stk j) oj tj :=
      fun h1 h2 => hf.frame hI h2 h1
    obtain ⟨j, hj⟩ := hv.ok.hdr
    have hv1 : Tree x1.w.heap s o' v := by
      subst hj; exact frame (fun e => hne e.symm) hv
    -- the head of the loop
    have start : ∀ {x2 : OW K}, Runs (lift (do if (← hasErr) then pure () else insertFrom (x.cmp d) d (← increment p) s)) x1 () x2 →
        Runs (lift (insertFrom (x.cmp d) d (firstP s ((p, k) :: C)) s)) x () x2 := by
      intro x2 h2
      obtain ⟨h3, h4⟩ := runs_lift_inv h2
      have e : x2 = ⟨x2.w, x.cmp⟩ := by rw [← hcmp, ← h4]
      rw [e]
      refine runs_lift.2 ?_
      rw [insertFrom, firstP_cons, if_pos hps]
      exact runs_seq hkey (runs_seq hrun h3)
    generalize hw1 : x1.w = w1 at hf
    generalize hU : used dflt x.cmp (.unique (.at d) d k) = lt at hf
    have hlt : lt = x.cmp d := hU.symm
    subst hlt
    cases hf with
    | uniqueOld ht hn2 h1 _ _ _ _ _ =>
      obtain ⟨-, rfl⟩ := Tree.unique ht hu
      have h2 := hbefore _ (by rw [hn2]; exact List.mem_append_right _ (List.mem_cons_self ..))
      rw [h1] at h2
      cases h2
    | uniqueFail ht hh2 hext herr hrf _ =>
      subst hw1
      refine ⟨x1, u, [], start ?_, hh1, hcmp, by rw [hh2]; exact hu, hv1, by simp, List.nil_prefix, ?_, ?_, fun _ _ => ⟨rfl, by rw [herr]; simp⟩, ?_,
        hext.env, fun Z hZ => by rw [hZ _ _ _ hu, put_self]; exact hZ.same hh2⟩
      · have e : x1 = ⟨x1.w, x1.cmp⟩ := rfl
        conv => arg 4; rw [e]
        refine runs_lift.2 (runs_seq (s1 := x1.w) (a := true) ?_ rfl)
        show some (Except.ok (x1.w.err.isSome, x1.w)) = _
        rw [herr]; rfl
      · intro h; rw [herr] at h; cases h
      · intro hg; exact absurd hrf hg.not_refused
      · intro i oi ti h1 _ h3; exact frame h1 h3
    | @uniqueNew _ _ _ o2 t t' A2 B2 a _ ht ht' hn2 hn2' hcut hchg hfresh herr _ hnr =>
      subst hw1
      obtain ⟨rfl, rfl⟩ := Tree.unique ht hu
      have hB : B2 = [] := by
        cases B2 with
        | nil => rfl
        | cons b B2 =>
          have h1 := (hcut hs).2 b (by simp)
          have h2 := hbefore b (by rw [hn2]; simp)
          rw [hs.asymm h1] at h2
          cases h2
      subst hB
      rw [List.append_nil] at hn2
      have hinc : Runs (increment p) x1.w (firstP s C) x1.w := by
        obtain ⟨a2, w2, g1, rfl, rfl⟩ := wp.runs (wp_increment' (w := x1.w) (Q := fun a2 w2 => a2 = firstP s C ∧ w2 = x1.w) hv1 hn ⟨rfl, rfl⟩)
        exact g1
      obtain ⟨x2, u2, D, g1, g2, g3, g4, g5, g6, g7, g8, g9, -, g10, g11, g12⟩ := ih (A := A ++ [(p, k)]) hh1 herr (by rw [hcmp]; exact hs) hne ht' hv1
        (by rw [hn]; simp) (by rw [hn2', ← hn2]; simp [hk]) (by rw [hcmp]; exact hP)
      rw [hcmp] at g1 g3
      refine ⟨x2, u2, k :: D, start ?_, g2, g3, g4, g5, by rw [g6, hn2', ← hn2]; simp, by simpa using g7, ?_, ?_,
        fun _ h => absurd h hnr, fun i oi ti h1 h2 h3 => g10 i oi ti h1 h2 (frame h1 h3),
        g11.trans hchg.ext.env, fun Z hZ => by have := g12 _ (Change.kabs hchg hI hu ht' hZ rfl); rwa [put_put] at this⟩
      · obtain ⟨h3, h4⟩ := runs_lift_inv g1
        have e : x2 = ⟨x2.w, x1.cmp⟩ := by rw [← h4]
        rw [e]
        refine runs_lift.2 (runs_seq (s1 := x1.w) (a := false) ?_ ?_)
        · show some (Except.ok (x1.w.err.isSome, x1.w)) = _
          rw [herr]; rfl
        · exact runs_seq hinc h3
      · intro h; simp [g8 h]
      · intro hg
        refine g9 ⟨?_, ?_, ?_, ?_⟩
        · rw [hchg.ext.env]; exact hg.some
        · rw [hchg.ext.env]; exact hg.inj
        · rw [hchg.ext.env]; exact hg.ctor
        · exact hh1.mem.past

theorem runs_moveAssignO {prop b : Bool} (h : Runs (oexec dflt (.on (.assign prop d s))) x (.ok b) x') : Runs (moveAssignO prop d s) x b x' := by
  obtain ⟨b2, x2, h1, h2⟩ := runs_seq_inv (m := moveAssignO prop d s) (f := fun b => pure (FRes.ok b)) h
  cases h2
  exact h1

theorem runs_clear {r : FRes K} (h : Runs (oexec dflt (.on (.multi (.base (.clear d))))) x r x') : Runs (lift (clear d)) x () x' := by
  obtain ⟨h1, h2⟩ := runs_lift_inv (m := fexec dflt (.multi (.base (.clear d)))) h
  obtain ⟨a, w1, h3, h4⟩ := runs_seq_inv (m := mexec dflt (.base (.clear d))) (f := fun r => pure (FRes.multi r)) h1
  cases h4
  obtain ⟨n, w2, h5, h6⟩ := runs_seq_inv h3
  cases h5
  obtain ⟨r, w3, h7, h8⟩ := runs_seq_inv h6
  cases h8
  obtain ⟨u, w4, h9, h10⟩ := runs_seq_inv (m := clear d) (f := fun _ => pure Res.unit) h7
  cases h10
  have e : x' = ⟨x'.w, x.cmp⟩ := by rw [← h2]
  rw [e]
  exact runs_lift.2 h9

/-- `clear()`, from any state, with a new error object. -/
theorem LHist.clear {i o : Nat} {u : T K} (hh : LHist dflt env x) (hu : Tree x.w.heap (.stk i) o u) :
    ∃ x', Runs (lift (RB.clear (.stk i))) (oready x) () x' ∧ LHist dflt env x' ∧ x'.cmp = x.cmp ∧ x'.w.err = none ∧
      Tree x'.w.heap (.stk i) o .nil ∧ (Good x.w → Good x'.w) ∧ x'.w.env = x.w.env ∧ x.w.nAlloc ≤ x'.w.nAlloc ∧
      (∀ j oj tj, j ≠ i → Tree x.w.heap (.stk j) oj tj → Tree x'.w.heap (.stk j) oj tj) ∧
      ∀ Z, KAbs x.w Z → KAbs x'.w (put Z (.stk i) []) := by
  obtain ⟨r, x', h1, h2, h3, h4⟩ := hh.step' (c := .multi (.base (.clear (.stk i)))) ⟨i, rfl, hu.ne_none⟩ (by intro s o t e; cases e)
  have hf : ∀ j oj tj, j ≠ i → Tree x.w.heap (.stk j) oj tj → Tree x'.w.heap (.stk j) oj tj := fun j oj tj hj ht =>
    h3.frame hh.mem.ready ht (by show ¬ Ptr.stk j = Ptr.stk i; simpa using hj)
  cases h3 with
  | multi h3 =>
    cases h3 with
    | base h3 _ =>
      cases h3 with
      | clear ht ht' hc herr =>
        have e := (Tree.unique (H := x.w.heap) ht hu).1
        subst e
        have henv : x'.w.env = x.w.env := hc.ext.env
        refine ⟨x', runs_clear h1, h2, h4, herr, ht', fun hg => ⟨?_, ?_, ?_, h2.mem.past⟩, henv, hc.ext.nAlloc, hf,
          fun Z hZ => Change.kabs hc hh.mem.ready ht ht' (hZ.same rfl) rfl⟩
        · rw [henv]; exact hg.some
        · rw [henv]; exact hg.inj
        · rw [henv]; exact hg.ctor

theorem setAssign_runs {prop : Bool} {L : List (Ptr × K)} (hh : LHist dflt env x) (had : Alive x.w d) (has : Alive x.w s) (hne : d ≠ s)
    (hs : SWO (x.cmp s)) (hL : Contents x.w s L) (hP : L.Pairwise fun a b => x.cmp s a.2 b.2 = true) :
    ∃ e x' L', Runs (setAssign prop d s) (oready x) e x' ∧ LHist dflt env x' ∧ x'.cmp = put x.cmp d (x.cmp s) ∧ Contents x'.w s [] ∧
      Contents x'.w d L' ∧ (prop = true ∨ SameAlloc x.w d s → e = none ∧ L' = L) ∧ L'.map Prod.snd <+: L.map Prod.snd ∧
      (e = none → L'.map Prod.snd = L.map Prod.snd) ∧ (Good x.w → e = none) ∧
      (L'.Pairwise fun a b => x'.cmp d a.2 b.2 = true) ∧
      ((∀ n, x.w.nAlloc ≤ n → x.w.env.addr n = none) → L ≠ [] → ¬ (prop = true ∨ SameAlloc x.w d s) → e ≠ none ∧ L' = []) ∧
      (∀ t M, t ≠ d → t ≠ s → Alive x.w t → Contents x.w t M → Contents x'.w t M) ∧ x'.w.env = x.w.env ∧ x'.w.err = none ∧
      ∀ Z, KAbs x.w Z → KAbs x'.w (put (put Z d (L'.map Prod.snd)) s []) := by
  have hI := hh.mem
  obtain ⟨i, o, u, rfl, _, hu, -⟩ := hI.tree had
  obtain ⟨j, o', v, rfl, _, hv, -⟩ := hI.tree has
  obtain rfl := (contents_iff hv).1 hL
  have hij : i ≠ j := fun e => hne (by rw [e])
  -- the other objects
  have others : ∀ {x' : OW K}, (∀ k ok tk, Ptr.stk k ≠ .stk i → Ptr.stk k ≠ .stk j → Tree x.w.heap (.stk k) ok tk → Tree x'.w.heap (.stk k) ok tk) →
      ∀ t M, t ≠ Ptr.stk i → t ≠ .stk j → Alive x.w t → Contents x.w t M → Contents x'.w t M := by
    intro x' h t M h1 h2 h3 h4
    obtain ⟨k, ok, tk, rfl, _, hk, -⟩ := hI.tree h3
    obtain rfl := (contents_iff hk).1 h4
    exact (contents_iff (h k ok tk h1 h2 hk)).2 rfl
  obtain ⟨r, x1, h1, hh1, h2, h3⟩ := hh.step' (c := .assign prop (.stk i) (.stk j)) ⟨had, has⟩ (by intro s o t e; cases e)
  have hc1 : x1.cmp = put x.cmp (.stk i) (x.cmp (.stk j)) := h3
  have hframe : ∀ k ok tk, Ptr.stk k ≠ .stk i → Ptr.stk k ≠ .stk j → Tree x.w.heap (.stk k) ok tk → Tree x1.w.heap (.stk k) ok tk :=
    fun k ok tk g1 g2 g3 => h2.frame hI.ready g3 (by rintro (e | e); exact g1 e; exact g2 e)
  generalize hw1 : x1.w = w1 at h2
  cases h2 with
  | assignSelf => exact absurd rfl hne
  | assign _ ho hu0 hv0 hu' hv' hc =>
    obtain ⟨rfl, rfl⟩ := Tree.unique (H := x.w.heap) hv hv0
    have hd1 := congrArg World.heap hw1
    rw [World.setHeap_heap] at hd1
    rw [← hd1] at hu' hv'
    refine ⟨none, x1, v.nodes, runs_seq (runs_moveAssignO h1) rfl, hh1, hc1, (contents_iff hv').2 rfl, (contents_iff hu').2 rfl,
      fun _ => ⟨rfl, rfl⟩, List.prefix_refl _, fun _ => rfl, fun _ => rfl, ?_, ?_, others hframe, ?_, ?_, ?_⟩
    · rw [hc1, put_same]; exact hP
    · intro _ _ hn
      refine absurd (ho.imp_right fun e => ?_) hn
      subst e
      exact ⟨_, ⟨_, hu0.cell, rfl⟩, ⟨_, hv.cell, rfl⟩⟩
    · rw [hw1]; exact hc.ext.env
    · rw [hw1]; rfl
    · intro Z hZ
      rw [hw1]
      rw [hd1] at hu' hv'
      exact hc.kabs hI.ready hu0 hv hu' hv' (hZ.same rfl) rfl rfl
  | assignRefused hu0 hv0 hoo =>
    obtain ⟨rfl, rfl⟩ := Tree.unique (H := x.w.heap) hu hu0
    obtain ⟨rfl, rfl⟩ := Tree.unique (H := x.w.heap) hv hv0
    have he1 : x1.w.err = none := by rw [hw1]; rfl
    have hheap : x1.w.heap = x.w.heap := by rw [hw1]; rfl
    obtain ⟨x2, c1, hh2, c2, c3, c4, c5, c6, c7, c8, c9⟩ := hh1.clear (by rw [hheap]; exact hu)
    rw [oready_of he1] at c1
    have hcd : x2.cmp (.stk i) = x.cmp (.stk j) := by rw [c2, hc1, put_same]
    have hv2 := c8 _ _ _ (Ne.symm hij) (by rw [hheap]; exact hv)
    obtain ⟨x3, u3, D, d1, hh3, d3, d4, d5, d6, d7, d8, d9, d10, d11, d12, d13⟩ := insertFrom_runs (A := []) (C := v.nodes) hh2 c3 (by rw [hcd]; exact hs) hne c4 hv2 rfl rfl
      (by rw [hcd, List.pairwise_map]; exact hP)
    obtain ⟨x4, e1, hh4, e2, e3, e4, e5, e6, e7, e8, e9⟩ := hh3.clear d5
    have hd4 := e8 _ _ _ hij d4
    have hD : u3.nodes.map Prod.snd = D := by rw [d6]; rfl
    have hc4 : x4.cmp = put x.cmp (.stk i) (x.cmp (.stk j)) := by rw [e2, d3, c2, hc1]
    refine ⟨x3.w.err, x4, u3.nodes, ?_, hh4, hc4, (contents_iff e4).2 rfl, (contents_iff hd4).2 rfl, ?_, hD ▸ d7, fun h => hD ▸ d8 h, ?_, ?_, ?_, ?_, ?_, e3, ?_⟩
    · refine runs_seq (runs_moveAssignO h1) ?_
      refine runs_seq c1 ?_
      refine runs_seq (a := x2.cmp (.stk i)) (s1 := x2) rfl ?_
      refine runs_seq (a := ()) (s1 := x3) ?_ ?_
      · have e : x3 = ⟨x3.w, x2.cmp⟩ := by rw [← d3]
        rw [e]
        refine runs_lift.2 (runs_seq (a := firstP (.stk j) v.nodes) (s1 := x2.w) ?_ (runs_lift_inv d1).1)
        obtain ⟨a2, w2, g1, rfl, rfl⟩ := wp.runs (m := begin_ (.stk j)) (s := x2.w) (Q := fun a2 w2 => a2 = firstP (.stk j) v.nodes ∧ w2 = x2.w) (by
          unfold begin_
          rw [wp_bind, wp_rd hv2.cell hv2.hdr_ne]
          exact ⟨rfl, rfl⟩)
        exact g1
      · refine runs_seq (a := x3.w.err) (s1 := oready x3) rfl ?_
        exact runs_seq e1 rfl
    · rintro (h | ⟨a, ⟨n, n1, n2⟩, ⟨m, m1, m2⟩⟩)
      · cases h
      · rw [hu.cell] at n1
        rw [hv.cell] at m1
        cases n1; cases m1
        exact absurd (n2.trans m2.symm) hoo
    · intro hg
      refine d9 (c5 ?_)
      rw [hw1]
      exact ⟨hg.some, hg.inj, hg.ctor, hg.past⟩
    · rw [hc4, put_same]
      rw [← List.pairwise_map (f := Prod.snd) (R := fun a b => x.cmp (.stk j) a b = true)] at hP ⊢
      rw [hD]
      exact hP.sublist d7.sublist
    · intro hm hn _
      obtain ⟨g1, g2⟩ := d10 hn (.inl fun a ha => by
        rw [c6, hw1] at ha
        change x.w.env.addr _ = _ at ha
        rw [hm _ (Nat.le_trans (by rw [hw1]; exact Nat.le_refl _) c7)] at ha
        cases ha)
      refine ⟨g2, ?_⟩
      rw [g1] at hD
      simpa using hD
    · refine others fun k ok tk g1 g2 g3 => ?_
      have q1 : k ≠ i := fun e => g1 (by rw [e])
      have q2 : k ≠ j := fun e => g2 (by rw [e])
      exact e8 _ _ _ q2 (d11 _ _ _ g1 g2 (c8 _ _ _ q1 (by rw [hheap]; exact g3)))
    · rw [e6, d12, c6, hw1]; rfl
    · intro Z hZ
      have := e9 _ (d13 _ (c9 _ (hZ.same hheap)))
      rwa [put_put] at this


/-- C111: move assignment between two sets.  If the allocator propagates or the allocators are equal, the target takes over the
elements of the source (the same nodes).  Otherwise the elements of the source are inserted into the target, in their order: the
target then holds equal keys if memory suffices, and the first ones of them if not.  In all cases the source is empty, the former
elements of the target are gone, the target has the comparator of the source and its elements are in the order of it, and all
other objects keep their elements and their comparator; every block belongs to one object (`any_order_no_leak`).
Missing: if memory does not suffice, elements are lost, and nobody is told (`set_assign_loses_elements`). -/
theorem set_assign_partial {prop : Bool} {L : List (Ptr × K)} (hr : LReach dflt x) (had : Alive x.w d) (has : Alive x.w s) (hne : d ≠ s)
    (hs : SWO (x.cmp s)) (hL : Contents x.w s L) (hP : L.Pairwise fun a b => x.cmp s a.2 b.2 = true) :
    ∃ e x' L', Runs (setAssign prop d s) (oready x) e x' ∧ LReach dflt x' ∧ x'.cmp = put x.cmp d (x.cmp s) ∧ Contents x'.w s [] ∧
      Contents x'.w d L' ∧ (prop = true ∨ SameAlloc x.w d s → e = none ∧ L' = L) ∧ L'.map Prod.snd <+: L.map Prod.snd ∧
      (e = none → L'.map Prod.snd = L.map Prod.snd) ∧ (Good x.w → e = none) ∧
      (L'.Pairwise fun a b => x'.cmp d a.2 b.2 = true) ∧
      ∀ t M, t ≠ d → t ≠ s → Alive x.w t → Contents x.w t M → Contents x'.w t M := by
  obtain ⟨env, hh⟩ := hr
  obtain ⟨e, x', L', h1, h2, h3, h4, h5, h6, h7, h8, h9, h10, -, h11, -⟩ := setAssign_runs (prop := prop) hh had has hne hs hL hP
  exact ⟨e, x', L', h1, ⟨env, h2⟩, h3, h4, h5, h6, h7, h8, h9, h10, h11⟩

-- e.g. object 0 holds 1, 2, 3 in the usual order, object 1 has the reverse order and another allocator
example : ∃ x L, LReach natLt x ∧ Alive x.w (.stk 1) ∧ Alive x.w (.stk 0) ∧ SWO (x.cmp (.stk 0)) ∧ x.cmp (.stk 1) = natGt ∧
    Contents x.w (.stk 0) L ∧ (L.Pairwise fun a b => x.cmp (.stk 0) a.2 b.2 = true) ∧ L.map Prod.snd = [1, 2, 3] ∧
    ¬ SameAlloc x.w (.stk 1) (.stk 0) := by
  obtain ⟨h, x, L, h1, _, h2, h3, h4, h5, ⟨n7, h6, e7⟩, ⟨n8, h7, e8⟩, h8, h9, _⟩ := odemo
  refine ⟨x, L, ⟨_, h1.toL⟩, h3, h2, by rw [h4]; exact natLt_swo, h5, h8, ?_, h9, ?_⟩
  · rw [h4, ← List.pairwise_map (f := Prod.snd) (R := fun a b => natLt a b = true), h9]
    simp [natLt]
  · rintro ⟨a, ⟨n, g1, g2⟩, ⟨m, g3, g4⟩⟩
    rw [h7] at g1; rw [h6] at g3
    cases g1; cases g3
    omega

/-- C111, violation: if the allocators differ and do not propagate, and memory is exhausted, then after the move assignment both
sets are empty: all elements of the source and of the target are lost.  The operator reports no error. -/
theorem set_assign_loses_elements {L : List (Ptr × K)} (hr : LReach dflt x) (had : Alive x.w d) (has : Alive x.w s)
    (hne : ¬ SameAlloc x.w d s) (hs : SWO (x.cmp s)) (hL : Contents x.w s L) (hP : L.Pairwise fun a b => x.cmp s a.2 b.2 = true)
    (hl : L ≠ []) (hm : ∀ n, x.w.nAlloc ≤ n → x.w.env.addr n = none) :
    ∃ e x', Runs (setAssign false d s) (oready x) e x' ∧ Contents x'.w s [] ∧ Contents x'.w d [] := by
  have hds : d ≠ s := by
    rintro rfl
    obtain ⟨i, o, u, rfl, _, hu, -⟩ := hr.mem.tree had
    exact hne ⟨_, ⟨_, hu.cell, rfl⟩, ⟨_, hu.cell, rfl⟩⟩
  obtain ⟨env, hh⟩ := hr
  obtain ⟨e, x', L', h1, _, _, h4, h5, _, _, _, _, _, h10, _⟩ := setAssign_runs (prop := false) hh had has hds hs hL hP
  rw [(h10 hm hl (by simpa using hne)).2] at h5
  exact ⟨e, x', h1, h4, h5⟩

/-- Memory for one element. -/
def tinyEnv : Env (TNode Nat) := { goodEnv with addr := fun k => if k = 0 then some 0 else none }

/-- Object 0 holds the key 1, object 1 is empty and has another allocator; there is no more memory. -/
theorem tiny_demo : ∃ x L, LReach natLt x ∧ Alive x.w (.stk 1) ∧ Alive x.w (.stk 0) ∧ ¬ SameAlloc x.w (.stk 1) (.stk 0) ∧
    x.cmp (.stk 0) = natLt ∧ Contents x.w (.stk 0) L ∧ L.map Prod.snd = [1] ∧ ∀ n, x.w.nAlloc ≤ n → x.w.env.addr n = none := by
  have h0 : LHist natLt tinyEnv _ := .start
  obtain ⟨r1, x1, hr1, h1, he1, hc1⟩ := h0.step' (c := .multi (.base (.create 7))) trivial (by intro s o t e; cases e)
  cases he1 with
  | multi he1 =>
    cases he1 with
    | base he1 _ =>
      cases he1 with
      | create cr1 e1 =>
        have t1 : Tree x1.w.heap (.stk 0) 7 .nil := cr1.tree
        have c1 : x1.cmp (.stk 0) = natLt := by
          rw [show x1.cmp = put _ _ natLt from hc1]; exact put_same _ _ _
        have hv : LValid natLt x1 (.on (.multi (.base (.insert (.stk 0) 1)))) := ⟨0, rfl, t1.ne_none⟩
        obtain ⟨r2, x2, hr2, h2, he2, hc2⟩ := h1.step hv e1 (by
          rintro _ o t ⟨⟩ ht _
          rw [(Tree.unique ht t1).2]; simp [T.nodes, WSorted])
        have hc2 : x2.cmp = x1.cmp := hc2
        have henv1 : x1.w.env = tinyEnv := cr1.env
        have hn1 : x1.w.nAlloc = 0 := cr1.nAlloc
        cases he2 with
        | multi he2 =>
          cases he2 with
          | base he2 _ =>
            cases he2 with
            | insertOld ht hn =>
              have e := (Tree.unique ht t1).2
              subst e
              simp [T.nodes] at hn
            | insertFail _ _ _ _ _ _ hrf =>
              rcases hrf with hrf | hrf
              · rw [hn1, henv1] at hrf
                have := hrf 0 rfl
                obtain ⟨k, g4, -⟩ := h1.mem.past 0 this
                omega
              · rw [henv1] at hrf; cases hrf
            | @insertNew _ _ _ o t t' A B a ht ht' hn hn' _ hch hfr e2 _ _ =>
              obtain ⟨eo, et⟩ := Tree.unique ht t1
              subst eo et
              obtain ⟨r3, x3, hr3, h3, he3, hc3⟩ := h2.step (c := .multi (.base (.create 8))) trivial e2 (by intro s o t e; cases e)
              cases he3 with
              | multi he3 =>
                cases he3 with
                | base he3 _ =>
                  cases he3 with
                  | create cr3 e3 =>
                    have hsp : x2.w.sp = 1 := by rw [hch.ext.sp, cr1.sp]; rfl
                    have t3 : Tree x3.w.heap (.stk 1) 8 .nil := by have := cr3.tree; rwa [hsp] at this
                    have u3 : Tree x3.w.heap (.stk 0) _ t' := cr3.other h2.mem ht'
                    have henv3 : x3.w.env = tinyEnv := by rw [cr3.env, hch.ext.env, henv1]
                    have hC : x3.cmp = put x2.cmp (.stk 1) natLt := by
                      have : x3.cmp = put x2.cmp (.stk x2.w.sp) natLt := hc3
                      rwa [hsp] at this
                    obtain ⟨k, b, _, _, hk, _⟩ := hfr.req
                    refine ⟨x3, t'.nodes, ⟨_, h3⟩, ⟨1, rfl, t3.ne_none⟩, ⟨0, rfl, u3.ne_none⟩, ?_, ?_, (contents_iff u3).2 rfl, ?_, ?_⟩
                    · rintro ⟨a, ⟨n, g1, g2⟩, ⟨m, g3, g4⟩⟩
                      rw [t3.cell] at g1; rw [u3.cell] at g3
                      cases g1; cases g3
                      cases g2.trans g4.symm
                    · rw [hC, put_other _ _ (by simp), hc2, c1]
                    · simp only [T.nodes] at hn
                      obtain ⟨rfl, rfl⟩ := List.append_eq_nil_iff.1 hn.symm
                      rw [hn']; rfl
                    · intro n hn
                      rw [henv3]
                      have : x3.w.nAlloc = x2.w.nAlloc := cr3.nAlloc
                      have : n ≠ 0 := by omega
                      simp [tinyEnv, this]

example : ∃ x L, LReach natLt x ∧ Alive x.w (.stk 1) ∧ Alive x.w (.stk 0) ∧ ¬ SameAlloc x.w (.stk 1) (.stk 0) ∧ SWO (x.cmp (.stk 0)) ∧
    Contents x.w (.stk 0) L ∧ (L.Pairwise fun a b => x.cmp (.stk 0) a.2 b.2 = true) ∧ L ≠ [] ∧
    ∀ n, x.w.nAlloc ≤ n → x.w.env.addr n = none := by
  obtain ⟨x, L, h1, h2, h3, h4, h5, h6, h7, h8⟩ := tiny_demo
  match L, h7, h6 with
  | [(p, k)], h7, h6 => exact ⟨x, [(p, k)], h1, h2, h3, h4, by rw [h5]; exact natLt_swo, h6, by simp, by simp, h8⟩

/-- C111: move assignment of a set to itself empties it. -/
theorem set_assign_self {prop : Bool} (hr : LReach dflt x) (ha : Alive x.w s) :
    ∃ x', Runs (setAssign prop s s) (oready x) none x' ∧ LReach dflt x' ∧ Contents x'.w s [] := by
  obtain ⟨env, hh⟩ := hr
  obtain ⟨i, o, u, rfl, _, hu, -⟩ := hh.mem.tree ha
  obtain ⟨r, x1, h1, hh1, h2, _⟩ := hh.step' (c := .assign prop (.stk i) (.stk i)) ⟨ha, ha⟩ (by intro s o t e; cases e)
  generalize hw1 : x1.w = w1 at h2
  cases h2 with
  | assignSelf _ hu' _ =>
    have hd1 := congrArg World.heap hw1
    rw [World.setHeap_heap] at hd1
    rw [← hd1] at hu'
    exact ⟨x1, runs_seq (runs_moveAssignO h1) rfl, ⟨env, hh1⟩, (contents_iff hu').2 rfl⟩
  | assign hne => exact absurd rfl hne
  | assignRefused hu0 hv0 hoo => exact absurd (Tree.unique hu0 hv0).1 hoo

example : ∃ x, LReach natLt x ∧ Alive x.w (.stk 0) := by
  obtain ⟨h, x, L, h1, _, h2, _⟩ := odemo
  exact ⟨x, ⟨_, h1.toL⟩, h2⟩

end
end Nestl.Own
