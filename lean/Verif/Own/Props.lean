import Verif.Own.Steps
import Verif.Set.PropLemmas
set_option autoImplicit false
/-
Property theorems of trees with a comparator each (C92).  The vocabulary is defined in `Verif/Own/Client.lean`,
`Verif/Full/Client.lean` and `Verif/Full/Query.lean`.
-/
namespace Nestl.Own
open Nestl.RB Nestl.Set Nestl.Multi Nestl.Full
variable {K : Type} {dflt : Less K} {x : OW K} {s d : Ptr}

/-! ### A concrete state: two objects with opposite orders -/

section demo

theorem good_step {S : Prop} {lt : Less K} {w w' : W K} {c : FCall K} {r : FRes K} (h : FEffectS S lt w c r w') (hI : InvP (fun _ => True) w)
    (hg : Good w) (he : w.err = none) : w'.err = none ∧ Good w' := by
  have hI' := structural h hI
  have key : w'.env = w.env → Good w' := fun e =>
    ⟨by rw [e]; exact hg.some, by rw [e]; exact hg.inj, by rw [e]; exact hg.ctor, by rw [e]; exact e ▸ hI'.past⟩
  cases h with
  | multi h =>
    cases h with
    | fail _ hr => exact absurd hr hg.not_refused
    | new _ _ _ _ _ hc _ he => exact ⟨he, key hc.ext.env⟩
    | base h _ =>
      cases h with
      | create hc he => exact ⟨he, key hc.env⟩
      | insertOld _ _ _ _ _ he herr => exact ⟨herr, key he.env⟩
      | insertFail _ _ _ _ _ _ hr => exact absurd hr hg.not_refused
      | insertNew _ _ _ _ _ hc _ he => exact ⟨he, key hc.ext.env⟩
      | eraseKey _ _ _ _ _ hc he => exact ⟨he, key hc.ext.env⟩
      | eraseAt _ _ _ _ hc he => exact ⟨he, key hc.ext.env⟩
      | eraseRange _ _ _ _ hc he => exact ⟨he, key hc.ext.env⟩
      | clear _ _ hc he => exact ⟨he, key hc.ext.env⟩
      | findNone _ _ _ _ _ he herr => exact ⟨herr, key he.env⟩
      | findSome _ _ _ _ _ he herr => exact ⟨herr, key he.env⟩
      | copySelf he herr => subst he; exact ⟨herr, hg⟩
      | copyFail _ _ _ _ _ _ hn => exact absurd hg hn
      | copyOk _ _ _ _ _ hc he => exact ⟨he, key hc.ext.env⟩
      | move _ hc he => exact ⟨he, key hc.env⟩
      | destroy _ hc he => exact ⟨he, key hc.ext.env⟩
  | swapSelf => exact ⟨he, hg⟩
  | swap _ _ _ _ _ hc => exact ⟨he, key hc.ext.env⟩
  | assign _ _ _ _ _ _ hc => exact ⟨he, key hc.ext.env⟩
  | assignSelf _ _ hc => exact ⟨he, key hc.ext.env⟩
  | assignRefused => exact ⟨he, hg⟩
  | eraseKeys _ _ hc _ _ he => exact ⟨he, key hc.ext.env⟩
  | uniqueOld _ _ _ _ _ he herr => exact ⟨herr, key he.env⟩
  | uniqueFail _ _ _ _ hr => exact absurd hr hg.not_refused
  | uniqueNew _ _ _ _ _ hc _ he => exact ⟨he, key hc.ext.env⟩

/-- The reverse order on numbers. -/
def natGt (a b : Nat) : Bool := decide (b < a)

theorem natGt_swo : SWO natGt :=
  ⟨by simp [natGt], by simp only [natGt, decide_eq_true_eq]; omega, by simp only [natGt, decide_eq_true_eq]; omega⟩

/-- Inserts a key into the only object. -/
theorem demo_insert {h : List (OEntry Nat)} {x : OW Nat} {o : Nat} {t : T Nat} (hh : OHist natLt goodEnv h x) (hg : Good x.w)
    (ht : Tree x.w.heap (.stk 0) o t) (k : Nat) : ∃ r x' t', OHist natLt goodEnv
      (⟨.on (.multi (.equal .upper (.stk 0) k)), x.cmp (.stk 0), r, false⟩ :: h) x' ∧ Good x'.w ∧ Tree x'.w.heap (.stk 0) o t' ∧
      x'.cmp = x.cmp ∧ x'.w.sp = x.w.sp ∧ ∃ r', r = .multi r' := by
  have hI := hh.inv natLt_swo
  have hv : OValid natLt x (.on (.multi (.equal .upper (.stk 0) k))) := ⟨⟨0, rfl, ht.ne_none⟩, trivial⟩
  obtain ⟨r, x', hr, he, hc, -⟩ := wp.runs (hI.call natLt_swo hv)
  obtain ⟨e, g⟩ := good_step he hI.mem.ready ⟨hg.some, hg.inj, hg.ctor, hg.past⟩ rfl
  have := OHist.call hh hv hr
  rw [e] at this
  cases he with
  | multi he =>
    cases he with
    | fail _ _ _ _ h => rw [e] at h; cases h
    | new h1 h2 _ _ _ h3 =>
      obtain ⟨rfl, -⟩ := Tree.unique h1 ht
      exact ⟨_, x', _, this, g, h2, hc, h3.ext.sp, _, rfl⟩

/-- Object 0 holds 1, 2, 3 in the usual order, object 1 holds nothing yet and has the reverse order; the two objects have
different allocators. -/
theorem odemo : ∃ h x L, OHist natLt goodEnv h x ∧ Good x.w ∧ Alive x.w (.stk 0) ∧ Alive x.w (.stk 1) ∧ x.cmp (.stk 0) = natLt ∧
    x.cmp (.stk 1) = natGt ∧ UsesAlloc x.w (.stk 0) 7 ∧ UsesAlloc x.w (.stk 1) 8 ∧ Contents x.w (.stk 0) L ∧
    L.map Prod.snd = [1, 2, 3] ∧ ownRun h (.stk 0) = [1, 2, 3] ∧ x.w.sp = 2 := by
  have h0 : OHist natLt goodEnv [] _ := .start
  have hI0 := h0.inv natLt_swo
  obtain ⟨r1, x1, hr1, he1, hc1, -⟩ := wp.runs (hI0.create (a := 7) natLt_swo natLt_swo)
  obtain ⟨e1, g1⟩ := good_step he1 hI0.mem.ready good_start rfl
  have h1 := OHist.create h0 natLt_swo hr1
  rw [e1] at h1
  obtain ⟨n1, hn1, t1, sp1⟩ : ∃ n, r1 = .multi ⟨.obj (.stk 0), n⟩ ∧ Tree x1.w.heap (.stk 0) 7 .nil ∧ x1.w.sp = 1 := by
    cases he1 with
    | multi he =>
      cases he with
      | base he _ =>
        cases he with
        | create hc _ => exact ⟨_, rfl, hc.tree, hc.sp⟩
  subst hn1
  have c1 : x1.cmp (.stk 0) = natLt := by
    rw [show x1.cmp = put _ (.stk 0) natLt from hc1, put_same]
  obtain ⟨r2, x2, t2, h2, g2, tr2, c2, sp2, r2', e2⟩ := demo_insert h1 g1 t1 2
  obtain ⟨r3, x3, t3, h3, g3, tr3, c3, sp3, r3', e3⟩ := demo_insert h2 g2 tr2 3
  obtain ⟨r4, x4, t4, h4, g4, tr4, c4, sp4, r4', e4⟩ := demo_insert h3 g3 tr3 1
  subst e2 e3 e4
  rw [c3, c2, c1] at h4
  have hI4 := h4.inv natLt_swo
  obtain ⟨r5, x5, hr5, he5, hc5, -⟩ := wp.runs (hI4.create (dflt := natLt) (a := 8) natLt_swo natGt_swo)
  obtain ⟨e5, g5⟩ := good_step he5 hI4.mem.ready ⟨g4.some, g4.inj, g4.ctor, g4.past⟩ rfl
  have h5 := OHist.create h4 natGt_swo hr5
  rw [e5] at h5
  have sp : (Set.ready x4.w).sp = 1 := by rw [show (Set.ready x4.w).sp = x4.w.sp from rfl, sp4, sp3, sp2, sp1]
  obtain ⟨n5, hn5, t5, u5, sp5⟩ : ∃ n, r5 = .multi ⟨.obj (.stk 1), n⟩ ∧ Tree x5.w.heap (.stk 1) 8 .nil ∧
      Tree x5.w.heap (.stk 0) 7 t4 ∧ x5.w.sp = 2 := by
    cases he5 with
    | multi he =>
      cases he with
      | base he _ =>
        cases he with
        | create hc _ =>
          have t := hc.tree
          have q := hc.sp
          rw [sp] at t q
          exact ⟨_, by rw [sp], t, hc.other hI4.mem.ready tr4, q⟩
  subst hn5
  have hC : x5.cmp = put x4.cmp (.stk 1) natGt := hc5
  have run := h5.kabs natLt_swo _ _ _ u5
  refine ⟨_, x5, t4.nodes, h5, g5, ⟨0, rfl, u5.ne_none⟩, ⟨1, rfl, t5.ne_none⟩, ?_, ?_, ⟨_, u5.cell, rfl⟩, ⟨_, t5.cell, rfl⟩,
    (contents_iff u5).2 rfl, run.trans ?_, ?_, sp5⟩
  · rw [hC, put_other _ _ (by simp), c4, c3, c2, c1]
  · rw [hC, put_same]
  · simp [ownRun, OCall.plain, famStep, seqStep, put, addUpper, natLt]
  · simp [ownRun, OCall.plain, famStep, seqStep, put, addUpper, natLt]

end demo

/-! ### The properties -/

/-- C92: the objects of a program may have comparators of their own, and copies, moves, exchanges and assignments carry the
comparators along.  After any history of calls every object holds exactly the keys that the history says, where every call acts
with the comparator of its object, and they are in the order of the comparator that the object has now. -/
theorem own_history_partial {env : Env (TNode K)} {h : List (OEntry K)} (hh : OHist dflt env h x) (hd : SWO dflt) (ha : Alive x.w s) :
    ∃ L, Contents x.w s L ∧ L.map Prod.snd = ownRun h s ∧ (L.map Prod.snd).Pairwise fun a b => x.cmp s b a = false := by
  have hI := hh.inv hd
  obtain ⟨i, o, t, rfl, _, ht, -⟩ := hI.mem.tree ha
  refine ⟨t.nodes, (contents_iff ht).2 rfl, hh.kabs hd _ _ _ ht, ?_⟩
  rw [List.pairwise_map]
  exact hI.ord _ _ _ ht

example : ∃ h x, OHist natLt goodEnv h x ∧ SWO natLt ∧ Alive x.w (.stk 0) ∧ ownRun h (.stk 0) = [1, 2, 3] ∧
    x.cmp (.stk 0) = natLt ∧ x.cmp (.stk 1) = natGt := by
  obtain ⟨h, x, L, h1, _, h2, _, h3, h4, _, _, _, _, h5, _⟩ := odemo
  exact ⟨h, x, h1, natLt_swo, h2, h5, h3, h4⟩

/-- A step of the comparators leaves those of the other objects as they are. -/
theorem CmpStep.other {C C' : Ptr → Less K} {c : OCall K} {r : FRes K} {b : Bool} {S : Prop} {lt : Less K} {w w' : W K}
    (h : CmpStep dflt C c r b C') (he : FEffectS S lt w c.plain r w') (hs : ¬ FTouches c.plain s) (hn : s ≠ .stk w.sp) :
    C' s = C s := by
  unfold CmpStep at h
  split at h
  · subst h
    refine put_other _ _ ?_
    cases he with
    | multi he => cases he with
      | base he _ => cases he; exact hn
  · subst h
    refine put_other _ _ ?_
    cases he with
    | multi he => cases he with
      | base he _ => cases he; exact hn
  · rcases h with h | ⟨_, h⟩
    · subst h
      rename_i _ d t
      by_cases e : s = d
      · subst e
        by_cases e2 : s = t
        · subst e2; rw [put_same]
        · exact absurd ⟨rfl, e2⟩ hs
      · exact put_other _ _ e
    · rw [h]
  · subst h
    refine put_other _ _ ?_
    cases he with
    | multi he => cases he with
      | base he _ => cases he; exact hn
  · subst h
    have := not_or.1 hs
    rw [put_other _ _ this.2, put_other _ _ this.1]
  · subst h
    exact put_other _ _ (not_or.1 hs).1
  · rw [h]

/-- C92: every valid call on every reachable state, with any comparators, terminates without any fault and leads to a reachable
state; the comparators change as described by `CmpStep`; the objects that the call is not about keep their elements and their
comparator. -/
theorem own_call_partial {c : OCall K} (hr : OReach dflt x) (hd : SWO dflt) (hv : OValid dflt x c) :
    ∃ r x', Runs (oexec dflt c) (oready x) r x' ∧ OReach dflt x' ∧ CmpStep dflt x.cmp c r x'.w.err.isSome x'.cmp ∧
      ∀ s L, Alive x.w s → ¬ FTouches c.plain s → Contents x.w s L → Contents x'.w s L ∧ x'.cmp s = x.cmp s := by
  have hI := hr.inv hd
  obtain ⟨env, h, hh⟩ := hr
  have key : ∀ {lt : Less K} {r : FRes K} {x' : OW K}, FEffect lt (ready x.w) c.plain r x'.w → CmpStep dflt x.cmp c r x'.w.err.isSome x'.cmp →
      ∀ s L, Alive x.w s → ¬ FTouches c.plain s → Contents x.w s L → Contents x'.w s L ∧ x'.cmp s = x.cmp s := by
    intro lt r x' he hc s L ha hs hL
    obtain ⟨i, o, t, rfl, hsp, ht, -⟩ := hI.mem.tree ha
    obtain rfl := (contents_iff ht).1 hL
    refine ⟨(contents_iff (he.frame hI.mem.ready (by exact ht) hs)).2 rfl, hc.other he hs ?_⟩
    intro e
    cases e
    exact Nat.lt_irrefl _ hsp
  cases c with
  | create comp a =>
    obtain ⟨r, x', h1, h2, h3, -⟩ := wp.runs (hI.create (a := a) hd hv)
    exact ⟨r, x', h1, ⟨env, _, .create hh hv h1⟩, h3, key h2 h3⟩
  | on c =>
    obtain ⟨r, x', h1, h2, h3, -⟩ := wp.runs (hI.call hd hv)
    exact ⟨r, x', h1, ⟨env, _, .call hh hv h1⟩, h3, key h2 h3⟩

-- e.g. the exchange of two objects with opposite orders (and allocators that are exchanged), and a copy
example : ∃ x, OReach natLt x ∧ SWO natLt ∧ OValid natLt x (.on (.swap true (.stk 0) (.stk 1))) ∧
    OValid natLt x (.on (.multi (.base (.copy false (.stk 1) (.stk 0))))) ∧ x.cmp (.stk 0) ≠ x.cmp (.stk 1) := by
  obtain ⟨h, x, L, h1, _, h2, h3, h4, h5, _⟩ := odemo
  refine ⟨x, ⟨_, _, h1⟩, natLt_swo, ⟨⟨h2, h3, .inl rfl⟩, trivial⟩, ⟨⟨h3, h2⟩, trivial⟩, ?_⟩
  rw [h4, h5]
  intro e
  have := congrFun (congrFun e 0) 1
  simp [natLt, natGt] at this

/-- C92: a query uses the comparator of its object: in every reachable state it terminates without any fault, writes nothing, and
its answer is right for that comparator; it reads nothing but the object, its comparator and its elements. -/
theorem own_query {q : Query K} {L M : List (Ptr × K)} (hr : OReach dflt x) (hd : SWO dflt) (hv : QValid x.w q)
    (hL : Contents x.w q.objects.1 L) (hM : Contents x.w q.objects.2 M) :
    ∃ r c, Right (x.cmp q.objects.1) L M q r ∧ c ≤ 4 * Nat.log2 (L.length + 1) + 1 ∧
      ∀ x2 : OW K, x2.cmp q.objects.1 = x.cmp q.objects.1 → (∀ p, OwnCell x.w q p → x2.w.heap p = x.w.heap p) →
        Runs (oask q) x2 r ⟨x2.w.addCmp c, x2.cmp⟩ := by
  have hI := hr.inv hd
  obtain ⟨r, c, h1, h2, h3⟩ := query_in (lt := x.cmp q.objects.1) hI.mem (by
    rintro _ o t ⟨⟩ ht _
    exact hI.ord _ _ _ ht) hv hL hM
  refine ⟨r, c, h1 (hI.swo _), h2, fun x2 hc hp => ?_⟩
  have := h3 x2.w hp
  rw [← hc] at this
  unfold oask Runs
  show lift (ask (x2.cmp q.objects.1) q) x2 = _
  unfold lift
  rw [this]

example : ∃ x L, OReach natLt x ∧ QValid x.w (.find (.stk 0) 2) ∧ Contents x.w (.stk 0) L ∧ L.map Prod.snd = [1, 2, 3] := by
  obtain ⟨h, x, L, h1, _, h2, h3, _, _, _, _, h4, h5, _⟩ := odemo
  exact ⟨x, L, ⟨_, _, h1⟩, ⟨h2, h2, trivial⟩, h4, h5⟩

/-- C92: nothing is ever leaked: every allocated block is a node of exactly one live object. -/
theorem own_no_leak {a : Nat} (hr : OReach dflt x) (hd : SWO dflt) (hm : x.w.heap (.dyn a) ≠ none) :
    ∃ s L k, Alive x.w s ∧ Contents x.w s L ∧ (.dyn a, k) ∈ L ∧
      ∀ s' L' k', Alive x.w s' → Contents x.w s' L' → (.dyn a, k') ∈ L' → s' = s := by
  have hI := (hr.inv hd).mem
  obtain ⟨i, o, t, ht, hin⟩ := hI.cover a hm
  obtain ⟨k, hk⟩ := mem_ptrs_iff.1 hin
  refine ⟨.stk i, t.nodes, k, ⟨i, rfl, ht.ne_none⟩, (contents_iff ht).2 rfl, hk, ?_⟩
  intro s' L' k' ha hc hk'
  obtain ⟨j, o2, t2, rfl, _, ht2, -⟩ := hI.tree ha
  obtain rfl := (contents_iff ht2).1 hc
  by_cases e : j = i
  · rw [e]
  · exact absurd hin (hI.disj ht2 ht e _ (mem_ptrs_iff.2 ⟨k', hk'⟩))

example : ∃ x a, OReach natLt x ∧ SWO natLt ∧ x.w.heap (.dyn a) ≠ none := by
  obtain ⟨h, x, L, h1, _, h2, h3, _, _, _, _, h4, h5, _⟩ := odemo
  obtain ⟨i, o, t, e, _, ht, -⟩ := (h1.inv natLt_swo).mem.tree h2
  obtain rfl := (contents_iff ht).1 h4
  cases t with
  | nil => simp [T.nodes] at h5
  | node p c l k r =>
    have hm : p ∈ (T.node p c l k r).ptrs := by simp [T.ptrs, T.nodes]
    obtain ⟨a, rfl⟩ := ht.ok.dyn p hm
    obtain ⟨n, hn, _⟩ := Rep_alloc ht.rep _ hm
    exact ⟨x, a, ⟨_, _, h1⟩, natLt_swo, by rw [hn]; simp⟩

/-! ### Violation: a refused move assignment -/

/-- If no element is before `k`, then `lower_bound(k)` ends at the first element. -/
theorem wp_lowerBound_first {lt : Less K} {k : K} {t : T K} {w : W K} {o : Nat} {y pr : Ptr} {Q : Ptr → W K → Prop} (h : Rep w.heap o pr t)
    (h0 : Ptr.null ∉ t.ptrs) (hk : ∀ a ∈ t.nodes, lt a.2 k = false) (hQ : ∀ n, Q (firstP y t.nodes) (w.addCmp n)) :
    wp (lowerBound lt k t.ptr y) w Q := by
  induction t generalizing w y pr with
  | nil =>
    rw [lowerBound]
    simpa [T.ptr, T.nodes] using hQ 0
  | node p c l k' r ihl ihr =>
    obtain ⟨hc, hrl, hrr⟩ := h
    rw [ptrs_mk_L, mem_ptrs_mk] at h0
    have hpn : p ≠ .null := fun e => h0 (Or.inl e.symm)
    rw [lowerBound]
    simp only [T.ptr, ne_eq, hpn, not_false_eq_true, if_true, wp_bind]
    rw [wp_keyOf hc hpn (cellS_val ..), wp_cmp, hk (p, k') (by simp [T.nodes])]
    simp only [Bool.not_false, if_true, wp_bind]
    rw [wp_rd (by exact hc) hpn]
    refine ihl (w := w.addCmp 1) (by exact hrl) (fun hh => h0 (Or.inr (Or.inl hh))) (fun a ha => hk a (by simp [T.nodes, ha])) ?_
    intro n
    rw [World.addCmp_addCmp]
    have := hQ (1 + n)
    simp only [T.nodes, firstP_append, firstP_cons] at this
    exact this

/-- C92, violation: `m_move_assign` assigns the comparator first, even if it then refuses to move the elements because the
allocators differ.  The destination keeps its elements, in the order of its old comparator, but from then on uses the comparator
of the source: if that one puts the last element before all others (e.g. the reverse order), `find` reports that the last element
is not there although it is. -/
theorem refused_move_assign_breaks_order {A : List (Ptr × K)} {p : Ptr} {k : K} (hr : OReach dflt x) (hd : SWO dflt)
    (had : Alive x.w d) (has : Alive x.w s) (hne : ¬ SameAlloc x.w d s) (hL : Contents x.w d (A ++ [(p, k)])) (hA : A ≠ [])
    (hk : ∀ a ∈ A, x.cmp s k a.2 = true) :
    ∃ x', Runs (oexec dflt (.on (.assign false d s))) (oready x) (.ok false) x' ∧ x'.cmp d = x.cmp s ∧
      Contents x'.w d (A ++ [(p, k)]) ∧ ∃ n, Runs (oask (.find d k)) x' (.pos d) ⟨x'.w.addCmp n, x'.cmp⟩ := by
  have hI := hr.inv hd
  obtain ⟨i, o, t, rfl, _, ht, -⟩ := hI.mem.tree had
  have hn := (contents_iff ht).1 hL
  have hR := hI.ready
  obtain ⟨r, x', h1, h2, h3⟩ := wp.runs (osim (x := oready x) (c := .assign false (.stk i) s) (dflt := dflt)
    (fexec_effect_in hR.mem hR.weakIn (show FValid _ (oready x).w (.assign false (.stk i) s) from ⟨had, has⟩) rfl))
  have hC : x'.cmp = put x.cmp (.stk i) (x.cmp s) := h3
  have key : r = .ok false ∧ x'.w = ready x.w := by
    generalize hw : x'.w = w' at h2
    cases h2 with
    | assign _ ho hu hv =>
      rcases ho with ho | rfl
      · cases ho
      · exact absurd ⟨_, ⟨_, hu.cell, rfl⟩, ⟨_, hv.cell, rfl⟩⟩ hne
    | assignSelf hu => exact absurd ⟨_, ⟨_, hu.cell, rfl⟩, ⟨_, hu.cell, rfl⟩⟩ hne
    | assignRefused => exact ⟨rfl, rfl⟩
  obtain ⟨rfl, hw⟩ := key
  have hcd : x'.cmp (.stk i) = x.cmp s := by rw [hC, put_same]
  have ht' : Tree x'.w.heap (.stk i) o t := by rw [hw]; exact ht
  refine ⟨x', h1, hcd, by rw [hn]; exact (contents_iff ht').2 rfl, ?_⟩
  have hs := hI.swo s
  have hfalse : ∀ a ∈ t.nodes, x.cmp s a.2 k = false := by
    intro a ha
    rw [← hn, List.mem_append, List.mem_singleton] at ha
    rcases ha with ha | rfl
    · exact hs.asymm (hk a ha)
    · exact hs.irrefl _
  have hfind : wp (find (x.cmp s) (.stk i) k) x'.w fun r w' => r = .stk i ∧ ∃ n, w' = x'.w.addCmp n := by
    unfold find
    rw [wp_bind, wp_rd ht'.cell ht'.hdr_ne, wp_bind]
    refine wp_lowerBound_first ht'.rep ht'.null_notMem hfalse ?_
    intro n
    cases A with
    | nil => exact absurd rfl hA
    | cons b A =>
      have hnodes : t.nodes = [] ++ b :: (A ++ [(p, k)]) := by rw [← hn]; simp
      have hne : b.1 ≠ .stk i := ht'.node_ne_hdr (by simp [T.ptrs, hnodes])
      rw [hnodes]
      simp only [List.nil_append, firstP_cons, hne, if_false, wp_bind]
      rw [wp_keyOf_mem (w := x'.w.addCmp n) (k' := b.2) (by exact ht') hnodes, wp_cmp, hk b (by simp)]
      simp only [if_true, wp_pure, World.addCmp_addCmp]
      exact ⟨trivial, _, rfl⟩
  obtain ⟨q, w', g1, rfl, n, rfl⟩ := wp.runs hfind
  refine ⟨n, ?_⟩
  rw [← hcd] at g1
  unfold oask Runs
  show lift (ask (x'.cmp (.stk i)) (.find (.stk i) k)) x' = _
  unfold lift
  have : Runs (ask (x'.cmp (.stk i)) (.find (.stk i) k)) x'.w (.pos (.stk i)) (x'.w.addCmp n) := runs_seq g1 rfl
  rw [this]

example : ∃ x A p k, OReach natLt x ∧ SWO natLt ∧ Alive x.w (.stk 0) ∧ Alive x.w (.stk 1) ∧ ¬ SameAlloc x.w (.stk 0) (.stk 1) ∧
    Contents x.w (.stk 0) (A ++ [(p, k)]) ∧ A ≠ [] ∧ ∀ a ∈ A, x.cmp (.stk 1) k a.2 = true := by
  obtain ⟨h, x, L, h1, _, h2, h3, h4, h5, ⟨n7, h6, e7⟩, ⟨n8, h7, e8⟩, h8, h9, _⟩ := odemo
  match L, h9, h8 with
  | [(p1, k1), (p2, k2), (p3, k3)], h9, h8 =>
    simp at h9
    obtain ⟨rfl, rfl, rfl⟩ := h9
    refine ⟨x, [(p1, 1), (p2, 2)], p3, 3, ⟨_, _, h1⟩, natLt_swo, h2, h3, ?_, h8, by simp, ?_⟩
    · rintro ⟨a, ⟨n, g1, g2⟩, ⟨m, g3, g4⟩⟩
      rw [h6] at g1; rw [h7] at g3
      cases g1; cases g3
      omega
    · rw [h5]; simp [natGt]

end Nestl.Own
