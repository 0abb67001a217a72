import Verif.SharedPtr.Props
set_option autoImplicit false
/-
Defects of `shared_ptr` and `weak_ptr` (C52-C56), and the parts of these properties that hold.
-/
namespace Nestl.SP

variable {V : Type} {w : W V} {l m : Loc} {b : Ptr}

/-! ### States with expired weak pointers -/

/-- In the demonstration, dropping `sa` destroys `a`, which `wa` and the member of `b` still refer to. -/
theorem Demo.expired : ∃ w' : W Nat, Reach w' ∧ Refers w' .wk (.var Demo.wa) Demo.a ∧ ¬ Alive w' Demo.a ∧
    Refers w' .wk (.mem Demo.b 1) Demo.a ∧ Refers w' .sh (.var Demo.sb) Demo.b ∧
    (∀ k m z, At w'.heap k m z → At Demo.d5.heap k m z ∧ m ≠ .var Demo.sa ∧ ∀ i, m ≠ .mem Demo.a i) := by
  have hv : Valid Demo.d5 (.dropShared Demo.sa) := ⟨⟨_, rfl⟩, Demo.calm_del _ (by simp)⟩
  obtain ⟨r, w', A1, h1, h2, h3, h4⟩ := destroys_exactly_doomed_partial Demo.r5 hv (by intros; simp)
  cases r with
  | some q => exact h2.elim
  | none =>
    have h2 : A1 = Hs.del (At Demo.d5.heap) (.var Demo.sa) := h2
    subst h2
    have hdoom : Doomed (Hs.del (At Demo.d5.heap) (.var Demo.sa)) Demo.a := by
      refine .intro ?_ ?_
      · rintro p z ⟨h1, h2⟩ e
        have h2 : Demo.d5.heap p = some (.var .sh z) := h2
        rcases p with _ | i | i
        · cases h2
        · rcases i with _ | _ | _ | _ | i
          · exact h1 rfl
          · cases h2; cases e
          · cases h2
          · cases h2
          · cases h2
        · rcases i with _ | _ | i <;> cases h2
      · rintro x i z ⟨-, c, o, h1, h2, h3⟩ e
        rcases Demo.blk5 h1 with rfl | rfl
        all_goals
          cases h1; cases h2
          rcases i with _ | _ | i <;> cases h3
          cases e
    have hnb : ¬ Doomed (Hs.del (At Demo.d5.heap) (.var Demo.sa)) Demo.b := by
      rintro ⟨h1, -⟩
      exact h1 Demo.sb ⟨Demo.b, Demo.b⟩ ⟨by simp, rfl⟩ rfl
    have hreach : Reach w' := .step Demo.r5 hv h1
    refine ⟨w', hreach, ?_, ?_, ?_, ?_, ?_⟩
    · refine .of_at (by simp) ((h4 _ _ _).2 ⟨⟨by simp, rfl⟩, by intro _ _ e; cases e⟩)
    · rintro ⟨v, hv⟩; exact ((h3 _ _).1 hv).2 hdoom
    · refine .of_at (by simp) ((h4 _ _ _).2 ⟨⟨by simp, _, _, rfl, rfl, rfl⟩, ?_⟩)
      intro x i e; cases e; exact hnb
    · refine .of_at (by simp) ((h4 _ _ _).2 ⟨⟨by simp, rfl⟩, by intro _ _ e; cases e⟩)
    · intro k m z hz
      obtain ⟨⟨e1, e2⟩, e3⟩ := (h4 _ _ _).1 hz
      refine ⟨e2, e1, ?_⟩
      rintro i rfl
      exact e3 _ _ rfl hdoom

/-- ... and dropping `sb` as well destroys `b`, so that `wa` is the only handle left that refers to `a`. -/
theorem Demo.sole : ∃ w' : W Nat, Reach w' ∧ Refers w' .wk (.var Demo.wa) Demo.a ∧
    (∀ k m, Refers w' k m Demo.a → m = .var Demo.wa) := by
  obtain ⟨w1, hr, hwa, -, -, hsb, hsub⟩ := Demo.expired
  have hv : Valid w1 (.dropShared Demo.sb) := by
    refine ⟨⟨_, hr.ok.refers hsb⟩, Demo.calm5 _ ?_ ⟨by simp, hr.ok.refers hwa⟩⟩
    intro x i z hz
    exact (hsub _ _ _ hz.2).1
  obtain ⟨r, w', A1, h1, h2, h3, h4⟩ := destroys_exactly_doomed_partial hr hv (by intros; simp)
  cases r with
  | some q => exact h2.elim
  | none =>
    have h2 : A1 = Hs.del (At w1.heap) (.var Demo.sb) := h2
    subst h2
    have hdoom : Doomed (Hs.del (At w1.heap) (.var Demo.sb)) Demo.b := by
      refine .intro ?_ ?_
      · rintro p z ⟨h1, h2⟩ e
        obtain ⟨h2, h5, -⟩ := hsub _ _ _ h2
        have h2 : Demo.d5.heap p = some (.var .sh z) := h2
        rcases p with _ | i | i
        · cases h2
        · rcases i with _ | _ | _ | _ | i
          · exact h5 rfl
          · exact h1 rfl
          · cases h2
          · cases h2
          · cases h2
        · rcases i with _ | _ | i <;> cases h2
      · rintro x i z ⟨-, hz⟩ e
        obtain ⟨⟨c, o, h1, h2, h3⟩, -, h5⟩ := hsub _ _ _ hz
        rcases Demo.blk5 h1 with rfl | rfl
        · exact (h5 i rfl).elim
        · cases h1; cases h2
          rcases i with _ | _ | i <;> cases h3
          cases e
    refine ⟨w', .step hr hv h1, ?_, ?_⟩
    · exact .of_at (by simp) ((h4 _ _ _).2 ⟨⟨by simp, hr.ok.refers hwa⟩, by intro _ _ e; cases e⟩)
    · rintro k m ⟨-, z, hz, e⟩
      obtain ⟨⟨e1, e2⟩, e3⟩ := (h4 _ _ _).1 hz
      obtain ⟨e2, e4, e5⟩ := hsub _ _ _ e2
      cases m with
      | mem x i =>
        have hx := e3 x i rfl
        obtain ⟨c, o, f1, -⟩ := e2
        rcases Demo.blk5 f1 with rfl | rfl
        · exact (e5 i rfl).elim
        · exact (hx hdoom).elim
      | var p =>
        have e2 : Demo.d5.heap p = some (.var k z) := e2
        rcases p with _ | i | i
        · cases e2
        · rcases i with _ | _ | _ | _ | i
          · exact (e4 rfl).elim
          · exact (e1 rfl).elim
          · cases e2
          · rfl
          · cases e2
        · rcases i with _ | _ | i <;> cases e2

/-! ### C52 -/

/-- C52 is violated: locking an expired `weak_ptr` does not return an empty pointer, but one that claims to own the
destroyed object (`get()` is its address, `use_count()` is 1); destroying that pointer destroys the object again. -/
theorem lock_expired_violated (hr : Reach w) (h : Refers w .wk l b) (hd : ¬ Alive w b) :
    ∃ p w', Runs (exec (.lock l)) (ready w) (some p) w' ∧ Refers w' .sh (.var p) b ∧ ¬ Alive w' b ∧
      Runs (get (.var p)) w' b w' ∧ Runs (useCount (.var p)) w' 1 w' ∧ Faults (exec (.dropShared p)) w' .rawRead := by
  have ho := hr.ok
  have hx := ho.refers h
  obtain ⟨c, hc⟩ := ho.block h
  obtain ⟨hu, -, hl, -⟩ := ho.counts hc
  have hobj : c.obj = none := by
    cases hob : c.obj with
    | none => rfl
    | some o => exact (hd ⟨o.val, c, o, hc, hob, rfl⟩).elim
  have huse : c.use = 0 := by
    have := hl.2
    rw [hobj] at this; simp at this; exact this
  have hn0 : w.heap .null = none := ho.g.null
  have hstk : w.heap (.stk w.sp) = none := ho.g.fresh _ (Nat.le_refl _)
  have hbs : b ≠ .stk w.sp := by rintro rfl; rw [hstk] at hc; cases hc
  obtain ⟨hbn, -⟩ := h
  obtain ⟨⟨c', e1⟩, -⟩ : (∃ c' : Blk V, c' = { c with use := c.use + 1 }) ∧ True := ⟨⟨_, rfl⟩, trivial⟩
  generalize hw' : ({ (ready w) with sp := w.sp + 1, heap := upd (upd w.heap (.stk w.sp) (some (.var .sh ⟨b, b⟩))) b (some (.blk c')) } : W V) = w'
  have hp' : w'.heap (.stk w.sp) = some (.var .sh ⟨b, b⟩) := by
    subst hw'; simp only; rw [upd_other _ _ (Ne.symm hbs), upd_same]
  have hb' : w'.heap b = some (.blk c') := by subst hw'; simp only; rw [upd_same]
  have hn' : w'.heap .null = none := by
    subst hw'; simp only; rw [upd_other _ _ (Ne.symm hbn), upd_other _ _ (by intro e; cases e)]; exact hn0
  have hat : At w'.heap .sh (.var (.stk w.sp)) ⟨b, b⟩ := hp'
  refine ⟨.stk w.sp, w', ?_, ⟨hbn, _, hat, rfl⟩, ?_, ?_, ?_, ?_⟩
  · apply runs_of_wp
    refine wp_some ?_
    unfold lock
    rw [wp_bind, wp_getH (w := ready w) hx hn0, wp_bind, wp_newObj, if_neg hbn, wp_bind]
    unfold addRef
    rw [wp_bind, wp_rdBlk (c := c) (by show upd w.heap (.stk w.sp) _ b = _; rw [upd_other _ _ hbs]; exact hc) hbn,
      wp_setBlk (c := c) (by show upd w.heap (.stk w.sp) _ b = _; rw [upd_other _ _ hbs]; exact hc) hbn, wp_pure]
    refine ⟨rfl, ?_⟩
    subst hw'; subst e1; rfl
  · rintro ⟨v, c2, o, f1, f2, -⟩
    rw [hb'] at f1; cases f1; subst e1; rw [hobj] at f2; cases f2
  · apply runs_of_wp
    unfold get
    rw [wp_bind, wp_getH hat hn']; exact ⟨rfl, rfl⟩
  · apply runs_of_wp
    unfold useCount blkUseCount
    rw [wp_bind, wp_getH hat hn', if_neg hbn, wp_bind, wp_rdBlk hb' hbn]
    exact ⟨by subst e1; simp [huse], rfl⟩
  · refine Faults.bind (m := dropShared (.stk w.sp)) ?_
    unfold dropShared
    refine wp.faults_bind ?_
    rw [wp_getH hat hn']
    refine wp.faults_bind ?_
    rw [wp_dropObj hp']
    refine Faults.if_neg hbn ?_
    have hb2 : upd w'.heap (.stk w.sp) none b = some (.blk c') := by rw [upd_other _ _ hbs]; exact hb'
    rw [release.eq_def]
    refine wp.faults_bind ?_
    rw [wp_rdBlk (c := c') hb2 hbn]
    refine wp.faults_bind ?_
    rw [wp_assertM]
    refine ⟨by subst e1; simp, ?_⟩
    refine wp.faults_bind ?_
    rw [wp_setBlk (c := c') hb2 hbn]
    refine Faults.if_pos (by subst e1; simp [huse]) ?_
    refine Faults.bind ?_
    rw [destroyValue.eq_def]
    refine Faults.bind ?_
    unfold rdObj
    refine wp.faults_bind ?_
    rw [wp_rdBlk (upd_same ..) hbn]
    subst e1
    simp only [hobj]
    rfl

example : ∃ (w : W Nat) (l : Loc) (b : Ptr), Reach w ∧ Refers w .wk l b ∧ ¬ Alive w b := by
  obtain ⟨w', h1, h2, h3, -⟩ := Demo.expired
  exact ⟨w', _, _, h1, h2, h3⟩

/-! ### C53 -/

/-- C53 is violated: after moving from a non-empty `weak_ptr` to an empty one, both refer to the control block, and the
control block counts one `weak_ptr` less than there are. -/
theorem weak_move_assign_violated (hr : Reach w) (hne : l ≠ m) (hl : Empty w .wk l) (h : Refers w .wk m b) :
    ∃ w' n c, Runs (exec (.moveAssignWeak l m)) (ready w) none w' ∧ Refers w' .wk l b ∧ Refers w' .wk m b ∧
      Card (fun l => Refers w' .wk l b) (n + 1) ∧ w'.heap b = some (.blk c) ∧ c.weak = n := by
  have ho := hr.ok
  have s : G (At w.heap) (Val w.heap) (ready w) := ho.ready.g
  have hy := ho.refers h
  obtain ⟨hbn, -⟩ := h
  have : wp (exec (.moveAssignWeak l m)) (ready w) fun r w' => r = none ∧ Refers w' .wk l b ∧ Refers w' .wk m b ∧
      ∃ n c, Card (fun l => Refers w' .wk l b) (n + 1) ∧ w'.heap b = some (.blk c) ∧ c.weak = n := by
    refine wp_none ?_
    unfold moveAssignWeak
    rw [wp_bind]
    refine St.wp_moveWeak s hl ?_
    intro w1 f1 hn hv1 s1
    have hvm : Loc.var (.stk (ready w).sp) ≠ m := by rintro rfl; exact hn _ _ hy
    have hl1 := Hs.put_ne (A := Hs.put (At w.heap) .wk l .nil) (k := .wk) (y := .nil) (Ne.symm hv1) (Hs.put_self (At w.heap) .wk l .nil)
    have hm1 := Hs.put_ne (A := Hs.put (At w.heap) .wk l .nil) (k := .wk) (y := .nil) (Ne.symm hvm)
      (Hs.put_ne (k := .wk) (y := .nil) (Ne.symm hne) hy)
    rw [wp_bind, s1.wp_get hm1, wp_bind, s1.wp_get hl1, wp_bind]
    refine s1.wp_setPtr (y := ⟨b, .null⟩) hl1 (by rfl) ?_
    intro w2 f2 k2 s2
    have hl2 := Hs.put_self (Hs.put (Hs.put (At w.heap) .wk l .nil) .wk (.var (.stk (ready w).sp)) .nil) .wk l ⟨b, .null⟩
    have hm2 := Hs.put_ne (k := .wk) (y := ⟨b, .null⟩) (Ne.symm hne) hm1
    have ht := s2.target hm2 hbn
    rw [wp_bind, s2.wp_get hm2, wp_bind, s2.wp_get hl2, wp_bind]
    refine s2.wp_setRef (y := ⟨b, b⟩) hl2 (fun _ => ht) ?_
    intro w3 f3 k3 s3
    have hv3 := Hs.put_ne (k := .wk) (y := (⟨b, b⟩ : Hnd)) hv1 (Hs.put_ne (k := .wk) (y := (⟨b, .null⟩ : Hnd)) hv1
      (Hs.put_self (Hs.put (At w.heap) .wk l .nil) .wk (.var (.stk (ready w).sp)) .nil))
    unfold dropWeak
    rw [wp_bind, s3.wp_get hv3, wp_bind]
    refine s3.wp_drop hv3 ?_
    intro w4 f4 k4 s4
    rw [if_pos (by rfl), wp_pure]
    have hl4 : At w4.heap .wk l ⟨b, b⟩ := by
      rw [s4.at_]; exact ⟨Ne.symm hv1, Hs.put_self _ _ _ _⟩
    have hm4 : At w4.heap .wk m ⟨b, b⟩ := by
      rw [s4.at_]; exact ⟨Ne.symm hvm, Hs.put_ne (Ne.symm hne) hm2⟩
    refine ⟨rfl, .of_at hbn hl4, .of_at hbn hm4, ?_⟩
    obtain ⟨c, hc⟩ := k4 b (k3 b ht)
    obtain ⟨dom, hi⟩ := s4.inv
    have h1 := hi.weak _ _ hc
    simp only [zero, ind, Hnd.nil] at h1
    rw [if_neg (by rintro ⟨-, e⟩; exact hbn e.symm), if_pos ⟨trivial, trivial⟩] at h1
    refine ⟨c.weak, c, ?_, hc, rfl⟩
    rw [show c.weak + 1 = tot dom w4.heap .wk b by omega]
    exact (card_tot hi.nd hi.cov _ _).congr fun l => ⟨fun h => ⟨hbn, h⟩, fun h => h.2⟩
  obtain ⟨r, w', h1, rfl, h2, h3, n, c, h4, h5, h6⟩ := this.runs
  exact ⟨w', n, c, h1, h2, h3, h4, h5, h6⟩

example : Reach Demo.d5 ∧ (Loc.mem Demo.a 1) ≠ .var Demo.wa ∧ Empty Demo.d5 .wk (.mem Demo.a 1) ∧ Refers Demo.d5 .wk (.var Demo.wa) Demo.a :=
  ⟨Demo.r5, by simp, Demo.facts.2.2.2.2.2.2.1, Demo.facts.2.2.2.2.1⟩

/-- C53 is violated: in the demonstration, `w1 = std::move(wa)` followed by the release of all weak handles ends in a
failed assertion (in builds without assertions the count becomes negative), although each call by itself is fine. -/
theorem weak_move_assign_faults :
    Reach Demo.d5 ∧ ∃ w1 w2 w3 w4 : W Nat, ∃ p,
      Runs (exec .newWeak) (ready Demo.d5) (some p) w1 ∧
      Runs (exec (.moveAssignWeak (.var p) (.var Demo.wa))) w1 none w2 ∧
      Runs (exec (.resetWeak (.var p))) w2 none w3 ∧
      Runs (exec (.resetWeak (.var Demo.wa))) w3 none w4 ∧
      Faults (exec (.resetWeak (.mem Demo.b 1))) w4 .assertFail :=
  ⟨Demo.r5, Demo.go .newWeak Demo.d5, _, _, _, .stk 4, rfl, rfl, rfl, rfl, rfl⟩

/-- C53, missing: assignment from a non-empty `weak_ptr` (see above).  Assignment from an empty `weak_ptr`, and
self-assignment, leave the target empty; nothing else happens to objects or handles. -/
theorem weak_move_assign_partial (hr : Reach w) (hl : Has (At w.heap) .wk l) (hm : Empty w .wk m ∨ l = m) :
    ∃ w', Runs (exec (.moveAssignWeak l m)) (ready w) none w' ∧ Reach w' ∧ Empty w' .wk l ∧ Empty w' .wk m ∧
      (∀ b, Alive w' b ↔ Alive w b) := by
  have hmm : Has (At w.heap) .wk m := by
    rcases hm with h | rfl
    · exact ⟨_, h⟩
    · exact hl
  have hval : Valid w (.moveAssignWeak l m) := ⟨hl, hmm, hm.symm⟩
  obtain ⟨r, w', A1, h1, h2, h3, h4⟩ := destroys_exactly_doomed_partial hr hval (by intros; simp)
  cases r with
  | some q => exact h2.elim
  | none =>
    obtain ⟨y, hy, rfl⟩ := h2
    have hnd : ∀ b, Alive w b → ¬ Doomed (Hs.put (Hs.put (At w.heap) .wk l y) .wk m .nil) b := by
      intro b hb
      have : Held (Hs.put (Hs.put (At w.heap) .wk l y) .wk m .nil) fun b => Alive w b := by
        intro d hd
        obtain ⟨n, hn, z, hz, e⟩ := (hr.ok.alive_iff d).1 hd
        have n1 : n ≠ m := by
          rintro rfl; obtain ⟨x, hx⟩ := hmm; cases (hz.det hx).1
        have n2 : n ≠ l := by
          rintro rfl; obtain ⟨x, hx⟩ := hl; cases (hz.det hx).1
        refine ⟨n, z, Hs.put_ne n1 (Hs.put_ne n2 hz), e, ?_⟩
        rintro x i rfl; exact memOk_heap w.heap _ _ _ _ hz
      exact this.not_doomed hb
    have hmem : ∀ n, n = l ∨ n = m → ∀ b i, n = .mem b i → ¬ Doomed (Hs.put (Hs.put (At w.heap) .wk l y) .wk m .nil) b := by
      rintro n hn b i rfl
      apply hnd
      rcases hn with rfl | rfl
      · obtain ⟨x, hx⟩ := hl; exact memOk_heap w.heap _ _ _ _ hx
      · obtain ⟨x, hx⟩ := hmm; exact memOk_heap w.heap _ _ _ _ hx
    refine ⟨w', h1, .step hr hval h1, ?_, ?_, ?_⟩
    · refine (h4 _ _ _).2 ⟨?_, hmem l (.inl rfl)⟩
      by_cases e : l = m
      · subst e; exact Hs.put_self _ _ _ _
      · have hy' : y = .nil := by
          rcases hm with h | h
          · exact (h.det hy).2.symm
          · exact (e h).elim
        subst hy'
        exact Hs.put_ne e (Hs.put_self _ _ _ _)
    · exact (h4 _ _ _).2 ⟨Hs.put_self _ _ _ _, hmem m (.inr rfl)⟩
    · intro b
      constructor
      · rintro ⟨v, hv⟩; exact ⟨v, ((h3 _ _).1 hv).1⟩
      · rintro ⟨v, hv⟩; exact ⟨v, (h3 _ _).2 ⟨hv, hnd b ⟨v, hv⟩⟩⟩

example : Reach Demo.d5 ∧ Has (At Demo.d5.heap) .wk (.var Demo.wa) ∧ Empty Demo.d5 .wk (.mem Demo.a 1) :=
  ⟨Demo.r5, ⟨_, rfl⟩, Demo.facts.2.2.2.2.2.2.1⟩

/-! ### C54 -/

/-- C54 is violated: `w = w` on a `weak_ptr` that is the only handle of its control block frees the control block and
then uses it. -/
theorem weak_self_assign_violated (hr : Reach w) (h : Refers w .wk l b) (hs : ∀ k m, Refers w k m b → m = l) :
    Faults (exec (.assignWeak .wk l l)) (ready w) .wild := by
  have ho := hr.ok
  have hx := ho.refers h
  have hn0 : w.heap .null = none := ho.g.null
  obtain ⟨c, hc⟩ := ho.block h
  obtain ⟨hu, hw, -, -⟩ := ho.counts hc
  have huse : c.use = 0 := by
    cases hc0 : c.use with
    | zero => rfl
    | succ n =>
      obtain ⟨m, hm⟩ := hu.pos.1 (by omega)
      have := hs _ _ hm; subst this
      cases (hm.det h).1
  have hweak : c.weak = 1 := by
    refine hw.unique ⟨[l], by simp, ?_, rfl⟩
    intro m
    constructor
    · intro hm; simp at hm; subst hm; exact h
    · intro hm; simp; exact hs _ _ hm
  obtain ⟨dom, hi⟩ := ho.g.inv
  obtain ⟨a, ha⟩ := hi.shBlk _ _ hc
  have how := hi.owner _ _ hc
  have hdead : ¬ Alive w b := by
    rw [ho.alive_iff, ← hu.pos]; omega
  obtain ⟨hbn, -⟩ := h
  refine Faults.bind (m := assignWeak .wk l l) ?_
  unfold assignWeak
  refine wp.faults_bind ?_
  rw [wp_getH (w := ready w) hx hn0]
  refine Faults.if_neg hbn ?_
  refine wp.faults_bind ?_
  rw [wp_weakRelease_exact (w := ready w) hc ha how (by omega)]
  have hwr : wrel c = none := by unfold wrel; rw [if_pos ⟨by omega, huse⟩]
  rw [hwr]
  generalize hw1 : (ready w).setHeap (upd (ready w).heap b none) = w1
  have hh1 : w1.heap = upd w.heap b none := by subst hw1; rfl
  have hx1 : At w1.heap .wk l ⟨b, b⟩ := by
    rw [hh1]
    cases l with
    | var p =>
      show upd w.heap b none p = _
      rw [upd_other _ _ (by rintro rfl; rw [show w.heap _ = _ from hx] at hc; cases hc)]; exact hx
    | mem d i =>
      have hdb : d ≠ b := by rintro rfl; exact hdead (memOk_heap w.heap _ _ _ _ hx)
      obtain ⟨c', o', f1, f2, f3⟩ := hx
      exact ⟨c', o', by rw [upd_other _ _ hdb]; exact f1, f2, f3⟩
  have hn1 : w1.heap .null = none := by rw [hh1, upd_other _ _ (Ne.symm hbn)]; exact hn0
  have hset : ∀ {Q : Unit → W V → Prop}, wp (setH .wk l ⟨b, b⟩) w1 Q ↔ Q () w1 := by
    intro Q
    rw [wp_setH hx1 hn1, putH_same hx1]; exact Iff.rfl
  refine wp.faults_bind ?_
  rw [wp_getH hx1 hn1]
  refine wp.faults_bind ?_
  rw [wp_getH hx1 hn1]
  refine wp.faults_bind ?_
  rw [hset]
  refine wp.faults_bind ?_
  rw [wp_getH hx1 hn1]
  refine wp.faults_bind ?_
  rw [wp_getH hx1 hn1]
  refine wp.faults_bind ?_
  rw [hset]
  refine wp.faults_bind ?_
  rw [wp_getH hx1 hn1]
  refine Faults.if_neg hbn ?_
  unfold weakAddRef rdBlk
  refine Faults.bind (Faults.bind ?_)
  unfold Faults rd
  rw [if_neg hbn, hh1, upd_same]

example : ∃ (w : W Nat) (l : Loc) (b : Ptr), Reach w ∧ Refers w .wk l b ∧ ∀ k m, Refers w k m b → m = l := by
  obtain ⟨w', h1, h2, h3⟩ := Demo.sole
  exact ⟨w', _, _, h1, h2, h3⟩

/-- C54, missing: the case above.  `w = w` changes no handle and no object if `w` is empty or if another handle refers
to the same control block. -/
theorem weak_self_assign_partial (hr : Reach w)
    (h : Empty w .wk l ∨ ∃ b, Refers w .wk l b ∧ ∃ k m, m ≠ l ∧ Refers w k m b) :
    ∃ w', Runs (exec (.assignWeak .wk l l)) (ready w) none w' ∧ Reach w' ∧
      (∀ k m z, At w'.heap k m z ↔ At w.heap k m z) ∧ (∀ b v, Val w'.heap b v ↔ Val w.heap b v) := by
  have ho := hr.ok
  have hval : Valid w (.assignWeak .wk l l) := by
    rcases h with h | ⟨b, h1, k, m, h2, -, y, hy, e⟩
    · refine ⟨⟨_, h⟩, ⟨_, h⟩, ?_⟩
      intro _ x hx hn
      rw [← (h.det hx).2] at hn; exact (hn rfl).elim
    · refine ⟨⟨_, ho.refers h1⟩, ⟨_, ho.refers h1⟩, ?_⟩
      intro _ x hx hn
      rw [← ((ho.refers h1).det hx).2]
      exact ⟨k, m, y, hy, h2, e⟩
  obtain ⟨r, w', A1, h1, h2, h3, h4⟩ := destroys_exactly_doomed_partial hr hval (by intros; simp)
  cases r with
  | some q => exact h2.elim
  | none =>
    obtain ⟨y, hy, rfl⟩ := h2
    have hp : Hs.put (At w.heap) .wk l y = At w.heap := Hs.put_same (fun k' z hz => ⟨(hy.det hz).1.symm, (hy.det hz).2.symm⟩) hy
    rw [hp] at h3 h4
    have hnd : ∀ b, Alive w b → ¬ Doomed (At w.heap) b := by
      intro b hb
      have : Held (At w.heap) fun b => Alive w b := by
        intro d hd
        obtain ⟨n, hn, z, hz, e⟩ := (ho.alive_iff d).1 hd
        refine ⟨n, z, hz, e, ?_⟩
        rintro x i rfl; exact memOk_heap w.heap _ _ _ _ hz
      exact this.not_doomed hb
    refine ⟨w', h1, .step hr hval h1, ?_, ?_⟩
    · intro k m z
      rw [h4]
      refine ⟨fun h => h.1, fun h => ⟨h, ?_⟩⟩
      rintro b i rfl; exact hnd b (memOk_heap w.heap _ _ _ _ h)
    · intro b v
      rw [h3]
      exact ⟨fun h => h.1, fun h => ⟨h, hnd b ⟨v, h⟩⟩⟩

example : Reach Demo.d5 ∧ Refers Demo.d5 .wk (.var Demo.wa) Demo.a ∧ (Loc.mem Demo.b 1) ≠ .var Demo.wa ∧
    Refers Demo.d5 .wk (.mem Demo.b 1) Demo.a := ⟨Demo.r5, Demo.facts.2.2.2.2.1, by simp, Demo.facts.2.2.2.1⟩

end Nestl.SP
