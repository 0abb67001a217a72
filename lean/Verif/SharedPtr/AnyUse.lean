import Verif.SharedPtr.Any
set_option autoImplicit false
/-
Use counts in every execution that returns: the counting invariant and `release`.
-/
namespace Nestl.SP

variable {V : Type}

/-- Use count of the control block in a cell. -/
def useOf : Option (Cell V) → Nat
  | some (.blk c) => c.use
  | _ => 0

/-- `T b` is the number of references counted by block `b` which are not stored in a `shared_ptr` at the moment. -/
structure Us (dom : List Ptr) (T : Ptr → Int) (h : Heap V) : Prop where
  nd : dom.Nodup
  cov : ∀ p, h p ≠ none → p ∈ dom
  cnt : ∀ b, b ≠ .null → (useOf (h b) : Int) = tot dom h .sh b + T b

/-- 1 at `b`. -/
def one (b : Ptr) (x : Ptr) : Int := if x = b then 1 else 0

theorem Us.congr {dom : List Ptr} {T T' : Ptr → Int} {h : Heap V} (u : Us dom T h) (hT : ∀ b, b ≠ .null → T' b = T b) : Us dom T' h :=
  ⟨u.nd, u.cov, fun b hb => by rw [u.cnt b hb, hT b hb]⟩

theorem Us.upd {dom : List Ptr} {T T' : Ptr → Int} {h : Heap V} (u : Us dom T h) {p : Ptr} (hp : p ∈ dom) (c : Option (Cell V))
    (hT : ∀ b, b ≠ .null → T' b = T b + (if b = p then (useOf c : Int) - useOf (h p) else 0) + refsOf .sh b (h p) - refsOf .sh b c) :
    Us dom T' (upd h p c) := by
  refine ⟨u.nd, ?_, ?_⟩
  · intro q hq
    by_cases e : q = p
    · subst e; exact hp
    · rw [upd_other _ _ e] at hq; exact u.cov q hq
  · intro b hb
    have h1 := u.cnt b hb
    have h2 := tot_upd (h := h) u.nd hp c .sh b
    have h3 := hT b hb
    by_cases e : b = p
    · subst e
      rw [upd_same]
      simp only [if_true] at h3; omega
    · rw [upd_other _ _ e]
      simp only [e, if_false] at h3; omega

theorem Us.grow {dom : List Ptr} {T : Ptr → Int} {h : Heap V} (u : Us dom T h) {p : Ptr} (hp : h p = none) :
    ∃ dom', Us dom' T h ∧ p ∈ dom' := by
  by_cases e : p ∈ dom
  · exact ⟨dom, u, e⟩
  · refine ⟨p :: dom, ⟨List.nodup_cons.2 ⟨e, u.nd⟩, fun q hq => List.mem_cons_of_mem _ (u.cov q hq), ?_⟩, List.mem_cons_self⟩
    intro b hb
    rw [u.cnt b hb]
    unfold tot
    simp [hp, refsOf]

theorem Us.mem {dom : List Ptr} {T : Ptr → Int} {h : Heap V} (u : Us dom T h) {p : Ptr} {c : Cell V} (hp : h p = some c) : p ∈ dom :=
  u.cov p (by rw [hp]; simp)

/-- Objects are alive only while their use count is positive, apart from those in `D`. -/
def Life (D : List Ptr) (h : Heap V) : Prop := ∀ b c, h b = some (.blk c) → c.obj ≠ none → b ∉ D → 0 < c.use

/-- A control block whose object is being destroyed has been freed. -/
def Bad (D : List Ptr) (h : Heap V) : Prop := ∃ d, d ∈ D ∧ ∀ c, h d ≠ some (.blk c)

theorem Bad.dn {D : List Ptr} {E : Ptr → Prop} {h h' : Heap V} (b : Bad D h) (d : Dn E h h') : Bad D h' := by
  obtain ⟨x, hx, hn⟩ := b
  refine ⟨x, hx, fun c hc => ?_⟩
  obtain ⟨c', h1, -⟩ := d.blk x c hc
  exact hn _ h1

theorem Us.wrel {dom : List Ptr} {T : Ptr → Int} {h : Heap V} {D : List Ptr} (u : Us dom T h) (hl : Life D h) {b : Ptr} {c : Blk V}
    (hb : h b = some (.blk c)) : Bad D (Nestl.upd h b (wrel' c)) ∨ (Us dom T (Nestl.upd h b (wrel' c)) ∧ Life D (Nestl.upd h b (wrel' c))) := by
  unfold wrel'
  split
  · rename_i hz
    by_cases hD : b ∈ D
    · exact .inl ⟨b, hD, fun c => by simp⟩
    · right
      have ho : c.obj = none := by
        apply Classical.byContradiction; intro ho
        have := hl b c hb ho hD; omega
      refine ⟨u.upd (u.mem hb) _ ?_, ?_⟩
      · intro x _
        simp only [hb, useOf, refsOf, ho, hz.2]
        split <;> simp
      · intro x d hx
        by_cases e : x = b
        · subst e; simp at hx
        · rw [upd_other _ _ e] at hx; exact hl x d hx
  · right
    refine ⟨u.upd (u.mem hb) _ ?_, ?_⟩
    · intro x _
      simp only [hb, useOf, refsOf]
      split <;> omega
    · intro x d hx
      by_cases e : x = b
      · subst e; rw [upd_same] at hx; cases hx; exact hl x c hb
      · rw [upd_other _ _ e] at hx; exact hl x d hx

/-- `release`, if it returns: the counts stay right, or the control block of an object under destruction is gone. -/
theorem pw_release_use (n : Nat) : ∀ (w : W V) (dom : List Ptr) (T : Ptr → Int) (D : List Ptr), Us dom T w.heap → Life D w.heap →
    (∀ d, d ∈ D → ∀ c, w.heap d = some (.blk c) → c.use = 0) → msr dom w.heap ≤ n →
    (∀ b, pw (release b) w fun _ w' => Bad D w'.heap ∨ (Us dom (fun x => T x - one b x) w'.heap ∧ Life D w'.heap)) ∧
    (∀ b i, b ∈ D → (∀ c o, w.heap b = some (.blk c) → c.obj = some o → o.mem.length = i) →
      pw (destroyMembers b i) w fun _ w' => Bad D w'.heap ∨ (Us dom T w'.heap ∧ Life D w'.heap ∧
        ∀ c o, w'.heap b = some (.blk c) → c.obj = some o → o.mem = [])) := by
  induction n using Nat.strongRecOn with
  | ind n IH =>
    have mem : ∀ (w : W V) (dom : List Ptr) (T : Ptr → Int) (D : List Ptr), Us dom T w.heap → Life D w.heap →
        (∀ d, d ∈ D → ∀ c, w.heap d = some (.blk c) → c.use = 0) → msr dom w.heap ≤ n →
        ∀ b i, b ∈ D → (∀ c o, w.heap b = some (.blk c) → c.obj = some o → o.mem.length = i) →
        pw (destroyMembers b i) w fun _ w' => Bad D w'.heap ∨ (Us dom T w'.heap ∧ Life D w'.heap ∧
        ∀ c o, w'.heap b = some (.blk c) → c.obj = some o → o.mem = []) := by
      intro w dom T D u hl hD hmsr b i hbD hlen
      cases i with
      | zero =>
        rw [destroyMembers.eq_def]
        refine pw_pure (.inr ⟨u, hl, ?_⟩)
        intro c o hc ho
        exact List.eq_nil_of_length_eq_zero (hlen c o hc ho)
      | succ i =>
        rw [destroyMembers_succ]
        refine pw_bind (pw_takeMem ?_)
        intro c o m hb ho hm hbn
        have hlen' := hlen c o hb ho
        have hd : b ∈ dom := u.mem hb
        have hlt := msr_take u.nd hd hb ho hm
        have hdn : Dn (· = b) w.heap _ := take_dn (i := i) rfl hb ho
        have hu0 := hD b hbD c hb
        have u1 : Us dom (fun x => T x + ind .sh x m) (upd w.heap b (some (.blk { c with obj := some { o with mem := o.mem.take i } }))) := by
          refine u.upd hd _ ?_
          intro x _
          have := memRefs_take_succ .sh x hm hlen'
          simp only [hb, useOf, refsOf, ho]
          split <;> omega
        have l1 : Life D (upd w.heap b (some (.blk { c with obj := some { o with mem := o.mem.take i } }))) := by
          intro x d hx
          by_cases e : x = b
          · subst e; exact fun _ h => (h hbD).elim
          · rw [upd_other _ _ e] at hx; exact hl x d hx
        have len1 : ∀ c' o', upd w.heap b (some (.blk { c with obj := some { o with mem := o.mem.take i } })) b = some (.blk c') →
            c'.obj = some o' → c'.use = 0 ∧ o'.mem.length = i := by
          intro c' o' hc' ho'
          rw [upd_same] at hc'; cases hc'; cases ho'
          exact ⟨hu0, by simp; omega⟩
        generalize upd w.heap b (some (.blk { c with obj := some { o with mem := o.mem.take i } })) = h1 at hlt hdn u1 l1 len1
        have D1 : ∀ d, d ∈ D → ∀ c, h1 d = some (.blk c) → c.use = 0 := by
          intro d hd c' hc'
          obtain ⟨c0, f1, f2⟩ := hdn.blk d c' hc'
          have := hD d hd c0 f1
          have := f2.use
          omega
        have ih := IH (msr dom h1) (by omega) (w.setHeap h1) dom _ D u1 l1 D1 (Nat.le_refl _)
        have idn := pw_release_dn (msr dom h1) (w.setHeap h1) dom u1.nd u1.cov (Nat.le_refl _)
        have step : pw (dropMem m) (w.setHeap h1) fun _ w' => (Dn (fun _ => False) h1 w'.heap) ∧
            (Bad D w'.heap ∨ (Us dom T w'.heap ∧ Life D w'.heap)) := by
          unfold dropMem
          refine pw_ite (fun hn => pw_pure ⟨.refl _ _, .inr ⟨u1.congr ?_, l1⟩⟩) (fun hn => ?_)
          · intro x hx
            unfold ind
            rw [if_neg (by rw [hn]; exact fun h => hx h.2.symm)]; simp
          · obtain ⟨k, z⟩ := m
            cases k with
            | sh =>
              refine pw_mono (pw_and (idn.1 z.ref) (ih.1 z.ref)) ?_
              rintro _ w' ⟨⟨-, d⟩, h⟩
              refine ⟨d, h.imp_right fun ⟨u', l'⟩ => ⟨u'.congr ?_, l'⟩⟩
              intro x _
              unfold ind one
              by_cases e : x = z.ref
              · rw [if_pos e, if_pos ⟨rfl, e.symm⟩]; omega
              · rw [if_neg e, if_neg (fun h => e h.2.symm)]; omega
            | wk =>
              refine pw_weakRelease ?_
              intro c' hc' _
              refine ⟨wrel_dn hc', (u1.wrel l1 hc').imp_right fun ⟨u', l'⟩ => ⟨u'.congr ?_, l'⟩⟩
              intro x _
              unfold ind
              rw [if_neg (by intro h; cases h.1)]; simp
        refine pw_bind (pw_mono step ?_)
        rintro _ w2 ⟨d2, h2⟩
        have idn2 := pw_release_dn (msr dom w2.heap) w2 dom u1.nd (fun p hp => u1.cov p (d2.cov p hp)) (Nat.le_refl _)
        rcases h2 with h2 | ⟨u2, l2⟩
        · refine pw_mono (idn2.2 b i) ?_
          rintro _ w3 ⟨-, d3⟩
          exact .inl (h2.dn d3)
        · have D2 : ∀ d, d ∈ D → ∀ c, w2.heap d = some (.blk c) → c.use = 0 := by
            intro d hd c' hc'
            obtain ⟨c0, f1, f2⟩ := d2.blk d c' hc'
            have := D1 d hd c0 f1
            have := f2.use
            omega
          have hm2 := d2.msr dom
          refine (IH (msr dom h1) (by omega) w2 dom T D u2 l2 D2 hm2).2 b i hbD ?_
          intro c' o' hc' ho'
          obtain ⟨c0, f1, f2⟩ := d2.blk b c' hc'
          have h0 : c0.use = 0 := D1 b hbD c0 f1
          have := f2.keep (fun h => h) h0
          rw [ho'] at this
          exact (len1 c0 o' f1 this.symm).2
    intro w dom T D u hl hD hmsr
    refine ⟨?_, mem w dom T D u hl hD hmsr⟩
    intro b
    rw [release.eq_def]
    refine pw_bind (pw_rdBlk ?_)
    intro c hb hbn
    refine pw_bind (pw_assertM fun hu => ?_)
    have hu : 0 < c.use := by simpa using hu
    have hbD : b ∉ D := by
      intro h; have := hD b h c hb; omega
    refine pw_bind (pw_setBlk (c := c) ?_)
    have hdom : b ∈ dom := u.mem hb
    have d1 : Dn (fun _ => False) w.heap (upd w.heap b (some (.blk { c with use := c.use - 1 }))) :=
      .upd hb ⟨Nat.sub_le _ _, fun _ => rfl, fun _ _ => rfl, fun o' h => ⟨o', h, fun _ _ h => h, Nat.le_refl _⟩⟩
    have u1 : Us dom (fun x => T x - one b x) (upd w.heap b (some (.blk { c with use := c.use - 1 }))) := by
      refine u.upd hdom _ ?_
      intro x _
      simp only [hb, useOf, refsOf, one]
      split
      · omega
      · omega
    have l1 : ∀ x d, upd w.heap b (some (.blk { c with use := c.use - 1 })) x = some (.blk d) → d.obj ≠ none → x ∉ b :: D → 0 < d.use := by
      intro x d hx ho hn
      rw [List.mem_cons, not_or] at hn
      rw [upd_other _ _ hn.1] at hx
      exact hl x d hx ho hn.2
    have hb1 : upd w.heap b (some (.blk { c with use := c.use - 1 })) b = some (.blk { c with use := c.use - 1 }) := upd_same ..
    generalize upd w.heap b (some (.blk { c with use := c.use - 1 })) = h1 at *
    refine pw_ite (fun hz => ?_) (fun hz => pw_pure (.inr ⟨u1, ?_⟩))
    · refine pw_bind ?_
      rw [destroyValue.eq_def]
      refine pw_bind (pw_rdObj ?_)
      intro c0 o hc0 ho _
      have hc0 : h1 b = some (.blk c0) := hc0
      rw [hb1] at hc0; cases hc0
      have D1 : ∀ d, d ∈ b :: D → ∀ c, h1 d = some (.blk c) → c.use = 0 := by
        intro d hd c' hc'
        rcases List.mem_cons.1 hd with rfl | hd
        · rw [hb1] at hc'; cases hc'; exact hz
        · obtain ⟨c0, f1, f2⟩ := d1.blk d c' hc'
          have := hD d hd c0 f1
          have := f2.use
          omega
      have hm1 := d1.msr dom
      have hmm := mem (w.setHeap h1) dom _ (b :: D) u1 l1 D1 (by show msr dom h1 ≤ n; omega) b o.mem.length List.mem_cons_self (by
        intro c' o' hc' ho'
        have hc' : h1 b = some (.blk c') := hc'
        rw [hb1] at hc'; cases hc'
        rw [show c.obj = some o from ho] at ho'; cases ho'; rfl)
      have hdd := (pw_release_dn (msr dom h1) (w.setHeap h1) dom u1.nd u1.cov (Nat.le_refl _)).2 b o.mem.length
      refine pw_bind (pw_mono (pw_and hmm hdd) ?_)
      rintro _ w2 ⟨h2, -, d2⟩
      have d2 : Dn (· = b) h1 w2.heap := d2
      refine pw_bind (pw_rdBlk ?_)
      intro c2 hc2 _
      refine pw_setBlk (c := c2) ?_
      have hu2 : c2.use = 0 := by
        obtain ⟨c', f1, f2⟩ := d2.blk b c2 hc2
        rw [hb1] at f1; cases f1
        have : c2.use ≤ c.use - 1 := f2.use
        omega
      refine pw_bind (pw_rdBlk ?_)
      intro c3 hc3 _
      have hc3 : upd w2.heap b _ b = some (.blk c3) := hc3
      rw [upd_same] at hc3; cases hc3
      have key : ∀ y : Option (Cell V), (y = none ∨ y = some (.blk { c2 with obj := none })) →
          Bad D (upd w2.heap b y) ∨ (Us dom (fun x => T x - one b x) (upd w2.heap b y) ∧ Life D (upd w2.heap b y)) := by
        intro y hy
        rcases h2 with ⟨d, hd, hbad⟩ | ⟨u2, l2, hmem⟩
        · rcases List.mem_cons.1 hd with rfl | hd'
          · exact (hbad _ hc2).elim
          · left
            refine ⟨d, hd', ?_⟩
            intro c'
            have hdb : d ≠ b := by rintro rfl; exact hbD hd'
            rw [upd_other _ _ hdb]; exact hbad c'
        · right
          have href : ∀ x, refsOf .sh x (w2.heap b) = 0 := by
            intro x
            rw [hc2]
            cases ho2 : c2.obj with
            | none => simp [refsOf, ho2]
            | some o2 => simp [refsOf, ho2, hmem c2 o2 hc2 ho2, memRefs]
          refine ⟨u2.upd (u2.mem hc2) y ?_, ?_⟩
          · intro x _
            have h5 : useOf (w2.heap b) = 0 := by rw [hc2]; exact hu2
            rw [href x, h5]
            rcases hy with rfl | rfl <;> simp [useOf, refsOf, hu2]
          · intro x d hx ho hn
            by_cases e : x = b
            · subst e
              rw [upd_same] at hx
              rcases hy with rfl | rfl
              · cases hx
              · cases hx; exact (ho rfl).elim
            · rw [upd_other _ _ e] at hx
              exact l2 x d hx ho (by rw [List.mem_cons, not_or]; exact ⟨e, hn⟩)
      refine pw_ite (fun hw => ?_) (fun hw => ?_)
      · refine pw_destroySelf fun _ _ => ?_
        have := key none (.inl rfl)
        simpa using this
      · exact pw_pure (key _ (.inr rfl))
    · intro x d hx ho hn
      by_cases e : x = b
      · subst e
        have hx : h1 x = some (.blk d) := hx
        rw [hb1] at hx; cases hx
        show 0 < c.use - 1
        omega
      · exact l1 x d hx ho (by rw [List.mem_cons, not_or]; exact ⟨e, hn⟩)

end Nestl.SP
