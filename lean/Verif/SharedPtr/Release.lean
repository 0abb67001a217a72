import Verif.SharedPtr.State
set_option autoImplicit false
/-
`release` and `weak_release` keep the counting invariant: destruction of any ownership graph terminates without fault
unless an object (transitively) owns the last weak_ptr to itself.
-/
namespace Nestl.SP

variable {V : Type}

/-- Cutting members off the object of a block. -/
theorem Inv.cut {dom : List Ptr} {T T' : Kind → Ptr → Int} {D D' : List Ptr} {h : Heap V} {b : Ptr} {c c' : Blk V}
    (hi : Inv dom T D h) (hb : h b = some (.blk c)) (hu : c'.use = c.use) (hw : c'.weak = c.weak) (ho : c'.owner = c.owner)
    (hle : ∀ k d, refsOf k d (some (.blk c')) ≤ refsOf k d (some (.blk c)))
    (hT : ∀ k d, T' k d = T k d + refsOf k d (some (.blk c)) - refsOf k d (some (.blk c')))
    (hlife : b ∉ D' → (c'.obj ≠ none ↔ 0 < c'.use) ∧ 0 < c'.use + c'.weak)
    (hD : ∀ d, d ≠ b → (d ∈ D' ↔ d ∈ D))
    (hdy : b ∈ D' → c'.use = 0 ∧ c'.obj ≠ none) :
    Inv dom T' D' (upd h b (some (.blk c'))) := by
  have htot : ∀ k d, tot dom (upd h b (some (.blk c'))) k d + refsOf k d (some (.blk c)) = tot dom h k d + refsOf k d (some (.blk c')) := by
    intro k d
    have := tot_upd (h := h) hi.nd (hi.mem hb) (some (.blk c')) k d
    rw [hb] at this; exact this
  refine ⟨hi.nd, ?_, ?_, ?_, ?_, ?_, ?_, ?_, ?_, ?_, ?_, ?_⟩
  · intro p hp
    by_cases hpb : p = b
    · subst hpb; exact hi.mem hb
    · rw [upd_other _ _ hpb] at hp; exact hi.cov _ hp
  · intro p k x hp
    by_cases hpb : p = b
    · subst hpb; simp at hp
    · rw [upd_other _ _ hpb] at hp; exact hi.shVar _ _ _ hp
  · intro p hp
    by_cases hpb : p = b
    · subst hpb; simp at hp
    · rw [upd_other _ _ hpb] at hp; exact hi.shLost _ hp
  · intro p d hp
    by_cases hpb : p = b
    · subst hpb; exact hi.shBlk _ _ hb
    · rw [upd_other _ _ hpb] at hp; exact hi.shBlk _ _ hp
  · intro p o hp
    by_cases hpb : p = b
    · subst hpb; simp at hp
    · rw [upd_other _ _ hpb] at hp; exact hi.shRaw _ _ hp
  · intro d e hd
    have := htot .sh d
    have := hT .sh d
    by_cases hpb : d = b
    · subst hpb; rw [upd_same] at hd; cases hd
      have := hi.use _ _ hb; omega
    · rw [upd_other _ _ hpb] at hd
      have := hi.use _ _ hd; omega
  · intro d e hd
    have := htot .wk d
    have := hT .wk d
    by_cases hpb : d = b
    · subst hpb; rw [upd_same] at hd; cases hd
      have := hi.weak _ _ hb; omega
    · rw [upd_other _ _ hpb] at hd
      have := hi.weak _ _ hd; omega
  · intro d e hd
    by_cases hpb : d = b
    · subst hpb; rw [upd_same] at hd; cases hd; rw [ho]; exact hi.owner _ _ hb
    · rw [upd_other _ _ hpb] at hd; exact hi.owner _ _ hd
  · intro k d hd hp
    have := htot k d
    have := hle k d
    by_cases hpb : d = b
    · subst hpb; exact ⟨c', upd_same ..⟩
    · rw [upd_other _ _ hpb]; exact hi.tgt k d hd (by omega)
  · intro d e hd hnD
    by_cases hpb : d = b
    · subst hpb; rw [upd_same] at hd; cases hd; exact hlife hnD
    · rw [upd_other _ _ hpb] at hd
      exact hi.life _ _ hd (fun hh => hnD ((hD d hpb).2 hh))
  · intro d hd
    by_cases hpb : d = b
    · subst hpb; exact ⟨c', upd_same .., hdy hd⟩
    · rw [upd_other _ _ hpb]; exact hi.dying d ((hD d hpb).1 hd)

/-- What a release may do to memory: variables stay, objects stay as they are or are destroyed, blocks may be freed;
the objects in `K` are not touched.  `E` is exempt. -/
structure Rel (E : Ptr → Prop) (K : Ptr → Prop) (h h' : Heap V) : Prop where
  other : ∀ p, (∀ c, h p ≠ some (.blk c)) → h' p = h p
  blk : ∀ b c, ¬ E b → h b = some (.blk c) → h' b = none ∨ ∃ c', h' b = some (.blk c') ∧ (c'.obj = c.obj ∨ c'.obj = none)
  dy : ∀ b c, K b → ¬ E b → h b = some (.blk c) → ∃ c', h' b = some (.blk c') ∧ c'.obj = c.obj

theorem Rel.refl (E K : Ptr → Prop) (h : Heap V) : Rel E K h h :=
  ⟨fun _ _ => rfl, fun b c _ hb => .inr ⟨c, hb, .inl rfl⟩, fun b c _ _ hb => ⟨c, hb, rfl⟩⟩

theorem Rel.trans {E K : Ptr → Prop} {h h' h'' : Heap V} (h1 : Rel E K h h') (h2 : Rel E K h' h'')
    : Rel E K h h'' := by
  refine ⟨?_, ?_, ?_⟩
  · intro p hp
    have := h1.other p hp
    rw [h2.other p (by intro c; rw [this]; exact hp c), this]
  · intro b c hE hb
    rcases h1.blk b c hE hb with e | ⟨c', e1, e2⟩
    · left; rw [h2.other b (by intro c; rw [e]; simp), e]
    · rcases h2.blk b c' hE e1 with f | ⟨c'', f1, f2⟩
      · exact .inl f
      · refine .inr ⟨c'', f1, ?_⟩
        rcases f2 with f2 | f2
        · rw [f2]; exact e2
        · exact .inr f2
  · intro b c hD hE hb
    obtain ⟨c', e1, e2⟩ := h1.dy b c hD hE hb
    obtain ⟨c'', f1, f2⟩ := h2.dy b c' hD hE e1
    exact ⟨c'', f1, by rw [f2, e2]⟩

theorem Rel.weaken {E E' K K' : Ptr → Prop} {h h' : Heap V} (h1 : Rel E K h h') (hE : ∀ b, E b → E' b)
    (hD : ∀ b, K' b → ¬ E' b → K b) : Rel E' K' h h' :=
  ⟨h1.other, fun b c hn hb => h1.blk b c (fun h => hn (hE b h)) hb,
    fun b c hd hn hb => h1.dy b c (hD b hd hn) (fun h => hn (hE b h)) hb⟩

/-- Changing the exempt block. -/
theorem Rel.upd {E K : Ptr → Prop} {h : Heap V} {b : Ptr} (hE : E b) {c0 : Blk V} (hb : h b = some (.blk c0)) (c : Option (Cell V)) :
    Rel E K h (upd h b c) := by
  refine ⟨?_, ?_, ?_⟩
  · intro p hp
    rw [upd_other]; rintro rfl; exact hp _ hb
  · intro p e hn hp
    rw [upd_other _ _ (by rintro rfl; exact hn hE)]; exact .inr ⟨e, hp, .inl rfl⟩
  · intro p e _ hn hp
    rw [upd_other _ _ (by rintro rfl; exact hn hE)]; exact ⟨e, hp, rfl⟩

/-! ### When destruction is safe -/

/-- A set of handles: which handle of which kind is where. -/
abbrev Hs := Kind → Loc → Hnd → Prop

/-- The object in block `x` has a member `shared_ptr` that owns the object in block `y`. -/
def Owns (A : Hs) (x y : Ptr) : Prop := ∃ i z, A .sh (.mem x i) z ∧ z.ref = y

/-- The object in block `x` owns the object in block `y` directly or through other objects, or is the same. -/
inductive Reaches (A : Hs) : Ptr → Ptr → Prop
  | refl (x) : Reaches A x x
  | step {x y z} : Reaches A x y → Owns A y z → Reaches A x z

/-- Whenever an object (transitively) owns a `weak_ptr` to itself, a `weak_ptr` variable refers to that object too. -/
def Calm (A : Hs) : Prop :=
  ∀ b x i z, b ≠ .null → Reaches A b x → A .wk (.mem x i) z → z.ref = b → ∃ p z', A .wk (.var p) z' ∧ z'.ref = b

/-- Every object in `S` has an owner which is a variable or a member of an object in `S`. -/
def Held (A : Hs) (S : Ptr → Prop) : Prop := ∀ b, S b → ∃ l z, A .sh l z ∧ z.ref = b ∧ ∀ x i, l = .mem x i → S x

/-- The object in block `b` has no owners, except perhaps members of objects that are doomed as well: reference counting
destroys it. -/
inductive Doomed (A : Hs) : Ptr → Prop
  | intro {b} : (∀ p z, A .sh (.var p) z → z.ref ≠ b) → (∀ x i z, A .sh (.mem x i) z → z.ref = b → Doomed A x) → Doomed A b

theorem Held.not_doomed {A : Hs} {S : Ptr → Prop} (hS : Held A S) {b : Ptr} (hb : S b) : ¬ Doomed A b := by
  intro hd
  induction hd with
  | intro h1 _ ih =>
    obtain ⟨l, z, e1, e2, e3⟩ := hS _ hb
    cases l with
    | var p => exact h1 p z e1 e2
    | mem x i => exact ih x i z e1 e2 (e3 x i rfl)

theorem held_not_doomed (A : Hs) : Held A fun b => ¬ Doomed A b := by
  intro b hb
  apply Classical.byContradiction
  intro hno
  apply hb
  refine .intro ?_ ?_
  · intro p z hz e
    exact hno ⟨_, z, hz, e, by intro x i h; cases h⟩
  · intro x i z hz e
    apply Classical.byContradiction
    intro hd
    exact hno ⟨_, z, hz, e, by intro x' i' h; cases h; exact hd⟩

/-- Memory in the course of destruction is a part of the memory at its beginning; the objects in `S` are intact. -/
structure Sub (S : Ptr → Prop) (h0 h : Heap V) : Prop where
  mem : ∀ k b i z, At h k (.mem b i) z → ∃ j, At h0 k (.mem b j) z
  var : ∀ p k x, h0 p = some (.var k x) → h p = some (.var k x)
  keep : ∀ k b i z, S b → At h0 k (.mem b i) z → At h k (.mem b i) z

theorem Sub.refl (S : Ptr → Prop) (h : Heap V) : Sub S h h := ⟨fun _ _ i _ hx => ⟨i, hx⟩, fun _ _ _ h => h, fun _ _ _ _ _ h => h⟩

theorem Sub.trans {S : Ptr → Prop} {h0 h h' : Heap V} (h1 : Sub S h0 h) (h2 : Sub S h h') : Sub S h0 h' :=
  ⟨fun k b i z hz => let ⟨j, hj⟩ := h2.mem k b i z hz; h1.mem k b j z hj, fun p k x hp => h2.var p k x (h1.var p k x hp),
    fun k b i z hS hz => h2.keep k b i z hS (h1.keep k b i z hS hz)⟩

theorem Rel.sub {S K : Ptr → Prop} {h h' : Heap V} (hr : Rel (fun _ => False) K h h') (hK : ∀ b, S b → K b) : Sub S h h' := by
  refine ⟨?_, ?_, ?_⟩
  · rintro k b i z ⟨c', o, h1, h2, h3⟩
    cases hb : h b with
    | none => rw [hr.other b (by rw [hb]; simp), hb] at h1; cases h1
    | some e =>
      cases e with
      | blk c =>
        rcases hr.blk b c (fun h => h) hb with e | ⟨c1, e1, e2⟩
        · rw [e] at h1; cases h1
        · rw [h1] at e1; cases e1
          rcases e2 with e2 | e2
          · exact ⟨i, c, o, hb, by rw [← e2]; exact h2, h3⟩
          · rw [e2] at h2; cases h2
      | var k x => rw [hr.other b (by rw [hb]; simp), hb] at h1; cases h1
      | raw x => rw [hr.other b (by rw [hb]; simp), hb] at h1; cases h1
      | lost => rw [hr.other b (by rw [hb]; simp), hb] at h1; cases h1
  · intro p k x hp
    rw [hr.other p (by rw [hp]; simp), hp]
  · rintro k b i z hS ⟨c, o, h1, h2, h3⟩
    obtain ⟨c', e1, e2⟩ := hr.dy b c (hK b hS) (fun h => h) h1
    exact ⟨c', o, e1, by rw [e2]; exact h2, h3⟩

/-- An object in a held set has an owner. -/
theorem Sub.owner {S : Ptr → Prop} {h0 h : Heap V} (hs : Sub S h0 h) (hheld : Held (At h0) S) {b : Ptr} (hb : S b) :
    ∃ l z, At h .sh l z ∧ z.ref = b := by
  obtain ⟨l, z, h1, h2, h3⟩ := hheld b hb
  refine ⟨l, z, ?_, h2⟩
  cases l with
  | var p => exact hs.var p .sh z h1
  | mem x i => exact hs.keep _ _ _ _ (h3 x i rfl) h1

section
variable {dom : List Ptr} {T : Kind → Ptr → Int} {D : List Ptr} {w : W V}

theorem wp_destroySelf {b : Ptr} {c : Blk V} {a : Nat} (hb : w.heap b = some (.blk c)) (ha : b = .dyn a) (ho : c.owner = defaultAlloc)
    {Q : Unit → W V → Prop} : wp (destroySelf b) w Q ↔ Q () (w.setHeap (upd w.heap b none)) := by
  subst ha
  have hn : Ptr.dyn a ≠ .null := by intro h; cases h
  unfold destroySelf deallocate
  rw [wp_bind, wp_rdBlk hb hn, wp_bind, wp_modCell hb hn, wp_freeCell (upd_same ..) (by simp [ho])]
  simp

/-- `weak_release`. -/
theorem wp_weakRelease {x : Hnd} {c : Blk V} (hi : Inv dom T D w.heap) (hb : w.heap x.ref = some (.blk c))
    (hT : ∀ k b, ind k b (.wk, x) ≤ T k b)
    (hz : x.ref ∈ D → 2 ≤ c.weak) {K : Ptr → Prop} (hK : K x.ref → x.ref ∈ D ∨ 0 < c.use) :
    wp (weakRelease x.ref) w fun _ w' => ∃ h', w' = w.setHeap h' ∧ Inv dom (fun k b => T k b - ind k b (.wk, x)) D h' ∧
      Rel (fun _ => False) K w.heap h' ∧ msr dom h' ≤ msr dom w.heap ∧ (x.ref ∉ D → At h' = At w.heap ∧ Val h' = Val w.heap) := by
  have hn := hi.ne_null hb
  have h1 := hi.weak _ _ hb
  have h2 := hi.use _ _ hb
  have hTw := hT .wk x.ref
  have hTs := hT .sh x.ref
  rw [ind_self] at hTw
  have his : ind .sh x.ref (.wk, x) = 0 := by simp [ind]
  rw [his] at hTs
  unfold weakRelease
  rw [wp_bind, wp_rdBlk hb hn, wp_bind, wp_assertM]
  refine ⟨by simp; omega, ?_⟩
  rw [wp_bind, wp_setBlk hb hn]
  by_cases hz2 : c.weak - 1 = 0 ∧ c.use = 0
  · rw [if_pos hz2]
    have hD : x.ref ∉ D := by intro h; have := hz h; omega
    have hobj : c.obj = none := by
      have := (hi.life _ _ hb hD).1
      cases ho : c.obj with
      | none => rfl
      | some o => have := this.1 (by rw [ho]; simp); omega
    obtain ⟨a, ha⟩ := hi.shBlk _ _ hb
    rw [wp_destroySelf (c := { c with weak := c.weak - 1 }) (upd_same ..) ha (show c.owner = _ from hi.owner _ _ hb)]
    refine ⟨_, rfl, ?_, ?_, ?_, ?_⟩
    · simp only [World.setHeap_heap, upd_upd]
      have hfree : Inv dom T D (upd w.heap x.ref none) := by
        refine hi.free hb (.inl hobj) ?_ ?_
        · intro k; cases k
          · omega
          · omega
        · intro d; constructor
          · intro h; exact ⟨h, by rintro rfl; exact hD h⟩
          · exact fun h => h.1
      refine { hfree with use := ?_, weak := ?_ }
      · intro d e hd
        have := hfree.use d e hd
        have hne : d ≠ x.ref := by rintro rfl; simp at hd
        have : ind .sh d (.wk, x) = 0 := by simp [ind]
        omega
      · intro d e hd
        have := hfree.weak d e hd
        have hne : d ≠ x.ref := by rintro rfl; simp at hd
        have : ind .wk d (.wk, x) = 0 := by simp [ind, Ne.symm hne]
        omega
    · simp only [World.setHeap_heap, upd_upd]
      refine ⟨?_, ?_, ?_⟩
      · intro p hp; rw [upd_other]; rintro rfl; exact hp _ hb
      · intro p e _ hp
        by_cases hpx : p = x.ref
        · subst hpx; left; simp
        · right; rw [upd_other _ _ hpx]; exact ⟨e, hp, .inl rfl⟩
      · intro p e hpD _ hp
        rw [upd_other _ _ (by rintro rfl; rcases hK hpD with h | h; exact hD h; omega)]; exact ⟨e, hp, rfl⟩
    · simp only [World.setHeap_heap, upd_upd]
      have := msr_upd (h := w.heap) hi.nd (hi.mem hb) none
      have : width (none : Option (Cell V)) = 0 := rfl
      omega
    · intro _; simp only [World.setHeap_heap, upd_upd]; exact at_free hb hobj
  · rw [if_neg hz2, wp_pure]
    refine ⟨_, rfl, ?_, ?_, ?_, ?_⟩
    · refine hi.blk hb rfl rfl ?_ ?_ ?_ ?_ (fun _ _ => Iff.rfl) ?_
      · intro k d hd
        have : ind k d (.wk, x) = 0 := by simp [ind, Ne.symm hd]
        omega
      · simp only [his]; omega
      · simp only [ind_self]; omega
      · intro hD
        have := hi.life _ _ hb hD
        refine ⟨this.1, ?_⟩
        show 0 < c.use + (c.weak - 1)
        omega
      · intro hD
        obtain ⟨c', e1, e2, e3⟩ := hi.dying _ hD
        rw [hb] at e1; cases e1; exact ⟨e2, e3⟩
    · refine ⟨?_, ?_, ?_⟩
      · intro p hp; rw [upd_other]; rintro rfl; exact hp _ hb
      · intro p e _ hp
        by_cases hpx : p = x.ref
        · subst hpx; rw [hb] at hp; cases hp; right; exact ⟨_, upd_same .., .inl rfl⟩
        · right; rw [upd_other _ _ hpx]; exact ⟨e, hp, .inl rfl⟩
      · intro p e hpD _ hp
        by_cases hpx : p = x.ref
        · subst hpx; rw [hb] at hp; cases hp; exact ⟨_, upd_same .., rfl⟩
        · rw [upd_other _ _ hpx]; exact ⟨e, hp, rfl⟩
    · have := msr_upd (h := w.heap) hi.nd (hi.mem hb) (some (.blk { c with weak := c.weak - 1 }))
      rw [hb] at this; simp only [width] at this; omega
    · intro _; exact at_blk hb rfl

end

/-- Specification of `release` for memory of size at most `n`. -/
def RelSpec (V : Type) (S : Ptr → Prop) (h0 : Heap V) (n : Nat) : Prop :=
  ∀ (dom : List Ptr) (T : Kind → Ptr → Int) (D : List Ptr) (w : W V) (x : Hnd) (c : Blk V),
    msr dom w.heap ≤ n → Inv dom T D w.heap → w.heap x.ref = some (.blk c) → (∀ k b, ind k b (.sh, x) ≤ T k b) →
    Sub S h0 w.heap → (∀ d, d ∈ D → Reaches (At h0) d x.ref ∧ ¬ S d) →
    wp (release x.ref) w fun _ w' => ∃ h', w' = w.setHeap h' ∧ Inv dom (fun k b => T k b - ind k b (.sh, x)) D h' ∧
      Rel (fun _ => False) (fun b => b ∈ D ∨ S b) w.heap h' ∧ msr dom h' ≤ msr dom w.heap

/-- Specification of the destruction of the members of an object. -/
def MemSpec (V : Type) (S : Ptr → Prop) (h0 : Heap V) (n : Nat) : Prop :=
  ∀ (dom : List Ptr) (T : Kind → Ptr → Int) (D : List Ptr) (w : W V) (b : Ptr) (c : Blk V) (o : Obj V),
    msr dom w.heap ≤ n → Inv dom T D w.heap → b ∈ D → w.heap b = some (.blk c) → c.obj = some o → (∀ k b, 0 ≤ T k b) →
    Sub S h0 w.heap → (∀ d, d ∈ D → Reaches (At h0) d b ∧ ¬ S d) →
    wp (destroyMembers b o.mem.length) w fun _ w' => ∃ h' c', w' = w.setHeap h' ∧ Inv dom T D h' ∧
      h' b = some (.blk c') ∧ c'.obj = some { o with mem := [] } ∧
      Rel (· = b) (fun b => b ∈ D ∨ S b) w.heap h' ∧ msr dom h' ≤ msr dom w.heap

theorem wp_takeMem {w : W V} {b : Ptr} {c : Blk V} {o : Obj V} {i : Nat} {m : Kind × Hnd} (hb : w.heap b = some (.blk c))
    (ho : c.obj = some o) (hn : b ≠ .null) (hm : o.mem[i]? = some m) {Q : Kind × Hnd → W V → Prop} :
    wp (takeMem b i) w Q ↔ Q m (w.setHeap (upd w.heap b (some (.blk { c with obj := some { o with mem := o.mem.take i } })))) := by
  unfold takeMem
  rw [wp_bind, wp_rdBlk hb hn, wp_bind, wp_rdObj hb ho hn]
  simp only [hm]
  rw [wp_bind, wp_setBlk hb hn, wp_pure]

theorem memSpec {S : Ptr → Prop} {h0 : Heap V} (hheld : Held (At h0) S) (hcalm : Calm (At h0)) (n : Nat)
    (ihR : ∀ m, m < n → RelSpec V S h0 m) (ihM : ∀ m, m < n → MemSpec V S h0 m) : MemSpec V S h0 n := by
  intro dom T D w b c o hms hi hbD hb ho hT hsub hreach
  have hn := hi.ne_null hb
  rw [destroyMembers.eq_def]
  cases hlen : o.mem.length with
  | zero =>
    simp only []
    rw [wp_pure]
    have : o.mem = [] := List.length_eq_zero_iff.1 hlen
    exact ⟨w.heap, c, rfl, hi, hb, by rw [ho, ← this], Rel.refl _ _ _, Nat.le_refl _⟩
  | succ i =>
    simp only []
    obtain ⟨m, hm⟩ : ∃ m, o.mem[i]? = some m := ⟨o.mem[i]'(by omega), List.getElem?_eq_getElem (by omega)⟩
    rw [wp_bind, wp_takeMem hb ho hn hm]
    -- memory without the last member
    generalize hh1 : upd w.heap b (some (.blk { c with obj := some { o with mem := o.mem.take i } })) = h1
    have hb1 : h1 b = some (.blk { c with obj := some { o with mem := o.mem.take i } }) := by rw [← hh1, upd_same]
    have hcnt : ∀ k d, memRefs k d o.mem = memRefs k d (o.mem.take i) + ind k d m := fun k d => memRefs_take_succ k d hm hlen
    obtain ⟨e1, e2, e3⟩ : c.use = 0 ∧ c.obj ≠ none ∧ True := by
      obtain ⟨c', e1, e2, e3⟩ := hi.dying _ hbD
      rw [hb] at e1; cases e1; exact ⟨e2, e3, trivial⟩
    have hi1 : Inv dom (fun k d => T k d + ind k d m) D h1 := by
      rw [← hh1]
      refine hi.cut hb rfl rfl rfl ?_ ?_ (fun h => (h hbD).elim) (fun _ _ => Iff.rfl) ?_
      · intro k d; simp only [refsOf, ho]; have := hcnt k d; omega
      · intro k d; simp only [refsOf, ho]; have := hcnt k d; omega
      · intro _; exact ⟨e1, by simp⟩
    have hsub1 : Sub S w.heap h1 := by
      refine ⟨?_, ?_, ?_⟩
      · rintro k d j z ⟨c', o', f1, f2, f3⟩
        rw [← hh1] at f1
        by_cases hd : d = b
        · subst hd; rw [upd_same] at f1; cases f1; cases f2
          refine ⟨j, c, o, hb, ho, ?_⟩
          rw [List.getElem?_take] at f3
          split at f3
          · exact f3
          · cases f3
        · rw [upd_other _ _ hd] at f1; exact ⟨j, c', o', f1, f2, f3⟩
      · intro p k x hp
        rw [← hh1, upd_other, hp]; rintro rfl; rw [hb] at hp; cases hp
      · rintro k d j z hS ⟨c', o', f1, f2, f3⟩
        have hd : d ≠ b := by rintro rfl; exact (hreach _ hbD).2 hS
        exact ⟨c', o', by rw [← hh1, upd_other _ _ hd]; exact f1, f2, f3⟩
    have hm1 : msr dom h1 + 1 = msr dom w.heap := by
      have := msr_upd (h := w.heap) hi.nd (hi.mem hb) (some (.blk { c with obj := some { o with mem := o.mem.take i } }))
      rw [hh1, hb] at this
      simp only [width, ho, List.length_take] at this
      omega
    have hrel1 : Rel (· = b) (fun b => b ∈ D ∨ S b) w.heap h1 := by rw [← hh1]; exact Rel.upd (E := fun p => p = _) rfl hb _
    have hAtm : At w.heap m.1 (.mem b i) m.2 := ⟨c, o, hb, ho, hm⟩
    -- the rest of the members
    have cont : ∀ h2 c2, Inv dom T D h2 → h2 b = some (.blk c2) → c2.obj = some { o with mem := o.mem.take i } →
        Rel (· = b) (fun b => b ∈ D ∨ S b) w.heap h2 → msr dom h2 < msr dom w.heap → Sub S h0 h2 →
        wp (destroyMembers b i) (w.setHeap h2) fun _ w' => ∃ h' c', w' = w.setHeap h' ∧ Inv dom T D h' ∧
          h' b = some (.blk c') ∧ c'.obj = some { o with mem := [] } ∧
          Rel (· = b) (fun b => b ∈ D ∨ S b) w.heap h' ∧ msr dom h' ≤ msr dom w.heap := by
      intro h2 c2 hi2 hb2 hc2 hr2 hlt hs2
      have := ihM (msr dom h2) (by omega) dom T D (w.setHeap h2) b c2 _ (Nat.le_refl _) hi2 hbD hb2 hc2 hT hs2 hreach
      simp only [List.length_take, show min i o.mem.length = i by omega] at this
      refine wp_mono this ?_
      rintro _ w' ⟨h', c', rfl, f1, f2, f3, f4, f5⟩
      exact ⟨h', c', rfl, f1, f2, f3, hr2.trans f4, by
        have : msr dom h' ≤ msr dom h2 := f5
        omega⟩
    by_cases hnull : m.2.ref = .null
    · rw [if_pos hnull]
      refine cont h1 _ (hi1.congr ?_) hb1 rfl hrel1 (by omega) (hsub.trans hsub1)
      intro k d hd
      have : ind k d m = 0 := by
        unfold ind; rw [if_neg]; rintro ⟨-, rfl⟩; exact hd hnull
      omega
    · rw [if_neg hnull]
      obtain ⟨cm, hcm⟩ := hi.target hAtm hnull
      have hcm1 : ∃ cm1, h1 m.2.ref = some (.blk cm1) := by
        rw [← hh1]
        by_cases hd : m.2.ref = b
        · rw [hd]; exact ⟨_, upd_same ..⟩
        · exact ⟨cm, by rw [upd_other _ _ hd]; exact hcm⟩
      obtain ⟨cm1, hcm1⟩ := hcm1
      obtain ⟨mk, mx⟩ := m
      cases mk with
      | sh =>
        simp only []
        rw [wp_bind]
        have hr := ihR (msr dom h1) (by omega) dom _ D (w.setHeap h1) mx cm1 (Nat.le_refl _) hi1 hcm1 (by
          intro k d; have := hT k d; omega) (hsub.trans hsub1) (by
          intro d hd
          obtain ⟨j, hj⟩ := hsub.mem _ _ _ _ hAtm
          exact ⟨.step (hreach d hd).1 ⟨j, mx, hj, rfl⟩, (hreach d hd).2⟩)
        refine wp_mono hr ?_
        rintro _ w' ⟨h2, rfl, f1, f2, f3⟩
        obtain ⟨c2, g1, g2⟩ := f2.dy b _ (.inl hbD) (fun h => h) hb1
        have f3 : msr dom h2 ≤ msr dom h1 := f3
        refine cont h2 c2 (f1.congr ?_) g1 g2 (hrel1.trans (f2.weaken (fun _ h => h.elim) (fun _ h _ => h))) (by omega) ((hsub.trans hsub1).trans (f2.sub fun _ h => .inr h))
        intro k d hd; omega
      | wk =>
        simp only []
        rw [wp_bind]
        have hr := wp_weakRelease (w := w.setHeap h1) (x := mx) hi1 hcm1 (by
          intro k d; have := hT k d; omega) (by
          intro hxD
          obtain ⟨j, hj⟩ := hsub.mem _ _ _ _ hAtm
          obtain ⟨p, z', q1, q2⟩ := hcalm mx.ref b j mx hnull (hreach _ hxD).1 hj rfl
          have q3 : At h1 .wk (.var p) z' := hsub1.var _ _ _ (hsub.var _ _ _ q1)
          have q4 := hi1.tot_ge q3
          rw [q2] at q4
          have q5 := hi1.weak mx.ref _ hcm1
          rw [ind_self] at q5
          have := hT .wk mx.ref
          omega) (K := fun b => b ∈ D ∨ S b) (by
          rintro (h | h)
          · exact .inl h
          · right
            obtain ⟨l, z, q1, q2⟩ := (hsub.trans hsub1).owner hheld h
            have q3 := hi1.tot_ge q1
            rw [q2] at q3
            have q4 := hi1.use mx.ref _ hcm1
            have := hT .sh mx.ref
            omega)
        refine wp_mono hr ?_
        rintro _ w' ⟨h2, rfl, f1, f2, f3, -⟩
        obtain ⟨c2, g1, g2⟩ := f2.dy b _ (.inl hbD) (fun h => h) hb1
        have f3 : msr dom h2 ≤ msr dom h1 := f3
        refine cont h2 c2 (f1.congr ?_) g1 g2 (hrel1.trans (f2.weaken (fun _ h => h.elim) (fun _ h _ => h))) (by omega) ((hsub.trans hsub1).trans (f2.sub fun _ h => .inr h))
        intro k d hd; omega

theorem relSpec {S : Ptr → Prop} {h0 : Heap V} (hheld : Held (At h0) S) (n : Nat) (hM : MemSpec V S h0 n) : RelSpec V S h0 n := by
  intro dom T D w x c hms hi hb hT hsub hreach
  have hn := hi.ne_null hb
  have h1 := hi.weak _ _ hb
  have h2 := hi.use _ _ hb
  have hTw := hT .wk x.ref
  have hTs := hT .sh x.ref
  rw [ind_self] at hTs
  have hiw : ∀ d, ind .wk d (.sh, x) = 0 := by intro d; simp [ind]
  rw [hiw] at hTw
  have hD : x.ref ∉ D := by
    intro hh
    obtain ⟨c', e1, e2, -⟩ := hi.dying _ hh
    rw [hb] at e1; cases e1; omega
  have hlife := hi.life _ _ hb hD
  have hno : ∀ k d, d ≠ x.ref → ind k d (.sh, x) = 0 := by intro k d hd; simp [ind, Ne.symm hd]
  have hT0 : ∀ k d, 0 ≤ T k d - ind k d (.sh, x) := fun k d => by have := hT k d; omega
  rw [release.eq_def, wp_bind, wp_rdBlk hb hn, wp_bind, wp_assertM]
  refine ⟨by simp; omega, ?_⟩
  rw [wp_bind, wp_setBlk hb hn]
  by_cases hz : c.use - 1 = 0
  · rw [if_pos hz]
    obtain ⟨o, ho⟩ : ∃ o, c.obj = some o := by
      cases ho : c.obj with
      | some o => exact ⟨o, rfl⟩
      | none => exact ((hlife.1.2 (by omega)) ho).elim
    generalize hh1 : upd w.heap x.ref (some (.blk { c with use := c.use - 1 })) = h1'
    have hb1 : h1' x.ref = some (.blk { c with use := c.use - 1 }) := by rw [← hh1, upd_same]
    have hi1 : Inv dom (fun k d => T k d - ind k d (.sh, x)) (x.ref :: D) h1' := by
      rw [← hh1]
      refine hi.blk hb rfl rfl ?_ ?_ ?_ ?_ ?_ ?_
      · intro k d hd; have := hno k d hd; omega
      · simp only [ind_self]; omega
      · simp only [hiw]; omega
      · intro hh; exact (hh List.mem_cons_self).elim
      · intro d hd; simp [hd]
      · intro _; exact ⟨hz, by simp [ho]⟩
    have hxS : ¬ S x.ref := by
      intro h
      obtain ⟨l, z, q1, q2⟩ := hsub.owner hheld h
      have q3 := hi.tot_ge q1
      rw [q2] at q3
      omega
    have hsub1 : Sub S w.heap h1' := by
      refine ⟨?_, ?_, ?_⟩
      · rintro k d j z ⟨c', o', f1, f2, f3⟩
        rw [← hh1] at f1
        by_cases hd : d = x.ref
        · subst hd; rw [upd_same] at f1; cases f1
          exact ⟨j, c, o', hb, f2, f3⟩
        · rw [upd_other _ _ hd] at f1; exact ⟨j, c', o', f1, f2, f3⟩
      · intro p k y hp
        rw [← hh1, upd_other, hp]; rintro rfl; rw [hb] at hp; cases hp
      · rintro k d j z hS ⟨c', o', f1, f2, f3⟩
        have hd : d ≠ x.ref := by rintro rfl; exact hxS hS
        exact ⟨c', o', by rw [← hh1, upd_other _ _ hd]; exact f1, f2, f3⟩
    have hm1 : msr dom h1' = msr dom w.heap := by
      have := msr_upd (h := w.heap) hi.nd (hi.mem hb) (some (.blk { c with use := c.use - 1 }))
      rw [hh1, hb] at this; simp only [width] at this; omega
    have hMem := hM dom _ (x.ref :: D) (w.setHeap h1') x.ref _ o (by show msr dom h1' ≤ n; omega) hi1 List.mem_cons_self hb1 ho hT0
      (hsub.trans hsub1) (by
        intro d hd
        rcases List.mem_cons.1 hd with rfl | hd
        · exact ⟨.refl _, hxS⟩
        · exact hreach d hd)
    rw [wp_bind, destroyValue.eq_def, wp_bind, wp_rdObj (c := { c with use := c.use - 1 }) hb1 ho hn, wp_bind]
    refine wp_mono hMem ?_
    rintro _ w' ⟨h', c', rfl, f1, f2, f3, f4, f5⟩
    have f5 : msr dom h' ≤ msr dom h1' := f5
    obtain ⟨c'', e1, e2, -⟩ := f1.dying _ List.mem_cons_self
    rw [f2] at e1; cases e1
    unfold endObj
    rw [wp_bind, wp_rdBlk f2 hn, wp_setBlk f2 hn, wp_bind, wp_rdBlk (upd_same ..) hn]
    have hrelx : ∀ cc, (cc = none ∨ ∃ d : Blk V, cc = some (.blk d) ∧ d.obj = none) → Rel (fun _ => False) (fun b => b ∈ D ∨ S b) w.heap (upd h' x.ref cc) := by
      intro cc hcc
      have r0 : Rel (· = x.ref) (fun b => b ∈ D ∨ S b) w.heap h' := by
        refine Rel.trans (h' := h1') ?_ (f4.weaken (fun _ h => h) (fun b hb _ => hb.imp_left (List.mem_cons_of_mem _)))
        rw [← hh1]; exact Rel.upd (E := fun p => p = _) rfl hb _
      refine ⟨?_, ?_, ?_⟩
      · intro p hp
        rw [upd_other]
        · exact r0.other p hp
        · rintro rfl; exact hp _ hb
      · intro p e _ hp
        by_cases hpx : p = x.ref
        · subst hpx
          rw [upd_same]
          rcases hcc with rfl | ⟨d, rfl, hd⟩
          · exact .inl rfl
          · exact .inr ⟨d, rfl, .inr hd⟩
        · rw [upd_other _ _ hpx]; exact r0.blk p e hpx hp
      · intro p e hpD _ hp
        have hpx : p ≠ x.ref := by rintro rfl; exact hpD.elim hD hxS
        rw [upd_other _ _ hpx]; exact r0.dy p e hpD hpx hp
    have htots : tot dom h' .sh x.ref = 0 := by
      have q1 := f1.use _ _ f2
      have q2 := hT0 .sh x.ref
      omega
    have hmw : ∀ cc, (cc = none ∨ ∃ d : Blk V, cc = some (.blk d) ∧ d.obj = none) → msr dom (upd h' x.ref cc) ≤ msr dom w.heap := by
      intro cc hcc
      have q1 := msr_upd (h := h') f1.nd (f1.mem f2) cc
      have q2 : width cc = 0 := by
        rcases hcc with rfl | ⟨d, rfl, hd⟩
        · rfl
        · simp [width, hd]
      omega
    by_cases hwk : c'.weak = 0
    · rw [if_pos hwk]
      obtain ⟨a, ha⟩ := hi.shBlk _ _ hb
      rw [wp_destroySelf (c := { c' with obj := none }) (upd_same ..) ha (show c'.owner = _ from f1.owner _ _ f2)]
      refine ⟨_, rfl, ?_, ?_, ?_⟩
      · simp only [World.setHeap_heap, upd_upd]
        refine f1.free f2 (.inr ⟨_, f3, rfl⟩) ?_ ?_
        · intro k; cases k
          · exact htots
          · have q1 := f1.weak _ _ f2
            have q2 := hT0 .wk x.ref
            omega
        · intro d
          constructor
          · intro h; exact ⟨List.mem_cons_of_mem _ h, by rintro rfl; exact hD h⟩
          · rintro ⟨h, hne⟩; exact (List.mem_cons.1 h).resolve_left hne
      · simp only [World.setHeap_heap, upd_upd]; exact hrelx _ (.inl rfl)
      · simp only [World.setHeap_heap, upd_upd]; exact hmw _ (.inl rfl)
    · rw [if_neg hwk, wp_pure]
      refine ⟨_, rfl, ?_, ?_, ?_⟩
      · refine f1.cut f2 rfl rfl rfl ?_ ?_ ?_ ?_ ?_
        · intro k d; simp [refsOf]
        · intro k d; simp [refsOf, f3, memRefs]; 
        · intro _
          refine ⟨⟨fun h => (h rfl).elim, fun h => ?_⟩, ?_⟩
          · have h : 0 < c'.use := h
            omega
          · show 0 < c'.use + c'.weak
            omega
        · intro d hd; simp [hd]
        · intro h; exact (hD h).elim
      · exact hrelx _ (.inr ⟨_, rfl, rfl⟩)
      · exact hmw _ (.inr ⟨_, rfl, rfl⟩)
  · rw [if_neg hz, wp_pure]
    refine ⟨_, rfl, ?_, ?_, ?_⟩
    · refine hi.blk hb rfl rfl ?_ ?_ ?_ ?_ (fun _ _ => Iff.rfl) (fun h => (hD h).elim)
      · intro k d hd; have := hno k d hd; omega
      · simp only [ind_self]; omega
      · simp only [hiw]; omega
      · intro _
        refine ⟨⟨fun _ => ?_, fun _ => hlife.1.2 (by omega)⟩, ?_⟩
        · show 0 < c.use - 1
          omega
        · show 0 < c.use - 1 + c.weak
          omega
    · refine ⟨?_, ?_, ?_⟩
      · intro p hp; rw [upd_other]; rintro rfl; exact hp _ hb
      · intro p e _ hp
        by_cases hpx : p = x.ref
        · subst hpx; rw [hb] at hp; cases hp; right; exact ⟨_, upd_same .., .inl rfl⟩
        · right; rw [upd_other _ _ hpx]; exact ⟨e, hp, .inl rfl⟩
      · intro p e hpD _ hp
        by_cases hpx : p = x.ref
        · subst hpx; rw [hb] at hp; cases hp; exact ⟨_, upd_same .., rfl⟩
        · rw [upd_other _ _ hpx]; exact ⟨e, hp, rfl⟩
    · have := msr_upd (h := w.heap) hi.nd (hi.mem hb) (some (.blk { c with use := c.use - 1 }))
      rw [hb] at this; simp only [width] at this; omega

theorem specs {S : Ptr → Prop} {h0 : Heap V} (hheld : Held (At h0) S) (hcalm : Calm (At h0)) :
    ∀ n, RelSpec V S h0 n ∧ MemSpec V S h0 n := by
  intro n
  induction n using Nat.strongRecOn with
  | ind n ih =>
    have hM := memSpec hheld hcalm n (fun m hm => (ih m hm).1) (fun m hm => (ih m hm).2)
    exact ⟨relSpec hheld n hM, hM⟩

/-- `release` from a state in which no object is being destroyed. -/
theorem wp_release {S : Ptr → Prop} {dom : List Ptr} {T : Kind → Ptr → Int} {w : W V} {x : Hnd} {c : Blk V} (hi : Inv dom T [] w.heap)
    (hb : w.heap x.ref = some (.blk c)) (hT : ∀ k b, ind k b (.sh, x) ≤ T k b) (hheld : Held (At w.heap) S) (hcalm : Calm (At w.heap)) :
    wp (release x.ref) w fun _ w' => ∃ h', w' = w.setHeap h' ∧ Inv dom (fun k b => T k b - ind k b (.sh, x)) [] h' ∧
      Rel (fun _ => False) S w.heap h' ∧ msr dom h' ≤ msr dom w.heap := by
  refine wp_mono ((specs hheld hcalm (msr dom w.heap)).1 dom T [] w x c (Nat.le_refl _) hi hb hT (Sub.refl _ _) (by intro d hd; cases hd)) ?_
  rintro _ w' ⟨h', h1, h2, h3, h4⟩
  exact ⟨h', h1, h2, h3.weaken (fun _ h => h) (fun _ h _ => .inr h), h4⟩

end Nestl.SP
