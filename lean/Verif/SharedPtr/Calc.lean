import Verif.SharedPtr.Release
set_option autoImplicit false
/-
Rules for reasoning about sequences of handle operations.
-/
namespace Nestl.SP

variable {V : Type}

/-- The handle at `l` is set to `y`. -/
def Hs.put (A : Hs) (k : Kind) (l : Loc) (y : Hnd) : Hs := fun k' l' z => if l' = l then k' = k ∧ z = y else A k' l' z

/-- The handle at `l` ceases to exist. -/
def Hs.del (A : Hs) (l : Loc) : Hs := fun k' l' z => l' ≠ l ∧ A k' l' z

theorem Hs.put_self (A : Hs) (k l y) : (A.put k l y) k l y := by simp [Hs.put]

theorem Hs.put_ne {A : Hs} {k l y k' l' z} (hne : l' ≠ l) (hz : A k' l' z) : (A.put k l y) k' l' z := by
  simp [Hs.put, hne, hz]

theorem Hs.put_put (A : Hs) (k l y z) : (A.put k l y).put k l z = A.put k l z := by
  funext k' l' z'; simp only [Hs.put]; split <;> rfl

theorem Hs.put_same {A : Hs} {k l y} (hd : ∀ k' z, A k' l z → k' = k ∧ z = y) (hy : A k l y) : A.put k l y = A := by
  funext k' l' z; simp only [Hs.put]
  split
  · next h =>
    subst h
    apply propext
    constructor
    · rintro ⟨rfl, rfl⟩; exact hy
    · exact hd k' z
  · rfl

/-- The same program, later; no allocation, no construction in between. -/
structure Fr (w w' : W V) : Prop where
  env : w'.env = w.env
  err : w'.err = w.err
  nAlloc : w'.nAlloc = w.nAlloc
  nCtor : w'.nCtor = w.nCtor
  nCmp : w'.nCmp = w.nCmp
  sp : w.sp ≤ w'.sp
  dyn : ∀ a, w.heap (.dyn a) = none → w'.heap (.dyn a) = none

theorem Fr.refl (w : W V) : Fr w w := ⟨rfl, rfl, rfl, rfl, rfl, Nat.le_refl _, fun _ h => h⟩
theorem Fr.trans {w w' w'' : W V} (h : Fr w w') (h' : Fr w' w'') : Fr w w'' :=
  ⟨h'.env.trans h.env, h'.err.trans h.err, h'.nAlloc.trans h.nAlloc, h'.nCtor.trans h.nCtor, h'.nCmp.trans h.nCmp,
    Nat.le_trans h.sp h'.sp, fun a ha => h'.dyn a (h.dyn a ha)⟩

/-- No block is freed. -/
def Kp (w w' : W V) : Prop := ∀ b, (∃ c, w.heap b = some (.blk c)) → ∃ c, w'.heap b = some (.blk c)

theorem Kp.trans {w w' w'' : W V} (h : Kp w w') (h' : Kp w' w'') : Kp w w'' := fun b hb => h' b (h b hb)

/-- `T` references are in transit, `A` are the handles, `B` the objects, and the blocks in `L` have owners (of kind
`sh`) or at least exist (kind `wk`). -/
structure St (T : Kind → Ptr → Int) (A : Hs) (B : Ptr → V → Prop) (L : Kind → Ptr → Prop) (w : W V) : Prop where
  inv : ∃ dom, Inv dom T [] w.heap
  fresh : ∀ i, w.sp ≤ i → w.heap (.stk i) = none
  at_ : At w.heap = A
  val : Val w.heap = B
  live : ∀ k b, L k b → ∃ c, w.heap b = some (.blk c) ∧ (k = .sh → 0 < c.use)

/-- Every target has a block. -/
def L0 (A : Hs) : Kind → Ptr → Prop := fun k b => b ≠ .null ∧ ∃ l z, A k l z ∧ z.ref = b

section
variable {T T' : Kind → Ptr → Int} {A A' : Hs} {B : Ptr → V → Prop} {L : Kind → Ptr → Prop} {w : W V}

theorem St.null (s : St T A B L w) : w.heap .null = none := let ⟨_, hi⟩ := s.inv; hi.null

theorem St.det (s : St T A B L w) {k k' : Kind} {l : Loc} {x y : Hnd} (hx : A k l x) (hy : A k' l y) : k' = k ∧ y = x := by
  have hx : At w.heap k l x := by rw [s.at_]; exact hx
  have hy : At w.heap k' l y := by rw [s.at_]; exact hy
  obtain ⟨rfl, rfl⟩ := At.det hx hy
  exact ⟨rfl, rfl⟩

theorem St.congr (s : St T A B L w) (hT : ∀ k b, b ≠ .null → T k b = T' k b) : St T' A B L w :=
  { s with inv := let ⟨d, hi⟩ := s.inv; ⟨d, hi.congr hT⟩ }

theorem St.relive (s : St T A B L w) (hT : ∀ k b, b ≠ .null → 0 ≤ T k b) : St T A B (L0 A) w := by
  refine { s with live := ?_ }
  rintro k b ⟨hb, l, z, hz, rfl⟩
  rw [← s.at_] at hz
  obtain ⟨dom, hi⟩ := s.inv
  obtain ⟨c, hc⟩ := hi.target hz hb
  refine ⟨c, hc, ?_⟩
  rintro rfl
  have h1 := hi.tot_ge hz
  have h2 := hi.use _ _ hc
  have h3 := hT .sh z.ref hb
  omega

theorem St.weakenL (s : St T A B L w) {L' : Kind → Ptr → Prop} (hL : ∀ k b, L' k b → L k b) : St T A B L' w :=
  { s with live := fun k b h => s.live k b (hL k b h) }

theorem St.target (s : St T A B L w) {k : Kind} {l : Loc} {x : Hnd} (hx : A k l x) (hr : x.ref ≠ .null) :
    ∃ c, w.heap x.ref = some (.blk c) := by
  rw [← s.at_] at hx
  obtain ⟨dom, hi⟩ := s.inv
  exact hi.target hx hr

theorem St.wp_get (s : St T A B L w) {k : Kind} {l : Loc} {x : Hnd} (hx : A k l x) {Q : Hnd → W V → Prop} :
    wp (getH k l) w Q ↔ Q x w := wp_getH (by rw [s.at_]; exact hx) s.null

theorem at_putH_eq {h : Heap V} {k : Kind} {l : Loc} {x : Hnd} (hx : At h k l x) (y : Hnd) :
    At (putH h k l y) = Hs.put (At h) k l y := by
  funext k' l' z; exact propext (at_putH hx k' l' z)

theorem val_putH {h : Heap V} {k : Kind} {l : Loc} {x : Hnd} (hx : At h k l x) (y : Hnd) : Val (putH h k l y) = Val h := by
  funext b v
  apply propext
  cases l with
  | var p =>
    have hx : h p = some (.var k x) := hx
    by_cases hb : b = p
    · subst hb; simp [Val, putH, hx]
    · simp [Val, putH, upd_other _ _ hb]
  | mem d i =>
    obtain ⟨c, o, h1, h2, h3⟩ := hx
    rw [putH_mem h1 h2]
    by_cases hb : b = d
    · subst hb; simp [Val, h1, h2]
    · simp [Val, upd_other _ _ hb]

theorem putH_stk {h : Heap V} {k : Kind} {l : Loc} {x : Hnd} (hx : At h k l x) (y : Hnd) {p : Ptr} (hp : h p = none) :
    putH h k l y p = none := by
  cases l with
  | var q =>
    have hx : h q = some (.var k x) := hx
    have : p ≠ q := by rintro rfl; rw [hx] at hp; cases hp
    simp [putH, upd_other _ _ this, hp]
  | mem d i =>
    obtain ⟨c, o, h1, h2, h3⟩ := hx
    have : p ≠ d := by rintro rfl; rw [h1] at hp; cases hp
    rw [putH_mem h1 h2, upd_other _ _ this, hp]

/-- Overwriting a handle. -/
theorem St.wp_setRef (s : St T A B L w) {k : Kind} {l : Loc} {x y : Hnd} (hx : A k l x)
    (ht : y.ref ≠ .null → ∃ c, w.heap y.ref = some (.blk c)) {Q : Unit → W V → Prop}
    (hQ : ∀ w', Fr w w' → Kp w w' → St (fun k' b => T k' b + ind k' b (k, x) - ind k' b (k, y)) (A.put k l y) B L w' → Q () w') :
    wp (setH k l y) w Q := by
  have hx' : At w.heap k l x := by rw [s.at_]; exact hx
  rw [wp_setH hx' s.null]
  apply hQ
  · exact ⟨rfl, rfl, rfl, rfl, rfl, Nat.le_refl _, fun a ha => putH_stk hx' y ha⟩
  · rintro b ⟨c, hb⟩
    obtain ⟨c', h', -⟩ := blk_putH hx' y hb
    exact ⟨c', h'⟩
  obtain ⟨dom, hi⟩ := s.inv
  refine ⟨⟨dom, hi.put hx' ht⟩, fun i h => putH_stk hx' y (s.fresh i h), ?_, ?_, ?_⟩
  · rw [← s.at_]; exact at_putH_eq hx' y
  · rw [← s.val]; exact val_putH hx' y
  · intro k' b hb
    obtain ⟨c, h1, h2⟩ := s.live k' b hb
    obtain ⟨c', e1, e2, -⟩ := blk_putH hx' y h1
    exact ⟨c', e1, by rw [e2]; exact h2⟩

/-- Overwriting the `m_ptr` of a handle. -/
theorem St.wp_setPtr (s : St T A B L w) {k : Kind} {l : Loc} {x y : Hnd} (hx : A k l x) (hr : y.ref = x.ref) {Q : Unit → W V → Prop}
    (hQ : ∀ w', Fr w w' → Kp w w' → St T (A.put k l y) B L w' → Q () w') : wp (setH k l y) w Q := by
  refine s.wp_setRef hx (fun h => hr ▸ s.target hx (hr ▸ h)) ?_
  intro w' hf hk hs
  refine hQ w' hf hk (hs.congr ?_)
  intro k' b _
  have : ind k' b (k, x) = ind k' b (k, y) := by simp only [ind, hr]
  omega

/-- A new variable. -/
theorem St.wp_new (s : St T A B L w) {k : Kind} {y : Hnd} (ht : y.ref ≠ .null → ∃ c, w.heap y.ref = some (.blk c))
    {Q : Ptr → W V → Prop}
    (hQ : ∀ w', Fr w w' → Kp w w' → (∀ k z, ¬ A k (.var (.stk w.sp)) z) →
      St (fun k' b => T k' b - ind k' b (k, y)) (A.put k (.var (.stk w.sp)) y) B L w' → Q (.stk w.sp) w') :
    wp (newObj fun _ => Cell.var k y) w Q := by
  rw [wp_newObj]
  have hp := s.fresh w.sp (Nat.le_refl _)
  have hA : ∀ k z, ¬ A k (.var (.stk w.sp)) z := by
    intro k z hz
    rw [← s.at_] at hz
    have hz : w.heap _ = _ := hz
    rw [hp] at hz; cases hz
  have hblk : ∀ d e, upd w.heap (.stk w.sp) (some (Cell.var k y)) d = some (.blk e) ↔ w.heap d = some (.blk e) := by
    intro d e
    by_cases hd : d = .stk w.sp
    · subst hd; rw [upd_same, hp]; simp
    · rw [upd_other _ _ hd]
  apply hQ _ _ _ hA
  · obtain ⟨dom, hi⟩ := s.inv
    obtain ⟨dom', hi', -⟩ := hi.newVar (k := k) hp ht
    refine ⟨⟨dom', hi'⟩, ?_, ?_, ?_, ?_⟩
    · intro i h
      have h : w.sp + 1 ≤ i := h
      show upd _ _ _ _ = _
      rw [upd_other _ _ (by intro e; cases e; omega)]
      exact s.fresh i (by omega)
    · rw [← s.at_]
      funext k' l' z
      apply propext
      cases l' with
      | var q =>
        simp only [At, Hs.put, Loc.var.injEq, upd_apply]
        by_cases hq : q = .stk w.sp
        · simp only [hq, if_true, Option.some.injEq, Cell.var.injEq]
          exact ⟨fun ⟨a, b⟩ => ⟨a.symm, b.symm⟩, fun ⟨a, b⟩ => ⟨a.symm, b.symm⟩⟩
        · simp [hq]
      | mem d i => simp only [At, Hs.put, reduceCtorEq, if_false, hblk]
    · rw [← s.val]
      funext b v
      simp only [Val, hblk]
    · intro k' b hb
      obtain ⟨c, h1, h2⟩ := s.live k' b hb
      exact ⟨c, (hblk _ _).2 h1, h2⟩
  · refine ⟨rfl, rfl, rfl, rfl, rfl, Nat.le_succ _, fun a ha => ?_⟩
    show upd w.heap (.stk w.sp) (some (Cell.var k y)) (.dyn a) = _
    rw [upd_other _ _ (by intro e; cases e)]; exact ha
  · rintro b ⟨c, hb⟩; exact ⟨c, (hblk _ _).2 hb⟩

/-- The end of a variable. -/
theorem St.wp_drop (s : St T A B L w) {k : Kind} {p : Ptr} {x : Hnd} (hx : A k (.var p) x) {Q : Unit → W V → Prop}
    (hQ : ∀ w', Fr w w' → Kp w w' → St (fun k' b => T k' b + ind k' b (k, x)) (A.del (.var p)) B L w' → Q () w') :
    wp (dropObj p) w Q := by
  have hx' : w.heap p = some (.var k x) := by rw [← s.at_] at hx; exact hx
  rw [wp_dropObj hx']
  obtain ⟨dom, hi⟩ := s.inv
  have hblk : ∀ d e, upd w.heap p none d = some (.blk e) ↔ w.heap d = some (.blk e) := by
    intro d e
    by_cases hd : d = p
    · subst hd; rw [upd_same, hx']; simp
    · rw [upd_other _ _ hd]
  have hnone : ∀ q, w.heap q = none → upd w.heap p none q = none := by
    intro q hq
    by_cases hd : q = p
    · subst hd; rw [upd_same]
    · rw [upd_other _ _ hd]; exact hq
  apply hQ
  · exact ⟨rfl, rfl, rfl, rfl, rfl, Nat.le_refl _, fun a ha => hnone _ ha⟩
  · rintro b ⟨c, hb⟩; exact ⟨c, (hblk _ _).2 hb⟩
  refine ⟨⟨dom, hi.dropVar hx'⟩, fun i h => hnone _ (s.fresh i h), ?_, ?_, ?_⟩
  · rw [← s.at_]
    funext k' l' z
    apply propext
    cases l' with
    | var q =>
      simp only [At, Hs.del, ne_eq, Loc.var.injEq, World.setHeap_heap, upd_apply]
      by_cases hq : q = p
      · simp [hq]
      · simp [hq]
    | mem d i => simp only [At, Hs.del, World.setHeap_heap, ne_eq, reduceCtorEq, not_false_eq_true, true_and, hblk]
  · rw [← s.val]
    funext b v
    simp only [Val, World.setHeap_heap, hblk]
  · intro k' b hb
    obtain ⟨c, h1, h2⟩ := s.live k' b hb
    exact ⟨c, (hblk _ _).2 h1, h2⟩

/-- `add_ref` of a block with owners. -/
theorem St.wp_addRef (s : St T A B L w) {x : Hnd} (hL : L .sh x.ref) {Q : Unit → W V → Prop}
    (hQ : ∀ w', Fr w w' → Kp w w' → St (fun k' b => T k' b + ind k' b (.sh, x)) A B L w' → Q () w') :
    wp (addRef x.ref) w Q := by
  obtain ⟨c, hb, hu⟩ := s.live _ _ hL
  have hu := hu rfl
  obtain ⟨dom, hi⟩ := s.inv
  have hn := hi.ne_null hb
  have hl := hi.life _ _ hb (by simp)
  unfold addRef
  rw [wp_bind, wp_rdBlk hb hn, wp_setBlk hb hn]
  have hnone : ∀ q, w.heap q = none → upd w.heap x.ref (some (.blk { c with use := c.use + 1 })) q = none := by
    intro q hq
    rw [upd_other]
    · exact hq
    · rintro rfl; rw [hb] at hq; cases hq
  obtain ⟨ha, hv⟩ := at_blk (c' := { c with use := c.use + 1 }) hb rfl
  apply hQ
  · exact ⟨rfl, rfl, rfl, rfl, rfl, Nat.le_refl _, fun a ha => hnone _ ha⟩
  · rintro b ⟨d, hd⟩
    show ∃ c, upd _ _ _ _ = _
    by_cases hq : b = x.ref
    · subst hq; exact ⟨_, upd_same ..⟩
    · rw [upd_other _ _ hq]; exact ⟨d, hd⟩
  refine ⟨⟨dom, ?_⟩, fun i h => hnone _ (s.fresh i h), ?_, ?_, ?_⟩
  · refine hi.blk hb rfl rfl ?_ ?_ ?_ ?_ (fun _ _ => Iff.rfl) (by simp)
    · intro k d hd
      have : ind k d (.sh, x) = 0 := by simp [ind, Ne.symm hd]
      omega
    · simp only [ind_self]; omega
    · have : ind .wk x.ref (.sh, x) = 0 := by simp [ind]
      simp only [this]; omega
    · intro _
      refine ⟨⟨fun _ => ?_, fun _ => hl.1.2 hu⟩, ?_⟩
      · show 0 < c.use + 1
        omega
      · show 0 < c.use + 1 + c.weak
        omega
  · rw [← s.at_]; exact ha
  · rw [← s.val]; exact hv
  · intro k' b hb'
    obtain ⟨d, h1, h2⟩ := s.live k' b hb'
    show ∃ d, upd _ _ _ _ = _ ∧ _
    by_cases hq : b = x.ref
    · subst hq; exact ⟨_, upd_same .., fun _ => Nat.succ_pos _⟩
    · rw [upd_other _ _ hq]; exact ⟨d, h1, h2⟩

/-- `weak_add_ref`. -/
theorem St.wp_weakAddRef (s : St T A B L w) {x : Hnd} (hL : ∃ c, w.heap x.ref = some (.blk c)) {Q : Unit → W V → Prop}
    (hQ : ∀ w', Fr w w' → Kp w w' → St (fun k' b => T k' b + ind k' b (.wk, x)) A B L w' → Q () w') :
    wp (weakAddRef x.ref) w Q := by
  obtain ⟨c, hb⟩ := hL
  obtain ⟨dom, hi⟩ := s.inv
  have hn := hi.ne_null hb
  have hl := hi.life _ _ hb (by simp)
  unfold weakAddRef
  rw [wp_bind, wp_rdBlk hb hn, wp_setBlk hb hn]
  have hnone : ∀ q, w.heap q = none → upd w.heap x.ref (some (.blk { c with weak := c.weak + 1 })) q = none := by
    intro q hq
    rw [upd_other]
    · exact hq
    · rintro rfl; rw [hb] at hq; cases hq
  obtain ⟨ha, hv⟩ := at_blk (c' := { c with weak := c.weak + 1 }) hb rfl
  apply hQ
  · exact ⟨rfl, rfl, rfl, rfl, rfl, Nat.le_refl _, fun a ha => hnone _ ha⟩
  · rintro b ⟨d, hd⟩
    show ∃ c, upd _ _ _ _ = _
    by_cases hq : b = x.ref
    · subst hq; exact ⟨_, upd_same ..⟩
    · rw [upd_other _ _ hq]; exact ⟨d, hd⟩
  refine ⟨⟨dom, ?_⟩, fun i h => hnone _ (s.fresh i h), ?_, ?_, ?_⟩
  · refine hi.blk hb rfl rfl ?_ ?_ ?_ ?_ (fun _ _ => Iff.rfl) (by simp)
    · intro k d hd
      have : ind k d (.wk, x) = 0 := by simp [ind, Ne.symm hd]
      omega
    · have : ind .sh x.ref (.wk, x) = 0 := by simp [ind]
      simp only [this]; omega
    · simp only [ind_self]; omega
    · intro _
      refine ⟨hl.1, ?_⟩
      show 0 < c.use + (c.weak + 1)
      omega
  · rw [← s.at_]; exact ha
  · rw [← s.val]; exact hv
  · intro k' b hb'
    obtain ⟨d, h1, h2⟩ := s.live k' b hb'
    show ∃ d, upd _ _ _ _ = _ ∧ _
    by_cases hq : b = x.ref
    · subst hq
      rw [hb] at h1; cases h1
      exact ⟨_, upd_same .., h2⟩
    · rw [upd_other _ _ hq]; exact ⟨d, h1, h2⟩

/-- What remains of the handles `A` and the objects `B` after the destruction of objects; only doomed objects are
destroyed. -/
structure Eff (A : Hs) (B : Ptr → V → Prop) (A' : Hs) (B' : Ptr → V → Prop) : Prop where
  at_ : ∀ k l z, A' k l z ↔ A k l z ∧ ∀ b i, l = .mem b i → ∃ v, B' b v
  val : ∀ b v, B' b v ↔ B b v ∧ ∃ v', B' b v'
  live : ∀ b v, B b v → ¬ Doomed A b → ∃ v', B' b v'

theorem Rel.eff {h h' : Heap V} (hr : Rel (fun _ => False) (fun b => ¬ Doomed (At h) b) h h') : Eff (At h) (Val h) (At h') (Val h') := by
  have hblk : ∀ b c' o, h' b = some (.blk c') → c'.obj = some o → ∃ c, h b = some (.blk c) ∧ c.obj = some o := by
    intro b c' o h1 h2
    cases hb : h b with
    | none => have := hr.other b (by rw [hb]; simp); rw [this, hb] at h1; cases h1
    | some e =>
      cases e with
      | blk c =>
        rcases hr.blk b c (fun h => h) hb with e | ⟨c'', e1, e2⟩
        · rw [e] at h1; cases h1
        · rw [h1] at e1; cases e1
          rcases e2 with e2 | e2
          · exact ⟨c, rfl, by rw [← e2]; exact h2⟩
          · rw [e2] at h2; cases h2
      | var k' x => have := hr.other b (by rw [hb]; simp); rw [this, hb] at h1; cases h1
      | raw o' => have := hr.other b (by rw [hb]; simp); rw [this, hb] at h1; cases h1
      | lost => have := hr.other b (by rw [hb]; simp); rw [this, hb] at h1; cases h1
  refine ⟨?_, ?_, ?_⟩
  · intro k l z
    cases l with
    | var p =>
      constructor
      · intro hz
        refine ⟨?_, by intro b i h; cases h⟩
        have hz : h' p = some (.var k z) := hz
        show h p = _
        cases hp : h p with
        | none => have := hr.other p (by rw [hp]; simp); rw [this, hp] at hz; exact hz
        | some e =>
          cases e with
          | blk c =>
            rcases hr.blk p c (fun h => h) hp with e | ⟨c'', e1, e2⟩
            · rw [e] at hz; cases hz
            · rw [hz] at e1; cases e1
          | var k' x => have := hr.other p (by rw [hp]; simp); rw [this, hp] at hz; exact hz
          | raw o' => have := hr.other p (by rw [hp]; simp); rw [this, hp] at hz; exact hz
          | lost => have := hr.other p (by rw [hp]; simp); rw [this, hp] at hz; exact hz
      · rintro ⟨hz, -⟩
        have hz : h p = some (.var k z) := hz
        show h' p = _
        rw [hr.other p (by rw [hz]; simp), hz]
    | mem b i =>
      constructor
      · rintro ⟨c', o, h1, h2, h3⟩
        obtain ⟨c, e1, e2⟩ := hblk b c' o h1 h2
        refine ⟨⟨c, o, e1, e2, h3⟩, ?_⟩
        intro b' i' e; cases e
        exact ⟨o.val, c', o, h1, h2, rfl⟩
      · rintro ⟨⟨c, o, h1, h2, h3⟩, hv⟩
        obtain ⟨v, c', o', f1, f2, -⟩ := hv b i rfl
        obtain ⟨c1, e1, e2⟩ := hblk b c' o' f1 f2
        rw [h1] at e1; cases e1; rw [h2] at e2; cases e2
        exact ⟨c', o, f1, f2, h3⟩
  · intro b v
    constructor
    · intro hv
      refine ⟨?_, v, hv⟩
      obtain ⟨c', o, h1, h2, h3⟩ := hv
      obtain ⟨c, e1, e2⟩ := hblk b c' o h1 h2
      exact ⟨c, o, e1, e2, h3⟩
    · rintro ⟨⟨c, o, h1, h2, h3⟩, v', c', o', f1, f2, f3⟩
      obtain ⟨c1, e1, e2⟩ := hblk b c' o' f1 f2
      rw [h1] at e1; cases e1; rw [h2] at e2; cases e2
      exact ⟨c', o, f1, f2, h3⟩
  · rintro b v ⟨c, o, h1, h2, -⟩ hd
    obtain ⟨c', e1, e2⟩ := hr.dy b c hd (fun h => h) h1
    exact ⟨o.val, c', o, e1, by rw [e2]; exact h2, rfl⟩

theorem Rel.none {K : Ptr → Prop} {h h' : Heap V} (hr : Rel (fun _ => False) K h h') {p : Ptr} (hp : h p = .none) : h' p = .none := by
  rw [hr.other p (by rw [hp]; simp), hp]

/-- `release`. -/
theorem St.wp_release (s : St T A B L w) {x : Hnd} (hL : L .sh x.ref) (hcalm : Calm A) (hT : ∀ k b, ind k b (.sh, x) ≤ T k b)
    {Q : Unit → W V → Prop}
    (hQ : ∀ w' A' B', Fr w w' → St (fun k' b => T k' b - ind k' b (.sh, x)) A' B' (fun _ _ => False) w' → Eff A B A' B' → Q () w') :
    wp (release x.ref) w Q := by
  obtain ⟨c, hb, -⟩ := s.live _ _ hL
  obtain ⟨dom, hi⟩ := s.inv
  refine wp_mono (SP.wp_release hi hb hT (held_not_doomed _) (by rw [s.at_]; exact hcalm)) ?_
  rintro _ w' ⟨h', rfl, h1, h2, -⟩
  have := h2.eff
  rw [s.at_, s.val] at this
  exact hQ _ _ _ ⟨rfl, rfl, rfl, rfl, rfl, Nat.le_refl _, fun a ha => h2.none ha⟩
    ⟨⟨dom, h1⟩, fun i h => h2.none (s.fresh i h), rfl, rfl, fun _ _ h => h.elim⟩ this

/-- `weak_release`. -/
theorem St.wp_weakRelease (s : St T A B L w) {x : Hnd} (hL : ∃ c, w.heap x.ref = some (.blk c)) (hT : ∀ k b, ind k b (.wk, x) ≤ T k b)
    {Q : Unit → W V → Prop}
    (hQ : ∀ w', Fr w w' → St (fun k' b => T k' b - ind k' b (.wk, x)) A B (fun _ _ => False) w' → Q () w') :
    wp (weakRelease x.ref) w Q := by
  obtain ⟨c, hb⟩ := hL
  obtain ⟨dom, hi⟩ := s.inv
  refine wp_mono (SP.wp_weakRelease hi hb hT (by simp) (K := fun _ => False) (fun h => h.elim)) ?_
  rintro _ w' ⟨h', rfl, h1, h2, -, h3⟩
  obtain ⟨h3, h4⟩ := h3 (by simp)
  exact hQ _ ⟨rfl, rfl, rfl, rfl, rfl, Nat.le_refl _, fun a ha => h2.none ha⟩
    ⟨⟨dom, h1⟩, fun i h => h2.none (s.fresh i h), by rw [← s.at_]; exact h3, by rw [← s.val]; exact h4, fun _ _ h => h.elim⟩

end

end Nestl.SP
