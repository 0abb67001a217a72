import Verif.SharedPtr.AnyUse
set_option autoImplicit false
/-
Use counts in every execution that returns: the calls.
-/
namespace Nestl.SP

variable {V : Type}

/-- The state during a call: `T` as in `Us`; the handles outside of `E` have equal `m_ptr` and `m_refcount`. -/
structure S (T : Ptr → Int) (E : Loc → Prop) (w : W V) : Prop where
  us : ∃ dom, Us dom T w.heap
  null : w.heap .null = none
  fresh : ∀ i, w.sp ≤ i → w.heap (.stk i) = none
  same : ∀ k l x, At w.heap k l x → ¬ E l → x.ptr = x.ref
  life : Life [] w.heap

/-- No object is destroyed. -/
def Q0 (h h' : Heap V) : Prop := ∀ b v, Val h b v → Val h' b v

/-- No object is destroyed, no use count changes. -/
def Q1 (h h' : Heap V) : Prop := Q0 h h' ∧ ∀ b, useOf (h' b) = useOf (h b)

/-- No object is destroyed before its use count is 0. -/
def Keeps (h h' : Heap V) : Prop := ∀ b v, Val h b v → Val h' b v ∨ useOf (h' b) = 0

theorem Q0.refl (h : Heap V) : Q0 h h := fun _ _ h => h
theorem Q1.refl (h : Heap V) : Q1 h h := ⟨.refl h, fun _ => rfl⟩
theorem Q0.trans {h h' h'' : Heap V} (a : Q0 h h') (b : Q0 h' h'') : Q0 h h'' := fun x v hv => b x v (a x v hv)
theorem Q1.trans {h h' h'' : Heap V} (a : Q1 h h') (b : Q1 h' h'') : Q1 h h'' :=
  ⟨a.1.trans b.1, fun x => (b.2 x).trans (a.2 x)⟩
theorem Q0.keeps {h h' : Heap V} (a : Q0 h h') : Keeps h h' := fun b v hv => .inl (a b v hv)
theorem Q0.keeps_trans {h h' h'' : Heap V} (a : Q0 h h') (b : Keeps h' h'') : Keeps h h'' := fun x v hv => b x v (a x v hv)
theorem Keeps.q1 {h h' h'' : Heap V} (a : Keeps h h') (b : Q1 h' h'') : Keeps h h'' := by
  intro x v hv
  rcases a x v hv with h1 | h1
  · exact .inl (b.1 x v h1)
  · exact .inr ((b.2 x).trans h1)

theorem Dn.keeps {E : Ptr → Prop} {h h' : Heap V} (d : Dn E h h') : Keeps h h' := by
  rintro b v ⟨c, o, h1, h2, h3⟩
  cases hb : h' b with
  | none => exact .inr rfl
  | some x =>
    cases x with
    | blk c' =>
      rcases Nat.eq_zero_or_pos c'.use with h0 | h0
      · exact .inr h0
      · left
        obtain ⟨c0, f1, f2⟩ := d.blk b c' hb
        rw [h1] at f1; cases f1
        have := f2.val h0
        rw [h2] at this
        cases ho : c'.obj with
        | none => rw [ho] at this; cases this
        | some o' =>
          rw [ho] at this
          simp at this
          exact ⟨c', o', hb, ho, by rw [this]; exact h3⟩
    | _ => exact .inr rfl

section steps
variable {T T' : Ptr → Int} {E E' : Loc → Prop} {w : W V}

theorem S.congr (s : S T E w) (hT : ∀ b, b ≠ .null → T' b = T b) : S T' E w := by
  obtain ⟨⟨dom, u⟩, a, b, c, d⟩ := s
  exact ⟨⟨dom, u.congr hT⟩, a, b, c, d⟩

theorem S.tight (s : S T E w) (hE : ∀ k l x, E l → ¬ E' l → At w.heap k l x → x.ptr = x.ref) : S T E' w := by
  refine ⟨s.us, s.null, s.fresh, ?_, s.life⟩
  intro k l x hx hn
  by_cases e : E l
  · exact hE k l x e hn hx
  · exact s.same k l x hx e

theorem useOf_putH {h : Heap V} {k : Kind} {l : Loc} {x : Hnd} (hx : At h k l x) (y : Hnd) (b : Ptr) :
    useOf (putH h k l y b) = useOf (h b) := by
  cases l with
  | var p =>
    have hx : h p = some (.var k x) := hx
    simp only [putH, upd_apply]
    split
    · rename_i e; subst e; rw [hx]; rfl
    · rfl
  | mem d i =>
    obtain ⟨c, o, h1, h2, h3⟩ := hx
    rw [putH_mem h1 h2, upd_apply]
    split
    · rename_i e; subst e; rw [h1]; rfl
    · rfl

theorem q1_putH {h : Heap V} {k : Kind} {l : Loc} {x : Hnd} (hx : At h k l x) (y : Hnd) : Q1 h (putH h k l y) := by
  refine ⟨?_, useOf_putH hx y⟩
  rintro b v ⟨c, o, h1, h2, h3⟩
  cases l with
  | var p =>
    have hx : h p = some (.var k x) := hx
    have hp : b ≠ p := by rintro rfl; rw [hx] at h1; cases h1
    exact ⟨c, o, by simp [putH, upd_other _ _ hp, h1], h2, h3⟩
  | mem d i =>
    obtain ⟨c', o', f1, f2, f3⟩ := hx
    rw [putH_mem f1 f2]
    by_cases e : b = d
    · subst e
      rw [h1] at f1; cases f1; rw [h2] at f2; cases f2
      exact ⟨_, _, upd_same .., rfl, h3⟩
    · exact ⟨c, o, by rw [upd_other _ _ e, h1], h2, h3⟩

theorem none_putH {h : Heap V} {k : Kind} {l : Loc} {x : Hnd} (hx : At h k l x) (y : Hnd) (b : Ptr) (hb : h b = none) : putH h k l y b = none := by
  cases l with
  | var p =>
    have hx : h p = some (.var k x) := hx
    have hp : b ≠ p := by rintro rfl; rw [hx] at hb; cases hb
    simp [putH, upd_other _ _ hp, hb]
  | mem d i =>
    obtain ⟨c', o', f1, f2, f3⟩ := hx
    have hp : b ≠ d := by rintro rfl; rw [f1] at hb; cases hb
    rw [putH_mem f1 f2, upd_other _ _ hp, hb]

theorem Us.putH {dom : List Ptr} {h : Heap V} (u : Us dom T h) {k : Kind} {l : Loc} {x : Hnd} (hx : At h k l x) (y : Hnd) :
    Us dom (fun b => T b + ind .sh b (k, x) - ind .sh b (k, y)) (putH h k l y) := by
  cases l with
  | var p =>
    have hx : h p = some (.var k x) := hx
    refine u.upd (u.mem hx) _ ?_
    intro b _
    rw [hx]
    simp only [useOf, refsOf]
    split <;> omega
  | mem d i =>
    obtain ⟨c, o, h1, h2, h3⟩ := hx
    rw [putH_mem h1 h2]
    refine u.upd (u.mem h1) _ ?_
    intro b _
    have := memRefs_set .sh b (m' := (k, y)) h3
    rw [h1]
    simp only [useOf, refsOf, h2]
    split <;> omega

/-- Overwriting a handle. -/
theorem S.setH (s : S T E w) {k : Kind} {l : Loc} {y : Hnd} {Q : Unit → W V → Prop}
    (hE : ∀ l', l' ≠ l → ¬ E' l' → ¬ E l') (hy : ¬ E' l → y.ptr = y.ref)
    (h : ∀ x w', At w.heap k l x → S (fun b => T b + ind .sh b (k, x) - ind .sh b (k, y)) E' w' → Q1 w.heap w'.heap →
      (∀ k' l' z, At w'.heap k' l' z ↔ if l' = l then k' = k ∧ z = y else At w.heap k' l' z) → Q () w') : pw (setH k l y) w Q := by
  refine pw_setH ?_
  intro x hx
  refine h x _ hx ⟨?_, ?_, ?_, ?_, ?_⟩ (q1_putH hx y) (fun k' l' z => at_putH hx k' l' z)
  · obtain ⟨dom, u⟩ := s.us
    exact ⟨dom, u.putH hx y⟩
  · exact putH_null hx s.null y
  · intro i hi
    exact none_putH hx y _ (s.fresh i hi)
  · intro k' l' z hz hn
    have hz' := (at_putH hx k' l' z).1 hz
    by_cases e : l' = l
    · rw [if_pos e] at hz'; subst e; rw [hz'.2]; exact hy hn
    · rw [if_neg e] at hz'; exact s.same k' l' z hz' (hE l' e hn)
  · intro b c' hb ho hn
    obtain ⟨c, h1, h2, -, -, h3⟩ := blk_putH' hx y hb
    rw [h2]
    exact s.life b c h1 (fun e => ho (h3.2 e)) hn

theorem at_blk' {h : Heap V} {b : Ptr} {c c' : Blk V} (hb : h b = some (.blk c)) (ho : c'.obj = c.obj) (k : Kind) (l : Loc) (x : Hnd) :
    At (upd h b (some (.blk c'))) k l x ↔ At h k l x := by
  cases l with
  | var p =>
    show upd _ _ _ _ = _ ↔ h p = _
    by_cases e : p = b
    · subst e; rw [upd_same, hb]; simp
    · rw [upd_other _ _ e]
  | mem d i =>
    by_cases e : d = b
    · subst e
      constructor
      · rintro ⟨c1, o, h1, h2, h3⟩
        rw [upd_same] at h1; cases h1
        exact ⟨c, o, hb, by rw [← ho]; exact h2, h3⟩
      · rintro ⟨c1, o, h1, h2, h3⟩
        rw [hb] at h1; cases h1
        exact ⟨c', o, upd_same .., by rw [ho]; exact h2, h3⟩
    · simp only [At, upd_other _ _ e]

theorem q0_blk {h : Heap V} {b : Ptr} {c c' : Blk V} (hb : h b = some (.blk c)) (ho : c'.obj = c.obj) : Q0 h (upd h b (some (.blk c'))) := by
  rintro d v ⟨c1, o, h1, h2, h3⟩
  by_cases e : d = b
  · subst e; rw [hb] at h1; cases h1
    exact ⟨c', o, upd_same .., by rw [ho]; exact h2, h3⟩
  · exact ⟨c1, o, by rw [upd_other _ _ e]; exact h1, h2, h3⟩

/-- Changing counts. -/
theorem S.blk (s : S T E w) {b : Ptr} {c c' : Blk V} (hb : w.heap b = some (.blk c)) (ho : c'.obj = c.obj) (hu : c.use ≤ c'.use)
    (hT : ∀ x, T' x = T x + if x = b then (c'.use : Int) - c.use else 0) :
    S T' E (w.setHeap (upd w.heap b (some (.blk c')))) := by
  refine ⟨?_, ?_, ?_, ?_, ?_⟩
  · obtain ⟨dom, u⟩ := s.us
    refine ⟨dom, u.upd (u.mem hb) _ ?_⟩
    intro x _
    rw [hT, hb]
    simp only [useOf, refsOf, ho]
    split <;> omega
  · have : Ptr.null ≠ b := by rintro rfl; rw [s.null] at hb; cases hb
    show upd _ _ _ _ = _
    rw [upd_other _ _ this]; exact s.null
  · intro i hi
    have : Ptr.stk i ≠ b := by rintro rfl; rw [s.fresh i hi] at hb; cases hb
    show upd _ _ _ _ = _
    rw [upd_other _ _ this]; exact s.fresh i hi
  · intro k l x hx hn
    exact s.same k l x ((at_blk' hb ho k l x).1 hx) hn
  · intro d c1 hd hne hn
    by_cases e : d = b
    · subst e
      have hd : upd _ _ _ _ = _ := hd
      rw [upd_same] at hd; cases hd
      have := s.life d c hb (by rwa [← ho]) hn
      omega
    · have hd : upd _ _ _ _ = _ := hd
      rw [upd_other _ _ e] at hd; exact s.life d c1 hd hne hn

theorem S.addRef (s : S T E w) {b : Ptr} {Q : Unit → W V → Prop}
    (h : ∀ w', S (fun x => T x + one b x) E w' → Q0 w.heap w'.heap → (∀ k l z, At w'.heap k l z ↔ At w.heap k l z) → Q () w') :
    pw (addRef b) w Q := by
  refine pw_addRef ?_
  intro c hb _
  refine h _ (s.blk hb rfl (Nat.le_succ _) ?_) (q0_blk hb rfl) (at_blk' hb rfl)
  intro x
  simp only [one]
  split <;> omega

theorem S.weakAddRef (s : S T E w) {b : Ptr} {Q : Unit → W V → Prop}
    (h : ∀ w', S T E w' → Q0 w.heap w'.heap → (∀ k l z, At w'.heap k l z ↔ At w.heap k l z) → Q () w') :
    pw (weakAddRef b) w Q := by
  refine pw_weakAddRef ?_
  intro c hb _
  refine h _ (s.blk hb rfl (Nat.le_refl _) ?_) (q0_blk hb rfl) (at_blk' hb rfl)
  intro x
  split <;> simp

/-- A destruction. -/
theorem S.dn (s : S T E w) {w' : W V} {F : Ptr → Prop} (d : Dn F w.heap w'.heap) (ho : OnlyHeap w w') (hu : ∃ dom, Us dom T' w'.heap)
    (hl : Life [] w'.heap) : S T' E w' := by
  refine ⟨hu, ?_, ?_, ?_, hl⟩
  · apply Classical.byContradiction; intro h
    exact d.cov _ h s.null
  · intro i hi
    apply Classical.byContradiction; intro h
    refine d.cov _ h (s.fresh i ?_)
    rw [show w'.sp = w.sp from by rw [ho]; rfl] at hi; exact hi
  · intro k l x hx hn; exact s.same k l x (d.at hx) hn

theorem S.weakRelease (s : S T E w) {b : Ptr} {Q : Unit → W V → Prop}
    (h : ∀ w', S T E w' → Q0 w.heap w'.heap → (∀ k l z, At w'.heap k l z → At w.heap k l z) → Q () w') :
    pw (weakRelease b) w Q := by
  refine pw_weakRelease ?_
  intro c hb _
  obtain ⟨dom, u⟩ := s.us
  rcases u.wrel s.life hb with ⟨d, hd, -⟩ | ⟨u', l'⟩
  · cases hd
  · have d : Dn (fun _ => False) w.heap (upd w.heap b (wrel' c)) := wrel_dn hb
    refine h _ (s.dn d (.set _ _) ⟨dom, u'⟩ l') ?_ (fun k l z hz => d.at hz)
    rintro x v ⟨c1, o, h1, h2, h3⟩
    by_cases e : x = b
    · subst e
      rw [hb] at h1; cases h1
      have := s.life x c hb (by rw [h2]; simp) (by simp)
      refine ⟨{ c with weak := c.weak - 1 }, o, ?_, h2, h3⟩
      show upd _ _ _ _ = _
      rw [upd_same]; unfold wrel'
      rw [if_neg (by omega)]
    · exact ⟨c1, o, by show upd _ _ _ _ = _; rw [upd_other _ _ e]; exact h1, h2, h3⟩

theorem S.release (s : S T E w) {b : Ptr} {Q : Unit → W V → Prop}
    (h : ∀ w', S (fun x => T x - one b x) E w' → Dn (fun _ => False) w.heap w'.heap → Q () w') : pw (release b) w Q := by
  obtain ⟨dom, u⟩ := s.us
  have h1 := (pw_release_dn _ w dom u.nd u.cov (Nat.le_refl _)).1 b
  have h2 := (pw_release_use _ w dom T [] u s.life (by simp) (Nat.le_refl _)).1 b
  refine pw_mono (pw_and h1 h2) ?_
  rintro _ w' ⟨⟨e, d⟩, ⟨x, hx, -⟩ | ⟨u', l'⟩⟩
  · cases hx
  · exact h w' (s.dn d e ⟨dom, u'⟩ l') d

/-- A new variable. -/
theorem S.newVar (s : S T E w) {k : Kind} {x : Hnd} {Q : Ptr → W V → Prop} (hx : x.ptr = x.ref)
    (h : ∀ w', S (fun b => T b - ind .sh b (k, x)) E w' → Q1 w.heap w'.heap → (∀ k l, ∀ z, At w.heap k l z → l ≠ .var (.stk w.sp)) →
      (∀ k' l z, At w'.heap k' l z ↔ if l = .var (.stk w.sp) then k' = k ∧ z = x else At w.heap k' l z) → Q (.stk w.sp) w') :
    pw (newObj fun _ => .var k x) w Q := by
  have hf : w.heap (.stk w.sp) = none := s.fresh _ (Nat.le_refl _)
  have hat : ∀ k' l z, At (upd w.heap (.stk w.sp) (some (.var k x))) k' l z ↔
      if l = .var (.stk w.sp) then k' = k ∧ z = x else At w.heap k' l z := by
    intro k' l z
    cases l with
    | var p =>
      simp only [At, upd_apply, Loc.var.injEq]
      split
      · constructor
        · intro h; cases h; exact ⟨rfl, rfl⟩
        · rintro ⟨rfl, rfl⟩; rfl
      · rfl
    | mem d i =>
      rw [if_neg (by intro h; cases h)]
      by_cases e : d = .stk w.sp
      · subst e; simp [At, hf]
      · simp only [At, upd_other _ _ e]
  refine pw_newObj (h _ ⟨?_, ?_, ?_, ?_, ?_⟩ ⟨?_, ?_⟩ ?_ hat)
  · obtain ⟨dom, u⟩ := s.us
    obtain ⟨dom', u', hd⟩ := u.grow hf
    refine ⟨dom', u'.upd hd _ ?_⟩
    intro b _
    rw [hf]
    simp only [useOf, refsOf]
    split <;> omega
  · have hne : Ptr.null ≠ Ptr.stk w.sp := by intro h; cases h
    exact (upd_other w.heap (some (.var k x)) hne).trans s.null
  · intro i hi
    have hi : w.sp + 1 ≤ i := hi
    show upd w.heap (.stk w.sp) _ _ = _
    rw [upd_other _ _ (by intro h; cases h; omega)]; exact s.fresh i (by omega)
  · intro k' l z hz hn
    have hz := (hat k' l z).1 hz
    by_cases e : l = .var (.stk w.sp)
    · rw [if_pos e] at hz; rw [hz.2]; exact hx
    · rw [if_neg e] at hz; exact s.same k' l z hz hn
  · intro b c hb
    by_cases e : b = .stk w.sp
    · subst e
      have hb : upd w.heap (.stk w.sp) _ _ = _ := hb
      rw [upd_same] at hb; cases hb
    · have hb : upd w.heap (.stk w.sp) _ _ = _ := hb
      rw [upd_other _ _ e] at hb; exact s.life b c hb
  · rintro b v ⟨c, o, h1, h2⟩
    have : b ≠ .stk w.sp := by rintro rfl; rw [hf] at h1; cases h1
    exact ⟨c, o, by show upd w.heap (.stk w.sp) _ _ = _; rw [upd_other _ _ this]; exact h1, h2⟩
  · intro b
    show useOf (upd w.heap (.stk w.sp) _ _) = _
    rw [upd_apply]
    split
    · rename_i e; subst e; rw [hf]; rfl
    · rfl
  · intro k' l z hz e
    subst e
    have hz : w.heap _ = _ := hz
    rw [hf] at hz; cases hz

/-- The end of a variable. -/
theorem S.dropVar (s : S T E w) {k : Kind} {p : Ptr} {x : Hnd} {Q : Unit → W V → Prop} (hx : At w.heap k (.var p) x)
    (h : ∀ w', S (fun b => T b + ind .sh b (k, x)) E w' → Q1 w.heap w'.heap →
      (∀ k' l z, At w'.heap k' l z ↔ l ≠ .var p ∧ At w.heap k' l z) → Q () w') : pw (dropObj p) w Q := by
  have hx : w.heap p = some (.var k x) := hx
  have hat : ∀ k' l z, At (upd w.heap p none) k' l z ↔ l ≠ .var p ∧ At w.heap k' l z := by
    intro k' l z
    cases l with
    | var q =>
      simp only [At, upd_apply, ne_eq, Loc.var.injEq]
      split
      · simp_all
      · simp_all
    | mem d i =>
      by_cases e : d = p
      · subst e; simp [At, hx]
      · simp [At, upd_other _ _ e]
  refine pw_dropObj (h _ ⟨?_, ?_, ?_, ?_, ?_⟩ ⟨?_, ?_⟩ hat)
  · obtain ⟨dom, u⟩ := s.us
    refine ⟨dom, u.upd (u.mem hx) _ ?_⟩
    intro b _
    rw [hx]
    simp only [useOf, refsOf]
    split <;> omega
  · show upd _ _ _ _ = _
    rw [upd_apply]; split
    · rfl
    · exact s.null
  · intro i hi
    show upd _ _ _ _ = _
    rw [upd_apply]; split
    · rfl
    · exact s.fresh i hi
  · intro k' l z hz hn; exact s.same k' l z ((hat k' l z).1 hz).2 hn
  · intro b c hb
    have hb : upd _ _ _ _ = _ := hb
    by_cases e : b = p
    · subst e; simp at hb
    · rw [upd_other _ _ e] at hb; exact s.life b c hb
  · rintro b v ⟨c, o, h1, h2⟩
    have : b ≠ p := by rintro rfl; rw [hx] at h1; cases h1
    exact ⟨c, o, by show upd _ _ _ _ = _; rw [upd_other _ _ this]; exact h1, h2⟩
  · intro b
    show useOf (upd _ _ _ _) = _
    rw [upd_apply]
    split
    · rename_i e; subst e; rw [hx]; rfl
    · rfl

end steps

end Nestl.SP
