import Verif.SharedPtr.AnyOps
set_option autoImplicit false
/-
Use counts in every execution that returns: the calls.
-/
namespace Nestl.SP

variable {V : Type}

/-- No location. -/
def Nl : Loc → Prop := fun _ => False

/-- The handles after writing `y` to `l`. -/
abbrev PutAt (w w' : W V) (k : Kind) (l : Loc) (y : Hnd) : Prop :=
  ∀ k' l' z, At w'.heap k' l' z ↔ if l' = l then k' = k ∧ z = y else At w.heap k' l' z

theorem PutAt.self {w w' : W V} {k : Kind} {l : Loc} {y : Hnd} (h : PutAt w w' k l y) : At w'.heap k l y :=
  (h k l y).2 (by simp)

theorem PutAt.ne {w w' : W V} {k k' : Kind} {l l' : Loc} {y z : Hnd} (h : PutAt w w' k l y) (hl : l' ≠ l) (hz : At w.heap k' l' z) :
    At w'.heap k' l' z := (h k' l' z).2 (by rw [if_neg hl]; exact hz)

theorem PutAt.get {w w' : W V} {k k' : Kind} {l l' : Loc} {y z : Hnd} (h : PutAt w w' k l y) (hz : At w'.heap k' l' z) :
    if l' = l then k' = k ∧ z = y else At w.heap k' l' z := (h k' l' z).1 hz

theorem ind_ref (b : Ptr) (k : Kind) {x y : Hnd} (h : x.ref = y.ref) : ind .sh b (k, x) = ind .sh b (k, y) := by
  unfold ind; simp only [h]

theorem ind_wk (b : Ptr) (x : Hnd) : ind .sh b (.wk, x) = 0 := by
  unfold ind; rw [if_neg (fun h => nomatch h.1)]

theorem ind_sh (b : Ptr) (x : Hnd) : (ind .sh b (.sh, x) : Int) = one x.ref b := by
  unfold ind one
  by_cases e : b = x.ref
  · rw [if_pos e, if_pos ⟨rfl, e.symm⟩]; rfl
  · rw [if_neg e, if_neg (fun h => e h.2.symm)]; rfl

theorem ind_null' (b : Ptr) (k : Kind) {x : Hnd} (hb : b ≠ .null) (h : x.ref = .null) : ind .sh b (k, x) = 0 := by
  unfold ind; rw [if_neg (fun e => hb (e.2.symm.trans h))]

theorem one_null {b : Ptr} (hb : b ≠ .null) {x : Ptr} (h : x = .null) : one x b = 0 := by
  subst h; unfold one; rw [if_neg hb]

section
variable {T : Ptr → Int} {w : W V} {l m : Loc}

theorem S.swap (s : S T Nl w) {Q : Unit → W V → Prop}
    (h : ∀ x y w', At w.heap .sh l x → At w.heap .sh m y → S T Nl w' → Q1 w.heap w'.heap →
      (∀ k' l' z, At w'.heap k' l' z ↔ if l' = m then k' = .sh ∧ z = x else if l' = l then k' = .sh ∧ z = y else At w.heap k' l' z) → Q () w') :
    pw (swapShared l m) w Q := by
  unfold swapShared
  refine pw_bind (pw_getH ?_); intro a ha
  refine pw_bind (pw_getH ?_); intro b hb
  refine pw_bind (s.setH (E' := (· = l)) (fun l' h1 _ => id) (fun h => (h rfl).elim) ?_)
  intro a' w1 ha' s1 q1 p1
  obtain ⟨-, rfl⟩ := ha.det ha'
  have hab : m = l → a = b := by rintro rfl; exact (ha.det hb).2
  refine pw_bind (pw_getH ?_); intro b1 hb1
  have e1 : b1 = b := by
    have := PutAt.get p1 hb1
    by_cases e : m = l
    · rw [if_pos e] at this; rw [this.2, hab e]
    · rw [if_neg e] at this; exact (this.det hb).2
  subst e1
  refine pw_bind (s1.setH (E' := fun x => x = l ∨ x = m) (fun l' h1 h2 h3 => h2 (.inl h3)) (fun h => (h (.inr rfl)).elim) ?_)
  intro b' w2 hb' s2 q2 p2
  obtain ⟨-, rfl⟩ := hb1.det hb'
  refine pw_bind (pw_getH ?_); intro a2 ha2
  have e2 : a2 = ⟨b1.ptr, a.ref⟩ := by
    have := PutAt.get p2 ha2
    by_cases e : l = m
    · rw [if_pos e] at this; rw [this.2, hab e.symm]
    · rw [if_neg e] at this; exact (this.det (PutAt.self p1)).2
  subst e2
  refine pw_bind (pw_getH ?_); intro b2 hb2
  have e3 : b2 = ⟨a.ptr, b1.ref⟩ := (hb2.det (PutAt.self p2)).2
  subst e3
  refine pw_bind (s2.setH (E' := fun x => x = l ∨ x = m) (fun l' h1 h2 h3 => h2 h3) (fun h => (h (.inl rfl)).elim) ?_)
  intro a3 w3 ha3 s3 q3 p3
  obtain ⟨-, rfl⟩ := ha2.det ha3
  refine pw_bind (pw_getH ?_); intro b3 hb3
  have e4 : b3 = ⟨a.ptr, b1.ref⟩ := by
    have := PutAt.get p3 hb3
    by_cases e : m = l
    · rw [if_pos e] at this; rw [this.2, hab e]
    · rw [if_neg e] at this; exact (this.det hb2).2
  subst e4
  refine s3.setH (E' := (· = l)) (fun l' h1 h2 h3 => h3.elim h2 h1) (fun h => ?_) ?_
  · have := s.same _ _ _ ha (fun h => h); exact this
  intro b4 w4 hb4 s4 q4 p4
  obtain ⟨-, rfl⟩ := hb3.det hb4
  have key : ∀ k' l' z, At w4.heap k' l' z ↔ if l' = m then k' = .sh ∧ z = a else if l' = l then k' = .sh ∧ z = b1 else At w.heap k' l' z := by
    intro k' l' z
    rw [p4, p3, p2, p1]
    by_cases h1 : l' = m <;> by_cases h2 : l' = l <;> simp only [h1, h2, if_true, if_false]
  refine h a b1 w4 ha hb ?_ (q1.trans (q2.trans (q3.trans q4))) key
  refine (s4.tight ?_).congr ?_
  · intro k l' x e _ hx
    subst e
    have := (key _ _ _).1 hx
    split at this
    · rw [this.2]; exact s.same _ _ _ ha (fun h => h)
    · rw [if_pos rfl] at this; rw [this.2]; exact s.same _ _ _ hb (fun h => h)
  · intro b _
    simp only [ind_sh]; omega

theorem S.newHnd (s : S T Nl w) {k : Kind} {Q : Ptr → W V → Prop}
    (h : ∀ w', S T Nl w' → Q1 w.heap w'.heap → (∀ k l, ∀ z, At w.heap k l z → l ≠ .var (.stk w.sp)) → PutAt w w' k (.var (.stk w.sp)) .nil →
      Q (.stk w.sp) w') : pw (newObj fun _ => .var k .nil) w Q := by
  refine s.newVar rfl ?_
  intro w' s' q' f p
  refine h w' (s'.congr ?_) q' f p
  intro b hb
  simp [ind_null' b k (x := .nil) hb rfl]

theorem S.dropShared (s : S T Nl w) {p : Ptr} {Q : Unit → W V → Prop}
    (h : ∀ w', S T Nl w' → Keeps w.heap w'.heap → (∀ k l z, At w'.heap k l z → At w.heap k l z) → Q () w') : pw (dropShared p) w Q := by
  refine pw_bind (pw_getH ?_); intro x hx
  refine pw_bind (s.dropVar hx ?_)
  intro w1 s1 q1 a1
  refine pw_ite (fun hn => pw_pure (h w1 (s1.congr ?_) q1.1.keeps fun k l z hz => ((a1 k l z).1 hz).2)) (fun hn => s1.release ?_)
  · intro b hb
    simp [ind_null' b .sh hb hn]
  · intro w2 s2 d2
    refine h w2 (s2.congr ?_) (q1.1.keeps_trans d2.keeps) fun k l z hz => ((a1 k l z).1 (d2.at hz)).2
    intro b _
    simp only [ind_sh]; omega

theorem S.moveShared (s : S T Nl w) {Q : Ptr → W V → Prop}
    (h : ∀ w', S T Nl w' → Q1 w.heap w'.heap → At w'.heap .sh l .nil → Q (.stk w.sp) w') : pw (moveShared l) w Q := by
  refine pw_bind (s.newHnd ?_)
  intro w1 s1 q1 f1 p1
  refine pw_bind (s1.swap ?_)
  intro x y w2 hx hy s2 q2 p2
  obtain ⟨-, rfl⟩ := hx.det (PutAt.self p1)
  exact pw_pure (h w2 s2 (q1.trans q2) ((p2 _ _ _).2 (by simp)))

theorem S.copyWk {β : Type} (s : S T Nl w) {k : Kind} {f : M (W V) β} {Q : β → W V → Prop}
    (h : ∀ y w', At w.heap k m y → S T Nl w' → Q1 w.heap w'.heap → PutAt w w' .wk l y → pw f w' Q) :
    pw (do
      let o ← getH k m
      let h ← getH .wk l
      SP.setH .wk l { h with ptr := o.ptr }
      let o ← getH k m
      let h ← getH .wk l
      SP.setH .wk l { h with ref := o.ref }
      f) w Q := by
  refine pw_bind (pw_getH ?_); intro o ho
  refine pw_bind (pw_getH ?_); intro x hx
  refine pw_bind (s.setH (E' := (· = l)) (fun l' h1 _ => id) (fun h => (h rfl).elim) ?_)
  intro x' w1 hx' s1 q1 p1
  obtain ⟨-, rfl⟩ := hx.det hx'
  refine pw_bind (pw_getH ?_); intro o1 ho1
  have e1 : o1 = o := by
    have := PutAt.get p1 ho1
    by_cases e : m = l
    · rw [if_pos e] at this; subst e; rw [this.2, (hx.det ho).2]
    · rw [if_neg e] at this; exact (this.det ho).2
  subst e1
  refine pw_bind (pw_getH ?_); intro x1 hx1
  have e2 : x1 = ⟨o1.ptr, x.ref⟩ := (hx1.det (PutAt.self p1)).2
  subst e2
  refine pw_bind (s1.setH (E' := Nl) (fun l' h1 _ h3 => h1 h3) (fun _ => s.same _ _ _ ho (fun h => h)) ?_)
  intro x2 w2 hx2 s2 q2 p2
  refine h o1 w2 ho (s2.congr ?_) (q1.trans q2) ?_
  · intro b _
    simp [ind_wk]
  · intro k' l' z
    rw [p2, p1]
    by_cases e : l' = l <;> simp only [e, if_true, if_false]

theorem S.moveWeak (s : S T Nl w) {Q : Ptr → W V → Prop}
    (h : ∀ w', S T Nl w' → Q1 w.heap w'.heap → Q (.stk w.sp) w') : pw (moveWeak l) w Q := by
  refine pw_bind (pw_getH ?_); intro x hx
  refine pw_bind (s.newVar (s.same _ _ _ hx (fun h => h)) ?_)
  intro w1 s1 q1 f1 p1
  refine pw_bind (pw_getH ?_); intro x1 hx1
  refine pw_bind (s1.setH (E' := (· = l)) (fun l' h1 _ => id) (fun h => (h rfl).elim) ?_)
  intro _ w2 _ s2 q2 p2
  refine pw_bind (pw_getH ?_); intro x2 hx2
  have e2 : x2 = ⟨.null, x1.ref⟩ := (hx2.det (PutAt.self p2)).2
  subst e2
  refine pw_bind (s2.setH (E' := Nl) (fun l' h1 _ h3 => h1 h3) (fun _ => rfl) ?_)
  intro _ w3 _ s3 q3 p3
  refine pw_pure (h w3 (s3.congr ?_) (q1.trans (q2.trans q3)))
  intro b _
  simp [ind_wk]

theorem S.dropWeak (s : S T Nl w) {p : Ptr} {Q : Unit → W V → Prop}
    (h : ∀ w', S T Nl w' → Q0 w.heap w'.heap → Q () w') : pw (dropWeak p) w Q := by
  refine pw_bind (pw_getH ?_); intro x hx
  refine pw_bind (s.dropVar hx ?_)
  intro w1 s1 q1 a1
  have s1 : S T Nl w1 := s1.congr (by intro b _; simp [ind_wk])
  refine pw_ite (fun hn => pw_pure (h w1 s1 q1.1)) (fun hn => s1.weakRelease ?_)
  intro w2 s2 q2 _
  exact h w2 s2 (q1.1.trans q2)

/-- A `shared_ptr` to the target of a handle. -/
theorem S.newRef (s : S T Nl w) {x : Hnd} (hx : x.ptr = x.ref) {Q : Ptr → W V → Prop}
    (h : ∀ w', S T Nl w' → Q0 w.heap w'.heap → Q (.stk w.sp) w') :
    pw (do
      let p ← newObj fun _ => .var .sh x
      if x.ref = .null then pure () else SP.addRef x.ref
      pure p) w Q := by
  refine pw_bind (s.newVar hx ?_)
  intro w1 s1 q1 f1 p1
  refine pw_ite (fun hn => pw_pure (h w1 (s1.congr ?_) q1.1)) (fun hn => pw_bind (s1.addRef ?_))
  · intro b hb
    simp [ind_null' b .sh hb hn]
  · intro w2 s2 q2 _
    refine pw_pure (h w2 (s2.congr ?_) (q1.1.trans q2))
    intro b _
    simp only [ind_sh]; omega

theorem S.assignSharedY (s : S T Nl w) {Q : Unit → W V → Prop}
    (h : ∀ w', S T Nl w' → Keeps w.heap w'.heap → Q () w') : pw (assignSharedY l m) w Q := by
  refine pw_bind (s.newHnd ?_)
  intro w1 s1 q1 f1 p1
  refine pw_bind (s1.swap ?_)
  intro x y w2 hx hy s2 q2 p2
  obtain ⟨-, rfl⟩ := hx.det (PutAt.self p1)
  have hl : At w2.heap .sh l .nil := (p2 _ _ _).2 (by simp)
  refine pw_bind (pw_getH ?_); intro x1 hx1
  obtain ⟨-, rfl⟩ := hl.det hx1
  refine pw_bind (pw_getH ?_); intro o ho
  refine pw_bind (s2.setH (E' := (· = l)) (fun l' h1 _ => id) (fun h => (h rfl).elim) ?_)
  intro x3 w3 hx3 s3 q3 p3
  obtain ⟨-, rfl⟩ := hl.det hx3
  refine pw_bind (pw_getH ?_); intro x4 hx4
  obtain ⟨-, rfl⟩ := hx4.det (PutAt.self p3)
  refine pw_bind (pw_getH ?_); intro o1 ho1
  have e1 : o1 = o := by
    have := PutAt.get p3 ho1
    by_cases e : m = l
    · rw [if_pos e] at this; subst e; rw [this.2, (hl.det ho).2]
    · rw [if_neg e] at this; exact (this.det ho).2
  subst e1
  refine pw_bind (s3.setH (E' := Nl) (fun l' h1 _ h3 => h1 h3) (fun _ => s2.same _ _ _ ho (fun h => h)) ?_)
  intro x5 w5 hx5 s5 q5 p5
  obtain ⟨-, rfl⟩ := hx5.det (PutAt.self p3)
  refine pw_bind (pw_getH ?_); intro z hz
  obtain ⟨-, rfl⟩ := hz.det (PutAt.self p5)
  have s6 : S (fun b => T b - one o1.ref b) Nl w5 := by
    refine s5.congr ?_
    intro b hb
    have h0 : (ind .sh b (.sh, Hnd.nil) : Int) = 0 := by rw [ind_null' b .sh (x := .nil) hb rfl]; rfl
    have h1 : (ind .sh b (.sh, ({ ptr := o1.ptr, ref := Hnd.nil.ref } : Hnd)) : Int) = 0 := by rw [ind_null' b .sh hb rfl]; rfl
    simp only [h0, h1, ind_sh]; omega
  have q6 := q1.trans (q2.trans (q3.trans q5))
  refine pw_ite (fun hn => ?_) (fun hn => pw_bind (s6.addRef ?_))
  · have s7 : S T Nl w5 := s6.congr (fun b hb => by rw [one_null hb hn]; omega)
    exact s7.dropShared fun w' s' k' _ => h w' s' (q6.1.keeps_trans k')
  · intro w7 s7 q7 _
    have s7 : S T Nl w7 := s7.congr (fun b hb => by show T b = T b - one o1.ref b + one o1.ref b; omega)
    exact s7.dropShared fun w' s' k' _ => h w' s' ((q6.1.trans q7).keeps_trans k')

theorem S.moveAssignShared (s : S T Nl w) {Q : Unit → W V → Prop}
    (h : ∀ w', S T Nl w' → Keeps w.heap w'.heap → Q () w') : pw (moveAssignShared l m) w Q := by
  refine pw_bind (s.moveShared (l := l) ?_)
  intro w1 s1 q1 hl1
  refine pw_bind (s1.dropShared ?_)
  intro w2 s2 k2 a2
  have hl2 : ∀ x, At w2.heap .sh l x → x = .nil := fun x hx => ((a2 _ _ _ hx).det hl1).2
  refine pw_bind (pw_getH ?_); intro o ho
  refine pw_bind (pw_getH ?_); intro x hx
  have := hl2 x hx; subst this
  refine pw_bind (s2.setH (E' := (· = l)) (fun l' h1 _ => id) (fun h => (h rfl).elim) ?_)
  intro x3 w3 hx3 s3 q3 p3
  have := hl2 x3 hx3; subst this
  refine pw_bind (pw_getH ?_); intro o3 ho3
  have e3 : o3 = o := by
    have := PutAt.get p3 ho3
    by_cases e : m = l
    · rw [if_pos e] at this; subst e; rw [this.2, hl2 o ho]
    · rw [if_neg e] at this; exact (this.det ho).2
  subst e3
  refine pw_bind (s3.setH (E' := fun x => x = l ∨ x = m) (fun l' h1 h2 h3 => h2 (.inl h3)) (fun h => (h (.inr rfl)).elim) ?_)
  intro o4 w4 ho4 s4 q4 p4
  obtain ⟨-, rfl⟩ := ho4.det ho3
  refine pw_bind (pw_getH ?_); intro o5 ho5
  obtain ⟨-, rfl⟩ := ho5.det (PutAt.self p4)
  refine pw_bind (pw_getH ?_); intro x5 hx5
  have e5 : x5 = ⟨o4.ptr, .null⟩ ∨ (l = m ∧ o4 = .nil ∧ x5 = .nil) := by
    have := PutAt.get p4 hx5
    by_cases e : l = m
    · rw [if_pos e] at this
      obtain ⟨-, h6⟩ := this
      subst e
      have h7 := hl2 _ ho
      exact .inr ⟨rfl, h7, by rw [h6, h7]; rfl⟩
    · rw [if_neg e] at this; exact .inl (this.det (PutAt.self p3)).2
  have r5 : x5.ref = .null := by rcases e5 with rfl | ⟨-, -, rfl⟩ <;> rfl
  have t5 : x5.ptr = o4.ptr := by rcases e5 with rfl | ⟨-, rfl, rfl⟩ <;> rfl
  refine pw_bind (s4.setH (E' := fun x => x = l ∨ x = m) (fun l' h1 h2 h3 => h2 h3) (fun h => (h (.inl rfl)).elim) ?_)
  intro x6 w6 hx6 s6 q6 p6
  obtain ⟨-, rfl⟩ := hx6.det hx5
  refine pw_bind (pw_getH ?_); intro o7 ho7
  have e7 : o7 = ⟨.null, o4.ref⟩ := by
    have := PutAt.get p6 ho7
    by_cases e : m = l
    · rw [if_pos e] at this; rw [this.2]
      rcases e5 with h5 | ⟨-, h6, h5⟩
      · have := hl2 o4 (e ▸ ho)
        subst this; rw [h5]; rfl
      · rw [h5, h6]; rfl
    · rw [if_neg e] at this; exact (this.det ho5).2
  subst e7
  refine s6.setH (E' := (· = l)) (fun l' h1 h2 h3 => h3.elim h2 h1) (fun _ => rfl) ?_
  intro o8 w8 ho8 s8 q8 p8
  obtain ⟨-, rfl⟩ := ho8.det ho7
  refine h w8 ((s8.tight ?_).congr ?_) ((q1.1.keeps_trans k2).q1 (q3.trans (q4.trans (q6.trans q8))))
  · intro k l' z e _ hz
    subst e
    have := (p8 _ _ _).1 hz
    by_cases e : l' = m
    · rw [if_pos e] at this; rw [this.2]
    · rw [if_neg e, p6, if_pos rfl] at this
      rw [this.2]
      show x6.ptr = o4.ref
      rw [t5]; exact s2.same _ _ _ ho (fun h => h)
  · intro b hb
    have z1 : ∀ x : Hnd, x.ref = .null → (ind .sh b (.sh, x) : Int) = 0 := by
      intro x hx; rw [ind_null' b .sh hb hx]; rfl
    rw [z1 Hnd.nil rfl, z1 x6 r5, z1 { ptr := o4.ptr, ref := Hnd.nil.ref } rfl, z1 { ptr := Ptr.null, ref := Ptr.null } rfl]
    simp only [ind_sh]; omega

end

end Nestl.SP
