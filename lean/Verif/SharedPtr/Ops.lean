import Verif.SharedPtr.Calc
set_option autoImplicit false
/-
Effect of every operation on `shared_ptr`s.
-/
namespace Nestl.SP

variable {V : Type}

/-- Nothing in transit. -/
def zero : Kind → Ptr → Int := fun _ _ => 0

/-- A state between calls: the handles are `A`, the objects are `B`. -/
abbrev G (A : Hs) (B : Ptr → V → Prop) (w : W V) : Prop := St zero A B (L0 A) w

/-- The outcome of a call after which the handles would be `A` and the objects `B` if nothing was destroyed. -/
def Post (A : Hs) (B : Ptr → V → Prop) (w w' : W V) : Prop :=
  Fr w w' ∧ ∃ A' B', Eff A B A' B' ∧ G A' B' w'

theorem ind_nil (k b k') (hb : b ≠ .null) : ind k b (k', Hnd.nil) = 0 := by
  unfold ind; rw [if_neg]; rintro ⟨-, h⟩; exact hb h.symm

theorem ind_null {k b k'} {x : Hnd} (hx : x.ref = .null) (hb : b ≠ .null) : ind k b (k', x) = 0 := by
  unfold ind; rw [if_neg]; rintro ⟨-, h⟩; exact hb (h.symm.trans hx)

section
variable {T : Kind → Ptr → Int} {A : Hs} {B : Ptr → V → Prop} {L : Kind → Ptr → Prop} {w : W V}

theorem St.done (s : St T A B L w) (hT : ∀ k b, b ≠ .null → T k b = 0) : G A B w :=
  (s.congr (T' := zero) hT).relive fun _ _ _ => Int.le_refl _

theorem Hs.eff_self {A : Hs} {w : W V} (hA : At w.heap = A) : Eff A (Val w.heap) A (Val w.heap) := by
  subst hA
  refine ⟨fun k l z => ⟨fun h => ⟨h, ?_⟩, fun h => h.1⟩, fun b v => ⟨fun h => ⟨h, v, h⟩, fun h => h.1⟩, fun b v h _ => ⟨v, h⟩⟩
  rintro b i rfl
  obtain ⟨c, o, h1, h2, -⟩ := h
  exact ⟨o.val, c, o, h1, h2, rfl⟩

theorem St.eff_self (s : St T A B L w) : Eff A B A B := by
  have := Hs.eff_self s.at_
  rw [s.val] at this; exact this

theorem St.post {w' : W V} (s : St T A B L w') (hT : ∀ k b, b ≠ .null → T k b = 0) (hf : Fr w w') : Post A B w w' :=
  ⟨hf, A, B, s.eff_self, s.done hT⟩

theorem Hs.put_comm (A : Hs) {k l y k' l' z} (hne : l ≠ l') : (A.put k l y).put k' l' z = (A.put k' l' z).put k l y := by
  funext k1 l1 z1
  simp only [Hs.put]
  by_cases h1 : l1 = l
  · subst h1; simp [hne]
  · simp [h1]

theorem Hs.put_del (A : Hs) {k l y} (hA : ∀ k z, ¬ A k l z) : (A.put k l y).del l = A := by
  funext k1 l1 z1
  simp only [Hs.put, Hs.del]
  by_cases h1 : l1 = l
  · subst h1; simp [hA]
  · simp [h1]

theorem St.wp_newShared (s : St T A B L w) {Q : Ptr → W V → Prop}
    (hQ : ∀ w', Fr w w' → Kp w w' → (∀ k z, ¬ A k (.var (.stk w.sp)) z) → St T (A.put .sh (.var (.stk w.sp)) .nil) B L w' →
      Q (.stk w.sp) w') : wp newShared w Q := by
  refine s.wp_new (fun h => (h rfl).elim) ?_
  intro w' hf hk hn hs
  refine hQ w' hf hk hn (hs.congr ?_)
  intro k b hb; have := ind_nil k b .sh hb; omega

/-- `swap` of two different handles. -/
theorem St.wp_swap (s : St T A B L w) {l m : Loc} {x y : Hnd} (hx : A .sh l x) (hy : A .sh m y) (hne : l ≠ m) {Q : Unit → W V → Prop}
    (hQ : ∀ w', Fr w w' → Kp w w' → St T ((A.put .sh l y).put .sh m x) B L w' → Q () w') : wp (swapShared l m) w Q := by
  unfold swapShared
  rw [wp_bind, s.wp_get hx, wp_bind, s.wp_get hy, wp_bind]
  have tx := s.target hx
  have ty := s.target hy
  refine s.wp_setPtr hx (by rfl) ?_
  intro w1 f1 k1 s1
  have hy1 := Hs.put_ne (A := A) (k := .sh) (y := { x with ptr := y.ptr }) (Ne.symm hne) hy
  rw [wp_bind, s1.wp_get hy1, wp_bind]
  refine s1.wp_setPtr hy1 (by rfl) ?_
  intro w2 f2 k2 s2
  have hx2 := Hs.put_ne (A := A.put .sh l { x with ptr := y.ptr }) (k := .sh) (y := { y with ptr := x.ptr }) hne (Hs.put_self _ _ _ _)
  have hy2 := Hs.put_self (A.put .sh l { x with ptr := y.ptr }) .sh m { y with ptr := x.ptr }
  rw [wp_bind, s2.wp_get hx2, wp_bind, s2.wp_get hy2, wp_bind]
  refine s2.wp_setRef hx2 (fun h => k2 _ (k1 _ (ty h))) ?_
  intro w3 f3 k3 s3
  have hy3 := Hs.put_ne (A := (A.put .sh l { x with ptr := y.ptr }).put .sh m { y with ptr := x.ptr }) (k := .sh)
    (y := ⟨y.ptr, y.ref⟩) (Ne.symm hne) hy2
  rw [wp_bind, s3.wp_get hy3]
  refine s3.wp_setRef hy3 (fun h => k3 _ (k2 _ (k1 _ (tx h)))) ?_
  intro w4 f4 k4 s4
  refine hQ w4 (((f1.trans f2).trans f3).trans f4) (((k1.trans k2).trans k3).trans k4) ?_
  have e : ((((A.put .sh l { x with ptr := y.ptr }).put .sh m { y with ptr := x.ptr }).put .sh l ⟨y.ptr, y.ref⟩).put .sh m ⟨x.ptr, x.ref⟩)
      = (A.put .sh l y).put .sh m x := by
    funext k' l' z
    simp only [Hs.put]
    by_cases h1 : l' = l <;> by_cases h2 : l' = m <;> simp_all
  rw [e] at s4
  refine s4.congr ?_
  intro k b _
  have e1 : ind k b (Kind.sh, ({ x with ptr := y.ptr } : Hnd)) = ind k b (.sh, x) := by simp [ind]
  have e2 : ind k b (Kind.sh, ({ y with ptr := x.ptr } : Hnd)) = ind k b (.sh, y) := by simp [ind]
  omega

/-- `swap` of a handle with itself. -/
theorem St.wp_swap_self (s : St T A B L w) {l : Loc} {x : Hnd} (hx : A .sh l x) {Q : Unit → W V → Prop}
    (hQ : ∀ w', Fr w w' → Kp w w' → St T A B L w' → Q () w') : wp (swapShared l l) w Q := by
  have hput : A.put .sh l x = A := Hs.put_same (fun k' z hz => s.det hx hz) hx
  unfold swapShared
  rw [wp_bind, s.wp_get hx, wp_bind, s.wp_get hx, wp_bind]
  refine s.wp_setPtr hx (by rfl) ?_
  intro w1 f1 k1 s1
  rw [show (⟨x.ptr, x.ref⟩ : Hnd) = x from rfl, hput] at s1
  rw [wp_bind, s1.wp_get hx, wp_bind]
  refine s1.wp_setPtr hx (by rfl) ?_
  intro w2 f2 k2 s2
  rw [show (⟨x.ptr, x.ref⟩ : Hnd) = x from rfl, hput] at s2
  rw [wp_bind, s2.wp_get hx, wp_bind, s2.wp_get hx, wp_bind]
  refine s2.wp_setPtr hx (by rfl) ?_
  intro w3 f3 k3 s3
  rw [show (⟨x.ptr, x.ref⟩ : Hnd) = x from rfl, hput] at s3
  rw [wp_bind, s3.wp_get hx]
  refine s3.wp_setPtr hx (by rfl) ?_
  intro w4 f4 k4 s4
  rw [show (⟨x.ptr, x.ref⟩ : Hnd) = x from rfl, hput] at s4
  exact hQ w4 (((f1.trans f2).trans f3).trans f4) (((k1.trans k2).trans k3).trans k4) s4

theorem wp_swapShared (s : G A B w) {l m : Loc} {x y : Hnd} (hx : A .sh l x) (hy : A .sh m y) :
    wp (swapShared l m) w fun _ w' => Post ((A.put .sh l y).put .sh m x) B w w' := by
  by_cases hne : l = m
  · subst hne
    obtain ⟨-, rfl⟩ := s.det hx hy
    refine s.wp_swap_self hx ?_
    intro w' f _ s'
    rw [Hs.put_put, Hs.put_same (fun k' z hz => s.det hx hz) hx]
    exact s'.post (fun _ _ _ => rfl) f
  · refine s.wp_swap hx hy hne ?_
    intro w' f _ s'
    exact s'.post (fun _ _ _ => rfl) f

/-- Destruction of a `shared_ptr` variable. -/
theorem St.wp_dropShared (s : St zero A B L w) {p : Ptr} {x : Hnd} (hx : A .sh (.var p) x) (hL : x.ref ≠ .null → L .sh x.ref)
    (hcalm : Calm (A.del (.var p))) : wp (dropShared p) w fun _ w' => Post (A.del (.var p)) B w w' := by
  unfold dropShared
  rw [wp_bind, s.wp_get hx, wp_bind]
  refine s.wp_drop hx ?_
  intro w1 f1 k1 s1
  by_cases hn : x.ref = .null
  · rw [if_pos hn, wp_pure]
    exact s1.post (fun k b hb => by have := ind_null (k := k) (k' := .sh) hn hb; simp [zero, this]) f1
  · rw [if_neg hn]
    refine s1.wp_release (hL hn) hcalm (fun k b => by simp [zero]) ?_
    intro w2 A' B' f2 s2 he
    exact ⟨f1.trans f2, A', B', he, s2.done (fun k b hb => by simp [zero])⟩

theorem wp_dropShared (s : G A B w) {p : Ptr} {x : Hnd} (hx : A .sh (.var p) x) (hcalm : Calm (A.del (.var p))) :
    wp (dropShared p) w fun _ w' => Post (A.del (.var p)) B w w' :=
  St.wp_dropShared s hx (fun h => ⟨h, _, x, hx, rfl⟩) hcalm

theorem wp_newShared (s : G A B w) :
    wp newShared w fun p w' => (p = .stk w.sp ∧ ∀ k z, ¬ A k (.var p) z) ∧ Post (A.put .sh (.var p) .nil) B w w' := by
  refine s.wp_newShared ?_
  intro w' f _ hn s'
  exact ⟨⟨rfl, hn⟩, s'.post (fun _ _ _ => rfl) f⟩

theorem wp_copyShared (s : G A B w) {l : Loc} {x : Hnd} (hx : A .sh l x) :
    wp (copyShared l) w fun p w' => (p = .stk w.sp ∧ ∀ k z, ¬ A k (.var p) z) ∧ Post (A.put .sh (.var p) x) B w w' := by
  unfold copyShared
  rw [wp_bind, s.wp_get hx, wp_bind]
  refine s.wp_new (fun h => s.target hx h) ?_
  intro w1 f1 k1 hn s1
  by_cases hnull : x.ref = .null
  · rw [if_pos hnull]
    simp only []
    rw [wp_pure]
    exact ⟨⟨rfl, hn⟩, s1.post (fun k b hb => by have := ind_null (k := k) (k' := .sh) hnull hb; simp [zero, this]) f1⟩
  · rw [if_neg hnull, wp_bind]
    refine s1.wp_addRef ⟨hnull, l, x, hx, rfl⟩ ?_
    intro w2 f2 k2 s2
    rw [wp_pure]
    exact ⟨⟨rfl, hn⟩, s2.post (fun k b hb => by simp only [zero]; omega) (f1.trans f2)⟩

theorem St.wp_moveShared (s : St zero A B L w) {l : Loc} {x : Hnd} (hx : A .sh l x) {Q : Ptr → W V → Prop}
    (hQ : ∀ w', Fr w w' → Kp w w' → (∀ k z, ¬ A k (.var (.stk w.sp)) z) → Loc.var (.stk w.sp) ≠ l →
      St zero ((A.put .sh l .nil).put .sh (.var (.stk w.sp)) x) B L w' → Q (.stk w.sp) w') : wp (moveShared l) w Q := by
  unfold moveShared
  rw [wp_bind]
  refine s.wp_newShared ?_
  intro w1 f1 k1 hn s1
  have hne : Loc.var (.stk w.sp) ≠ l := by rintro rfl; exact hn _ _ hx
  rw [wp_bind]
  refine s1.wp_swap (Hs.put_self _ _ _ _) (Hs.put_ne (Ne.symm hne) hx) hne ?_
  intro w2 f2 k2 s2
  rw [wp_pure]
  refine hQ w2 (f1.trans f2) (k1.trans k2) hn hne ?_
  rw [Hs.put_put, Hs.put_comm _ hne] at s2
  exact s2

theorem wp_moveShared (s : G A B w) {l : Loc} {x : Hnd} (hx : A .sh l x) :
    wp (moveShared l) w fun p w' => (p = .stk w.sp ∧ ∀ k z, ¬ A k (.var p) z) ∧
      Post ((A.put .sh l .nil).put .sh (.var p) x) B w w' := by
  refine St.wp_moveShared s hx ?_
  intro w' f _ hn _ s'
  exact ⟨⟨rfl, hn⟩, s'.post (fun _ _ _ => rfl) f⟩

theorem Post.of {A A1 : Hs} {w w1 w' : W V} (h : Post A1 B w1 w') (hf : Fr w w1) (e : A1 = A) : Post A B w w' := by
  subst e
  obtain ⟨f, h⟩ := h
  exact ⟨hf.trans f, h⟩

theorem wp_assignSharedY (s : G A B w) {l m : Loc} {x y : Hnd} (hx : A .sh l x) (hy : A .sh m y) (hne : l ≠ m)
    (hcalm : Calm (A.put .sh l y)) : wp (assignSharedY l m) w fun _ w' => Post (A.put .sh l y) B w w' := by
  unfold assignSharedY
  rw [wp_bind]
  refine s.wp_newShared ?_
  intro w1 f1 k1 hn s1
  have hl : Loc.var (.stk w.sp) ≠ l := by rintro rfl; exact hn _ _ hx
  have hm : Loc.var (.stk w.sp) ≠ m := by rintro rfl; exact hn _ _ hy
  rw [wp_bind]
  refine s1.wp_swap (Hs.put_self _ _ _ _) (Hs.put_ne (Ne.symm hl) hx) hl ?_
  intro w2 f2 k2 s2
  rw [Hs.put_put] at s2
  have hl2 := Hs.put_self (A.put .sh (.var (.stk w.sp)) x) .sh l .nil
  have hm2 : ((A.put .sh (.var (.stk w.sp)) x).put .sh l .nil) .sh m y := Hs.put_ne (Ne.symm hne) (Hs.put_ne (Ne.symm hm) hy)
  rw [wp_bind, s2.wp_get hl2, wp_bind, s2.wp_get hm2, wp_bind]
  refine s2.wp_setPtr hl2 (by rfl) ?_
  intro w3 f3 k3 s3
  rw [Hs.put_put] at s3
  have hl3 := Hs.put_self (A.put .sh (.var (.stk w.sp)) x) .sh l ⟨y.ptr, .null⟩
  have hm3 : ((A.put .sh (.var (.stk w.sp)) x).put .sh l ⟨y.ptr, .null⟩) .sh m y :=
    Hs.put_ne (Ne.symm hne) (Hs.put_ne (Ne.symm hm) hy)
  rw [wp_bind, s3.wp_get hl3, wp_bind, s3.wp_get hm3, wp_bind]
  refine s3.wp_setRef hl3 (fun h => s3.target hm3 h) ?_
  intro w4 f4 k4 s4
  rw [Hs.put_put] at s4
  have hl4 := Hs.put_self (A.put .sh (.var (.stk w.sp)) x) .sh l y
  rw [wp_bind, s4.wp_get hl4]
  have hf : Fr w w4 := ((f1.trans f2).trans f3).trans f4
  have htmp : ((A.put .sh (.var (.stk w.sp)) x).put .sh l y) .sh (.var (.stk w.sp)) x := Hs.put_ne hl (Hs.put_self _ _ _ _)
  have e : ((A.put .sh (.var (.stk w.sp)) x).put .sh l y).del (.var (.stk w.sp)) = A.put .sh l y := by
    rw [Hs.put_comm _ hl, Hs.put_del]
    intro k z hz
    rw [Hs.put, if_neg hl] at hz; exact hn _ _ hz
  have fin : ∀ w5, Fr w4 w5 → St zero ((A.put .sh (.var (.stk w.sp)) x).put .sh l y) B (L0 A) w5 →
      wp (dropShared (.stk w.sp)) w5 fun _ w' => Post (A.put .sh l y) B w w' := by
    intro w5 f5 s5
    refine wp_mono (s5.wp_dropShared htmp (fun h => ⟨h, l, x, hx, rfl⟩) (by rw [e]; exact hcalm)) ?_
    intro _ w' hp
    exact hp.of (hf.trans f5) e
  have ez : ∀ k b, b ≠ Ptr.null → ind k b (Kind.sh, (⟨y.ptr, .null⟩ : Hnd)) = 0 := fun k b hb => ind_null rfl hb
  by_cases hnull : y.ref = .null
  · rw [if_pos hnull]
    simp only []
    refine fin w4 (Fr.refl _) (s4.congr ?_)
    intro k b hb
    have := ind_null (k := k) (k' := .sh) hnull hb
    have := ez k b hb
    simp only [zero]; omega
  · rw [if_neg hnull, wp_bind]
    refine s4.wp_addRef ⟨hnull, m, y, hy, rfl⟩ ?_
    intro w5 f5 k5 s5
    refine fin w5 f5 (s5.congr ?_)
    intro k b hb
    have := ez k b hb
    simp only [zero]; omega

theorem wp_assignShared (s : G A B w) {l m : Loc} {x y : Hnd} (hx : A .sh l x) (hy : A .sh m y)
    (hcalm : m ≠ l → Calm (A.put .sh l y)) : wp (assignShared l m) w fun _ w' => Post (A.put .sh l y) B w w' := by
  unfold assignShared
  by_cases hne : m = l
  · subst hne
    rw [if_neg (by simp), wp_pure]
    obtain ⟨-, rfl⟩ := s.det hx hy
    rw [Hs.put_same (fun k' z hz => s.det hx hz) hx]
    exact s.post (fun _ _ _ => rfl) (Fr.refl _)
  · rw [if_pos hne]
    exact wp_assignSharedY s hx hy (Ne.symm hne) (hcalm hne)

theorem wp_resetShared (s : G A B w) {l : Loc} {x : Hnd} (hx : A .sh l x) (hcalm : Calm (A.put .sh l .nil)) :
    wp (resetShared l) w fun _ w' => Post (A.put .sh l .nil) B w w' := by
  unfold resetShared
  rw [wp_bind]
  refine s.wp_newShared ?_
  intro w1 f1 k1 hn s1
  have hl : Loc.var (.stk w.sp) ≠ l := by rintro rfl; exact hn _ _ hx
  rw [wp_bind]
  refine s1.wp_swap (Hs.put_self _ _ _ _) (Hs.put_ne (Ne.symm hl) hx) hl ?_
  intro w2 f2 k2 s2
  rw [Hs.put_put] at s2
  have e : ((A.put .sh (.var (.stk w.sp)) x).put .sh l .nil).del (.var (.stk w.sp)) = A.put .sh l .nil := by
    rw [Hs.put_comm _ hl, Hs.put_del]
    intro k z hz
    rw [Hs.put, if_neg hl] at hz; exact hn _ _ hz
  refine wp_mono (St.wp_dropShared s2 (Hs.put_ne hl (Hs.put_self _ _ _ _)) (fun h => ⟨h, l, x, hx, rfl⟩) (by rw [e]; exact hcalm)) ?_
  intro _ w' hp
  exact hp.of (f1.trans f2) e

/-! ### Objects that stay alive -/

/-- The object in block `b` is owned, directly or through other objects, by a `shared_ptr` variable. -/
inductive Rooted (A : Hs) : Ptr → Prop
  | var {p z} : A .sh (.var p) z → z.ref ≠ .null → Rooted A z.ref
  | mem {x i z} : Rooted A x → A .sh (.mem x i) z → z.ref ≠ .null → Rooted A z.ref

/-- The handle at `l` is a variable, or a member of an object owned by a variable. -/
def LocRooted (A : Hs) : Loc → Prop
  | .var _ => True
  | .mem b _ => Rooted A b

theorem St.alive (s : St T A B (L0 A) w) {k : Kind} {l : Loc} {z : Hnd} (hk : k = .sh) (hz : A k l z) (hn : z.ref ≠ .null) : ∃ v, B z.ref v := by
  subst hk
  obtain ⟨c, h1, h2⟩ := s.live .sh z.ref ⟨hn, l, z, hz, rfl⟩
  obtain ⟨dom, hi⟩ := s.inv
  have := (hi.life _ _ h1 (by simp)).1.2 (h2 rfl)
  cases ho : c.obj with
  | none => exact (this ho).elim
  | some o => exact ⟨o.val, by rw [← s.val]; exact ⟨c, o, h1, ho, rfl⟩⟩

theorem Rooted.not_doomed {b : Ptr} (hr : Rooted A b) : ¬ Doomed A b := by
  induction hr with
  | var hz hn => rintro ⟨h1, -⟩; exact h1 _ _ hz rfl
  | mem _ hz hn ih => rintro ⟨-, h2⟩; exact ih (h2 _ _ _ hz rfl)

theorem LocRooted.not_doomed {b : Ptr} {i : Nat} (hr : LocRooted A (.mem b i)) : ¬ Doomed A b := Rooted.not_doomed hr

/-- Objects that are alive after a call are not doomed. -/
theorem Eff.not_doomed {A' : Hs} {B' : Ptr → V → Prop} (he : Eff A B A' B') (s : G A' B' w) {b : Ptr} {v : V} (hb : B' b v) :
    ¬ Doomed A b := by
  have hheld : Held A fun b => ∃ v, B' b v := by
    rintro b ⟨v, hv⟩
    rw [← s.val] at hv
    obtain ⟨c, o, h1, h2, h3⟩ := hv
    obtain ⟨dom, hi⟩ := s.inv
    have h4 := (hi.life _ _ h1 (by simp)).1.1 (by rw [h2]; simp)
    have h5 := hi.use _ _ h1
    simp only [zero] at h5
    obtain ⟨p, -, hp⟩ := tot_pos (dom := dom) (h := w.heap) (k := .sh) (b := b) (by omega)
    obtain ⟨l, z, hz, hz2⟩ := refs_pos_at hp
    rw [s.at_] at hz
    obtain ⟨e1, e2⟩ := (he.at_ _ _ _).1 hz
    exact ⟨l, z, e1, hz2, e2⟩
  exact hheld.not_doomed ⟨v, hb⟩

theorem Rooted.alive {A' : Hs} {B' : Ptr → V → Prop} {b : Ptr} (hr : Rooted A b) (he : Eff A B A' B') (s : G A' B' w) : ∃ v, B' b v := by
  induction hr with
  | var hz hn => exact s.alive rfl ((he.at_ _ _ _).2 ⟨hz, by intro _ _ h; cases h⟩) hn
  | mem _ hz hn ih =>
    refine s.alive rfl ((he.at_ _ _ _).2 ⟨hz, ?_⟩) hn
    intro b i e; cases e; exact ih

theorem LocRooted.at_ {A' : Hs} {B' : Ptr → V → Prop} {k : Kind} {l : Loc} {z : Hnd} (hr : LocRooted A l) (hz : A k l z)
    (he : Eff A B A' B') (s : G A' B' w) : A' k l z := by
  rw [he.at_]
  refine ⟨hz, ?_⟩
  rintro b i rfl
  exact Rooted.alive hr he s

/-- Emptying a reachable handle does not cut it off. -/
theorem LocRooted.put {l : Loc} {y : Hnd} (hr : LocRooted A l) : LocRooted (A.put .sh l y) l := by
  cases l with
  | var p => trivial
  | mem b i =>
    have key : ∀ d, Rooted A d → Rooted (A.put .sh (.mem b i) y) d ∨ Rooted (A.put .sh (.mem b i) y) b := by
      intro d hd
      induction hd with
      | var hz hn => exact .inl (.var (Hs.put_ne (by intro h; cases h) hz) hn)
      | @mem x j z _ hz hn ih =>
        by_cases hloc : Loc.mem x j = .mem b i
        · cases hloc; exact .inr (ih.elim id id)
        · rcases ih with ih | ih
          · exact .inl (.mem ih (Hs.put_ne hloc hz) hn)
          · exact .inr ih
    exact (key b hr).elim id id

theorem wp_moveAssignShared (s : G A B w) {l m : Loc} {x y : Hnd} (hx : A .sh l x) (hy : A .sh m y)
    (hl : LocRooted A l) (hm : LocRooted (A.put .sh l .nil) m) (hcalm : Calm (A.put .sh l .nil)) :
    wp (moveAssignShared l m) w fun _ w' => Post ((A.put .sh l y).put .sh m .nil) B w w' := by
  unfold moveAssignShared
  rw [wp_bind]
  refine St.wp_moveShared s hx ?_
  intro w1 f1 k1 hn hne s1
  have e : ((A.put .sh l .nil).put .sh (.var (.stk w.sp)) x).del (.var (.stk w.sp)) = A.put .sh l .nil := by
    rw [Hs.put_del]
    intro k z hz
    rw [Hs.put, if_neg hne] at hz; exact hn _ _ hz
  rw [wp_bind]
  refine wp_mono (St.wp_dropShared s1 (Hs.put_self _ _ _ _) (fun h => ⟨h, l, x, hx, rfl⟩) (by rw [e]; exact hcalm)) ?_
  rintro _ w2 ⟨f2, A', B', he, s2⟩
  rw [e] at he
  have hl2 : A' .sh l .nil := hl.put.at_ (Hs.put_self _ _ _ _) he s2
  have hval : ∀ b i, (l = .mem b i ∨ m = .mem b i) → ∃ v, B' b v := by
    rintro b i (rfl | rfl)
    · exact Rooted.alive (LocRooted.put (y := .nil) hl) he s2
    · exact Rooted.alive hm he s2
  by_cases hlm : l = m
  · -- self-assignment: the handle ends up empty
    subst hlm
    have hput : A'.put .sh l .nil = A' := Hs.put_same (fun k' z hz => s2.det hl2 hz) hl2
    rw [wp_bind, s2.wp_get hl2, wp_bind, s2.wp_get hl2, wp_bind]
    refine s2.wp_setPtr hl2 (by rfl) ?_
    intro w3 f3 k3 s3
    rw [show ({ Hnd.nil with ptr := Hnd.nil.ptr } : Hnd) = Hnd.nil from rfl, hput] at s3
    rw [wp_bind, s3.wp_get hl2, wp_bind]
    refine s3.wp_setPtr hl2 (by rfl) ?_
    intro w4 f4 k4 s4
    rw [show ({ Hnd.nil with ptr := .null } : Hnd) = Hnd.nil from rfl, hput] at s4
    rw [wp_bind, s4.wp_get hl2, wp_bind, s4.wp_get hl2, wp_bind]
    refine s4.wp_setPtr hl2 (by rfl) ?_
    intro w5 f5 k5 s5
    rw [show ({ Hnd.nil with ref := Hnd.nil.ref } : Hnd) = Hnd.nil from rfl, hput] at s5
    rw [wp_bind, s5.wp_get hl2]
    refine s5.wp_setPtr hl2 (by rfl) ?_
    intro w6 f6 k6 s6
    rw [show ({ Hnd.nil with ref := .null } : Hnd) = Hnd.nil from rfl, hput] at s6
    refine ⟨((((f1.trans f2).trans f3).trans f4).trans f5).trans f6, A', B', ?_, s6⟩
    rw [Hs.put_put]; exact he
  · have hm2 : A' .sh m y := hm.at_ (Hs.put_ne (Ne.symm hlm) hy) he s2
    rw [wp_bind, s2.wp_get hm2, wp_bind, s2.wp_get hl2, wp_bind]
    refine s2.wp_setPtr hl2 (by rfl) ?_
    intro w3 f3 k3 s3
    have hm3 := Hs.put_ne (A := A') (k := .sh) (y := ⟨y.ptr, .null⟩) (Ne.symm hlm) hm2
    rw [wp_bind, s3.wp_get hm3, wp_bind]
    refine s3.wp_setPtr hm3 (by rfl) ?_
    intro w4 f4 k4 s4
    have hm4 := Hs.put_self (A'.put .sh l ⟨y.ptr, .null⟩) .sh m ⟨.null, y.ref⟩
    have hl4 := Hs.put_ne (k := .sh) (y := ⟨.null, y.ref⟩) hlm (Hs.put_self A' .sh l ⟨y.ptr, .null⟩)
    rw [wp_bind, s4.wp_get hm4, wp_bind, s4.wp_get hl4, wp_bind]
    refine s4.wp_setRef (y := ⟨y.ptr, y.ref⟩) hl4 (fun h => s4.target (x := ⟨.null, y.ref⟩) hm4 h) ?_
    intro w5 f5 k5 s5
    have hm5 := Hs.put_ne (k := .sh) (y := (⟨y.ptr, y.ref⟩ : Hnd)) (Ne.symm hlm) hm4
    rw [wp_bind, s5.wp_get hm5]
    refine s5.wp_setRef hm5 (fun h => (h rfl).elim) ?_
    intro w6 f6 k6 s6
    have e6 : ((((A'.put .sh l ⟨y.ptr, .null⟩).put .sh m ⟨.null, y.ref⟩).put .sh l ⟨y.ptr, y.ref⟩).put .sh m ⟨.null, .null⟩)
        = (A'.put .sh l y).put .sh m .nil := by
      funext k' l' z
      simp only [Hs.put]
      by_cases h1 : l' = l <;> by_cases h2 : l' = m <;> simp_all [Hnd.nil]
    simp only [Hnd.nil] at s6 e6
    rw [e6] at s6
    refine ⟨((((f1.trans f2).trans f3).trans f4).trans f5).trans f6, (A'.put .sh l y).put .sh m .nil, B', ⟨?_, he.val, ?_⟩, s6.done ?_⟩
    · intro k l' z
      simp only [Hs.put]
      by_cases h2 : l' = m
      · simp only [h2, if_true]
        exact ⟨fun h => ⟨h, fun b i e => hval b i (.inr e)⟩, fun h => h.1⟩
      · by_cases h1 : l' = l
        · simp only [h1, if_true, if_false, hlm]
          exact ⟨fun h => ⟨h, fun b i e => hval b i (.inl e)⟩, fun h => h.1⟩
        · simp only [h2, h1, if_false]
          rw [he.at_, Hs.put, if_neg h1]
    · intro b v hb hd
      refine he.live b v hb fun hd1 => hd ?_
      have hnn : ∀ k x i z, A k (.mem x i) z → x ≠ .null := by
        rintro k x i z hz rfl
        rw [← s.at_] at hz
        obtain ⟨c, o, h1, -⟩ := hz
        rw [s.null] at h1; cases h1
      have hbn : b ≠ .null := by
        rintro rfl
        rw [← s.val] at hb
        obtain ⟨c, o, h1, -⟩ := hb
        rw [s.null] at h1; cases h1
      have key : ∀ d, Doomed (A.put .sh l .nil) d → d ≠ .null → Doomed ((A.put .sh l y).put .sh m .nil) d := by
        intro d hd
        induction hd with
        | @intro d g1 g2 ih =>
          intro hdn
          have hy0 : ∀ (e : y.ref = d), False := by
            intro e
            cases m with
            | var q => exact g1 q y (Hs.put_ne (Ne.symm hlm) hy) e
            | mem q j =>
              have hq := g2 q j y (Hs.put_ne (Ne.symm hlm) hy) e
              exact hm.not_doomed hq
          refine .intro ?_ ?_
          · intro p z hz e
            simp only [Hs.put] at hz
            by_cases h2 : Loc.var p = m
            · rw [if_pos h2] at hz; rw [hz.2] at e; exact hdn e.symm
            · rw [if_neg h2] at hz
              by_cases h1 : Loc.var p = l
              · rw [if_pos h1] at hz; rw [hz.2] at e; exact hy0 e
              · rw [if_neg h1] at hz; exact g1 p z (Hs.put_ne h1 hz) e
          · intro x' i z hz e
            simp only [Hs.put] at hz
            by_cases h2 : Loc.mem x' i = m
            · rw [if_pos h2] at hz; rw [hz.2] at e; exact (hdn e.symm).elim
            · rw [if_neg h2] at hz
              by_cases h1 : Loc.mem x' i = l
              · rw [if_pos h1] at hz; rw [hz.2] at e; exact (hy0 e).elim
              · rw [if_neg h1] at hz
                exact ih x' i z (Hs.put_ne h1 hz) e (hnn _ _ _ _ hz)
      exact key b hd1 hbn
    · intro k b hb
      have := ind_null (k := k) (k' := .sh) (x := ⟨y.ptr, .null⟩) rfl hb
      have := ind_null (k := k) (k' := .sh) (x := ⟨.null, .null⟩) rfl hb
      have : ind k b (Kind.sh, (⟨.null, y.ref⟩ : Hnd)) = ind k b (.sh, y) := by simp [ind]
      have : ind k b (Kind.sh, (⟨y.ptr, y.ref⟩ : Hnd)) = ind k b (.sh, y) := rfl
      simp only [zero]; omega

end

end Nestl.SP
