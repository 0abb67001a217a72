import Verif.SharedPtr.AnyCalls
set_option autoImplicit false
/-
Use counts in every execution that returns: the remaining calls, and all calls together.
-/
namespace Nestl.SP

variable {V : Type} {T : Ptr → Int} {w : W V} {l m : Loc}

theorem S.resetShared (s : S T Nl w) {Q : Unit → W V → Prop}
    (h : ∀ w', S T Nl w' → Keeps w.heap w'.heap → Q () w') : pw (resetShared l) w Q := by
  refine pw_bind (s.newHnd ?_)
  intro w1 s1 q1 f1 p1
  refine pw_bind (s1.swap ?_)
  intro x y w2 hx hy s2 q2 p2
  exact s2.dropShared fun w' s' k' _ => h w' s' ((q1.trans q2).1.keeps_trans k')

theorem S.toWeak (s : S T Nl w) {k : Kind} {Q : Ptr → W V → Prop}
    (h : ∀ w', S T Nl w' → Q0 w.heap w'.heap → Q (.stk w.sp) w') : pw (toWeak k l) w Q := by
  refine pw_bind (pw_getH ?_); intro x hx
  refine pw_bind (s.newVar (s.same _ _ _ hx (fun h => h)) ?_)
  intro w1 s1 q1 f1 p1
  have s1 : S T Nl w1 := s1.congr (by intro b _; simp [ind_wk])
  refine pw_ite (fun hn => pw_pure (h w1 s1 q1.1)) (fun hn => pw_bind (s1.weakAddRef ?_))
  intro w2 s2 q2 _
  exact pw_pure (h w2 s2 (q1.1.trans q2))

theorem S.resetWeak (s : S T Nl w) {Q : Unit → W V → Prop}
    (h : ∀ w', S T Nl w' → Q0 w.heap w'.heap → Q () w') : pw (resetWeak l) w Q := by
  refine pw_bind (pw_getH ?_); intro x hx
  have tail : ∀ w1, S T (· = l) w1 → Q0 w.heap w1.heap → (∀ x, At w1.heap .wk l x → x.ref = .null) →
      pw (do
        let h ← getH .wk l
        SP.setH .wk l { h with ptr := .null }) w1 Q := by
    intro w1 s1 q1 hr
    refine pw_bind (pw_getH ?_); intro y hy
    refine s1.setH (E' := Nl) (fun l' h1 _ h3 => h1 h3) (fun _ => (hr y hy).symm) ?_
    intro _ w2 _ s2 q2 p2
    exact h w2 (s2.congr (by intro b _; simp [ind_wk])) (q1.trans q2.1)
  refine pw_ite (fun hn => ?_) (fun hn => ?_)
  · refine tail w ⟨s.us, s.null, s.fresh, fun k l x hx _ => s.same k l x hx (fun h => h), s.life⟩ (.refl _) ?_
    intro y hy; rw [(hy.det hx).2]; exact hn
  · refine pw_bind (s.weakRelease ?_)
    intro w1 s1 q1 a1
    refine pw_bind (pw_getH ?_); intro y hy
    refine pw_bind (s1.setH (E' := (· = l)) (fun l' h1 _ => id) (fun h => (h rfl).elim) ?_)
    intro _ w2 _ s2 q2 p2
    refine tail w2 (s2.congr (by intro b _; simp [ind_wk])) (q1.trans q2.1) ?_
    intro z hz
    rw [(hz.det (PutAt.self p2)).2]

theorem S.assignWeak (s : S T Nl w) {k : Kind} {Q : Unit → W V → Prop}
    (h : ∀ w', S T Nl w' → Q0 w.heap w'.heap → Q () w') : pw (assignWeak k l m) w Q := by
  refine pw_bind (pw_getH ?_); intro x hx
  have tail : ∀ w1, S T Nl w1 → Q0 w.heap w1.heap →
      pw (do
        let o ← getH k m
        let h ← getH .wk l
        SP.setH .wk l { h with ptr := o.ptr }
        let o ← getH k m
        let h ← getH .wk l
        SP.setH .wk l { h with ref := o.ref }
        let h ← getH .wk l
        if h.ref = .null then pure () else SP.weakAddRef h.ref) w1 Q := by
    intro w1 s1 q1
    refine s1.copyWk ?_
    intro y w2 _ s2 q2 _
    refine pw_bind (pw_getH ?_); intro z hz
    refine pw_ite (fun hn => pw_pure (h w2 s2 (q1.trans q2.1))) (fun hn => s2.weakAddRef ?_)
    intro w3 s3 q3 _
    exact h w3 s3 (q1.trans (q2.1.trans q3))
  refine pw_ite (fun hn => tail w s (.refl _)) (fun hn => pw_bind (s.weakRelease ?_))
  intro w1 s1 q1 _
  exact tail w1 s1 q1

theorem S.moveAssignWeak (s : S T Nl w) {Q : Unit → W V → Prop}
    (h : ∀ w', S T Nl w' → Q0 w.heap w'.heap → Q () w') : pw (moveAssignWeak l m) w Q := by
  refine pw_bind (s.moveWeak ?_)
  intro w1 s1 q1
  refine s1.copyWk ?_
  intro y w2 _ s2 q2 _
  refine s2.dropWeak ?_
  intro w3 s3 q3
  exact h w3 s3 (q1.1.trans (q2.1.trans q3))

/-- Cells without handles, objects and references. -/
def Dull : Option (Cell V) → Prop
  | none => True
  | some (.var _ _) => False
  | some (.raw _) => True
  | some .lost => True
  | some (.blk c) => c.use = 0 ∧ c.obj = none

theorem Dull.useOf {c : Option (Cell V)} (h : Dull c) : useOf c = 0 := by
  rcases c with _ | (⟨k', x⟩ | c | o | _)
  · rfl
  · exact h.elim
  · exact h.1
  · rfl
  · rfl

theorem Dull.refsOf {c : Option (Cell V)} (h : Dull c) (k b) : refsOf k b c = 0 := by
  rcases c with _ | (⟨k', x⟩ | c | o | _)
  · rfl
  · exact h.elim
  · simp [SP.refsOf, h.2]
  · rfl
  · rfl

theorem Dull.at {h : Heap V} {p : Ptr} {c : Option (Cell V)} (d : Dull (h p)) (d' : Dull c) (k : Kind) (l : Loc) (x : Hnd) :
    At (upd h p c) k l x ↔ At h k l x := by
  cases l with
  | var q =>
    by_cases e : q = p
    · subst e
      constructor
      · intro hx
        have hx : upd h q c q = _ := hx
        rw [upd_same] at hx; rw [hx] at d'; exact d'.elim
      · intro hx
        have hx : h q = _ := hx
        rw [hx] at d; exact d.elim
    · simp only [At, upd_other _ _ e]
  | mem b i =>
    by_cases e : b = p
    · subst e
      constructor
      · rintro ⟨c1, o, h1, h2, h3⟩
        rw [upd_same] at h1; rw [h1] at d'; rw [d'.2] at h2; cases h2
      · rintro ⟨c1, o, h1, h2, h3⟩
        rw [h1] at d; rw [d.2] at h2; cases h2
    · simp only [At, upd_other _ _ e]

theorem S.dull {E : Loc → Prop} (s : S T E w) {w' : W V} {p : Ptr} {c : Option (Cell V)} (d : Dull (w.heap p)) (d' : Dull c) (hp : p ≠ .null)
    (hh : w'.heap = upd w.heap p c) (hsp : w.sp ≤ w'.sp) (hp2 : ∀ i, p = .stk i → i < w'.sp) :
    S T E w' ∧ Q1 w.heap w'.heap := by
  refine ⟨⟨?_, ?_, ?_, ?_, ?_⟩, ?_, ?_⟩ <;> (try rw [hh])
  · obtain ⟨dom, u⟩ := s.us
    have : ∃ dom', Us dom' T w.heap ∧ p ∈ dom' := by
      cases hc : w.heap p with
      | none => exact u.grow hc
      | some x => exact ⟨dom, u, u.mem hc⟩
    obtain ⟨dom', u', hd⟩ := this
    refine ⟨dom', u'.upd hd _ ?_⟩
    intro b _
    rw [d.useOf, d'.useOf, d.refsOf, d'.refsOf]
    split <;> simp
  · rw [upd_other _ _ hp.symm]; exact s.null
  · intro i hi
    rw [upd_other _ _ (by rintro e; have := hp2 i e.symm; omega)]; exact s.fresh i (by omega)
  · intro k l x hx hn
    exact s.same k l x ((d.at d' k l x).1 hx) hn
  · intro b c1 hb ho
    by_cases e : b = p
    · subst e; rw [upd_same] at hb; rw [hb] at d'; exact (ho d'.2).elim
    · rw [upd_other _ _ e] at hb; exact s.life b c1 hb ho
  · rintro b v ⟨c1, o, h1, h2, h3⟩
    by_cases e : b = p
    · subst e; rw [h1] at d; rw [d.2] at h2; cases h2
    · exact ⟨c1, o, by rw [upd_other _ _ e]; exact h1, h2, h3⟩
  · intro b
    by_cases e : b = p
    · subst e; rw [upd_same, d.useOf, d'.useOf]
    · rw [upd_other _ _ e]

theorem S.guardFree (s : S T Nl w) {a : Nat} (hd : Dull (w.heap (.dyn a))) {Q : Unit → W V → Prop}
    (h : ∀ w', S T Nl w' → Q1 w.heap w'.heap → Q () w') : pw (guardFree (.dyn a)) w Q := by
  have fin : ∀ w1, S T Nl w1 → Q1 w.heap w1.heap → Dull (w1.heap (.dyn a)) → pw (deallocate defaultAlloc (.dyn a)) w1 Q := by
    intro w1 s1 q1 d1 x w2 hr
    unfold Runs deallocate freeCell at hr
    simp only [] at hr
    split at hr
    · cases hr
    · split at hr
      · cases hr
      · cases hr
        obtain ⟨s2, q2⟩ := s1.dull (w' := w1.setHeap (upd w1.heap (.dyn a) none)) (c := none) d1 trivial (by intro h; cases h) rfl (Nat.le_refl _) (by intro i h; cases h)
        exact h _ s2 (q1.trans q2)
  unfold SP.guardFree
  refine pw_bind (pw_rd ?_)
  intro c hc _
  cases c with
  | blk c =>
    refine pw_bind (pw_newObj ?_)
    obtain ⟨s1, q1⟩ := s.dull (w' := { w with sp := w.sp + 1, heap := upd w.heap (.stk w.sp) (some .lost) }) (c := some .lost)
      (p := .stk w.sp) (by rw [s.fresh _ (Nat.le_refl _)]; trivial) trivial (by intro h; cases h) rfl (Nat.le_succ _)
      (by intro i h; cases h; exact Nat.lt_succ_self _)
    have e : upd w.heap (.stk w.sp) (some .lost) (.dyn a) = w.heap (.dyn a) := upd_other _ _ (by intro h; cases h)
    refine pw_bind (pw_modCell ?_)
    intro _ _ _
    obtain ⟨s2, q2⟩ := s1.dull (w' := World.setHeap { w with sp := w.sp + 1, heap := upd w.heap (.stk w.sp) (some .lost) }
        (upd (upd w.heap (.stk w.sp) (some .lost)) (.dyn a) (some (.raw c.owner)))) (c := some (.raw c.owner))
      (p := .dyn a) (e.symm ▸ hd : Dull (upd w.heap (.stk w.sp) (some .lost) (.dyn a))) trivial (by intro h; cases h) rfl (Nat.le_refl _) (by intro i h; cases h)
    refine fin _ s2 (q1.trans q2) ?_
    show Dull (upd (upd w.heap (.stk w.sp) (some .lost)) (.dyn a) (some (.raw c.owner)) (.dyn a))
    rw [upd_same]; trivial
  | _ => exact fin w s (.refl _) hd

theorem S.env {E : Loc → Prop} (s : S T E w) {w' : W V} (hh : w'.heap = w.heap) (hs : w'.sp = w.sp) : S T E w' :=
  ⟨by rw [hh]; exact s.us, by rw [hh]; exact s.null, by rw [hh, hs]; exact s.fresh, by rw [hh]; exact s.same, by rw [hh]; exact s.life⟩

theorem S.makeShared (s : S T Nl w) {al : Nat} {v : V} {ks : List Kind} {Q : Ptr → W V → Prop}
    (h : ∀ p w', S T Nl w' → Q0 w.heap w'.heap → Q p w') : pw (makeShared al v ks) w Q := by
  unfold SP.makeShared
  have new : ∀ w1, S T Nl w1 → Q0 w.heap w1.heap → pw newShared w1 Q := by
    intro w1 s1 q1
    refine s1.newHnd ?_
    intro w2 s2 q2 _ _
    exact h _ w2 s2 (q1.trans q2.1)
  refine pw_bind (pw_of_wp (wp_allocCell ?_ ?_))
  · intro _
    refine pw_bind (pw_of_wp (wp_hasErr.2 ?_))
    exact new _ (s.env rfl rfl) (.refl _)
  · intro a hf _
    generalize hw1 : ({ w with nAlloc := w.nAlloc + 1, heap := upd w.heap (.dyn a) (some (.raw defaultAlloc)) } : W V) = w1
    have hh1 : w1.heap = upd w.heap (.dyn a) (some (.raw defaultAlloc)) := by rw [← hw1]
    have hs1 : w1.sp = w.sp := by rw [← hw1]
    clear hw1
    obtain ⟨s1, q1⟩ := s.dull (w' := w1) (p := .dyn a) (c := some (.raw defaultAlloc)) (by rw [hf]; trivial) trivial
      (by intro h; cases h) hh1 (Nat.le_of_eq hs1.symm) (by intro i h; cases h)
    refine pw_bind (pw_of_wp (wp_hasErr.2 ?_))
    refine pw_ite (fun _ => new _ s1 q1.1) (fun _ => ?_)
    refine pw_bind (pw_modCell ?_)
    intro _ _ _
    obtain ⟨s2, q2⟩ := s1.dull (w' := w1.setHeap (upd w1.heap (.dyn a) (some (.blk ⟨0, 0, none, defaultAlloc⟩)))) (p := .dyn a)
      (c := some (.blk ⟨0, 0, none, defaultAlloc⟩)) (by rw [hh1, upd_same]; trivial) ⟨rfl, rfl⟩
      (by intro h; cases h) rfl (Nat.le_refl _) (by intro i h; cases h)
    have hb2 : (w1.setHeap (upd w1.heap (.dyn a) (some (.blk ⟨0, 0, none, defaultAlloc⟩)))).heap (.dyn a) = some (.blk ⟨0, 0, none, defaultAlloc⟩) := upd_same ..
    have q2 := q1.trans q2
    generalize w1.setHeap (upd w1.heap (.dyn a) (some (.blk ⟨0, 0, none, defaultAlloc⟩))) = w2 at *
    have guard : ∀ w3, S T Nl w3 → Q0 w.heap w3.heap → Dull (w3.heap (.dyn a)) → pw (do SP.guardFree (.dyn a); newShared) w3 Q := by
      intro w3 s3 q3 d3
      refine pw_bind (s3.guardFree d3 ?_)
      intro w4 s4 q4
      exact new w4 s4 (q3.trans q4.1)
    have d2 : Dull (w2.heap (.dyn a)) := by rw [hb2]; exact ⟨rfl, rfl⟩
    refine pw_bind (pw_of_wp (wp_hasErr.2 ?_))
    refine pw_ite (fun _ => guard w2 s2 q2.1 d2) (fun he => ?_)
    have he : w2.err.isSome = false := by simpa using he
    refine pw_bind (pw_of_wp (wp_tryCtor ?_ ?_))
    · intro _
      refine pw_ite (fun _ => ?_) (fun h => (h rfl).elim)
      refine pw_bind (pw_rdBlk ?_)
      intro c hc _
      have hc : w2.heap (.dyn a) = some (.blk c) := hc
      rw [hb2] at hc; cases hc
      refine pw_bind (pw_setBlk (c := ⟨0, 0, none, defaultAlloc⟩) ?_)
      refine pw_bind (pw_of_wp (wp_hasErr.2 ?_))
      refine pw_ite (fun h => ?_) (fun _ => ?_)
      · have h : w2.err.isSome = true := h
        rw [he] at h; cases h
      · refine pw_bind (pw_newObj ?_)
        refine pw_bind (pw_addRef ?_)
        intro c hc _
        have ne : Ptr.dyn a ≠ Ptr.stk w2.sp := by intro h; cases h
        have hc : upd (upd w2.heap (.dyn a) (some (.blk ⟨0, 0, some ⟨v, ks.map fun k => (k, .nil)⟩, defaultAlloc⟩))) (.stk w2.sp)
          (some (.var .sh ⟨.dyn a, .dyn a⟩)) (.dyn a) = some (.blk c) := hc
        rw [upd_other _ _ ne, upd_same] at hc; cases hc
        refine pw_pure ?_
        -- the same steps in another order
        have key : pw (newObj fun _ => .var .sh ⟨.dyn a, .dyn a⟩) { w2 with nCtor := w2.nCtor + 1 } fun p w3 =>
            S (fun b => T b - ind .sh b (.sh, ⟨.dyn a, .dyn a⟩)) Nl w3 ∧ Q1 w2.heap w3.heap := by
          refine (s2.env (w' := { w2 with nCtor := w2.nCtor + 1 }) rfl rfl).newVar rfl ?_
          intro w3 s3 q3 _ _
          exact ⟨s3, q3⟩
        obtain ⟨s3, q3⟩ := key _ _ rfl
        have hb3 : upd w2.heap (.stk w2.sp) (some (.var .sh ⟨.dyn a, .dyn a⟩)) (.dyn a) = some (.blk ⟨0, 0, none, defaultAlloc⟩) := by
          rw [upd_other _ _ ne]; exact hb2
        have hat : ∀ k l x, At (upd (upd w2.heap (.stk w2.sp) (some (.var .sh ⟨.dyn a, .dyn a⟩))) (.dyn a)
            (some (.blk ⟨1, 0, some ⟨v, ks.map fun k => (k, .nil)⟩, defaultAlloc⟩))) k l x →
            x = .nil ∨ At (upd w2.heap (.stk w2.sp) (some (.var .sh ⟨.dyn a, .dyn a⟩))) k l x := by
          intro k l x hx
          cases l with
          | var q =>
            right
            have hx : upd _ _ _ q = _ := hx
            by_cases e : q = .dyn a
            · subst e; rw [upd_same] at hx; cases hx
            · rw [upd_other _ _ e] at hx; exact hx
          | mem b i =>
            obtain ⟨c, o, h1, h2, h3⟩ := hx
            by_cases e : b = .dyn a
            · left
              subst e
              rw [upd_same] at h1; cases h1; cases h2
              simp only [List.getElem?_map, Option.map_eq_some_iff, Prod.mk.injEq] at h3
              obtain ⟨_, _, _, h⟩ := h3
              exact h.symm
            · rw [upd_other _ _ e] at h1; exact .inr ⟨c, o, h1, h2, h3⟩
        have hrefs : ∀ b, b ≠ .null → memRefs .sh b (ks.map fun k => (k, Hnd.nil)) = 0 := fun b hb => memRefs_nil .sh hb ks
        refine h _ _ (S.env (w := World.setHeap { w2 with nCtor := w2.nCtor + 1, sp := w2.sp + 1 } (upd (upd w2.heap (.stk w2.sp) (some (.var .sh ⟨.dyn a, .dyn a⟩))) (.dyn a)
            (some (.blk ⟨1, 0, some ⟨v, ks.map fun k => (k, .nil)⟩, defaultAlloc⟩)))) ⟨?_, ?_, ?_, ?_, ?_⟩ ?_ rfl) ?_
        · obtain ⟨dom, u⟩ := s3.us
          have u : Us dom _ (upd w2.heap (.stk w2.sp) (some (.var .sh ⟨.dyn a, .dyn a⟩))) := u
          refine ⟨dom, u.upd (u.mem hb3) _ ?_⟩
          intro b hb
          rw [hb3, ind_sh]
          have := hrefs b hb
          simp only [useOf, refsOf, this, one]
          split <;> simp
        · have : Ptr.null ≠ Ptr.dyn a := by intro h; cases h
          exact (upd_other (upd w2.heap (.stk w2.sp) (some (.var .sh ⟨.dyn a, .dyn a⟩))) (some (.blk ⟨1, 0, some ⟨v, ks.map fun k => (k, .nil)⟩, defaultAlloc⟩)) this).trans s3.null
        · intro i hi
          have : Ptr.stk i ≠ Ptr.dyn a := by intro h; cases h
          exact (upd_other (upd w2.heap (.stk w2.sp) (some (.var .sh ⟨.dyn a, .dyn a⟩))) (some (.blk ⟨1, 0, some ⟨v, ks.map fun k => (k, .nil)⟩, defaultAlloc⟩)) this).trans (s3.fresh i hi)
        · intro k l x hx hn
          rcases hat k l x hx with rfl | h
          · rfl
          · exact s3.same k l x h hn
        · intro b c hb ho hn
          have hb : upd _ (.dyn a) _ b = _ := hb
          by_cases e : b = .dyn a
          · subst e; rw [upd_same] at hb; cases hb; exact Nat.zero_lt_one
          · rw [upd_other _ _ e] at hb; exact s3.life b c hb ho hn
        · show upd (upd (upd w2.heap (.dyn a) _) (.stk w2.sp) _) (.dyn a) _ = _
          rw [upd_comm w2.heap _ _ ne, upd_upd]; rfl
        · have e1 : ∀ y, upd (upd (upd w2.heap (.dyn a) y) (.stk w2.sp) (some (.var .sh ⟨.dyn a, .dyn a⟩))) (.dyn a)
            (some (.blk ⟨1, 0, some ⟨v, ks.map fun k => (k, .nil)⟩, defaultAlloc⟩)) = upd (upd w2.heap (.stk w2.sp) (some (.var .sh ⟨.dyn a, .dyn a⟩))) (.dyn a)
            (some (.blk ⟨1, 0, some ⟨v, ks.map fun k => (k, .nil)⟩, defaultAlloc⟩)) := by
            intro y; rw [upd_comm w2.heap _ _ ne, upd_upd]
          show Q0 w.heap (upd (upd (upd w2.heap (.dyn a) _) (.stk w2.sp) (some (.var .sh ⟨.dyn a, .dyn a⟩))) (.dyn a) (some (.blk ⟨1, 0, some ⟨v, ks.map fun k => (k, .nil)⟩, defaultAlloc⟩)))
          rw [e1]
          refine (q2.trans q3).1.trans ?_
          rintro b v' ⟨c, o, h1, h2, h3⟩
          have h1 : upd w2.heap (.stk w2.sp) (some (.var .sh ⟨.dyn a, .dyn a⟩)) b = some (.blk c) := h1
          have : b ≠ .dyn a := by
            rintro rfl; rw [hb3] at h1; cases h1; cases h2
          exact ⟨c, o, by rw [upd_other _ _ this]; exact h1, h2, h3⟩
    · intro _
      refine pw_ite (fun h => nomatch h) (fun _ => ?_)
      refine pw_bind (pw_of_wp (wp_hasErr.2 ?_))
      exact guard _ (s2.env rfl rfl) q2.1 d2

/-- Between calls. -/
abbrev Fine (w : W V) : Prop := S (fun _ => 0) Nl w

theorem Fine.start (env : Env (Cell V)) : Fine (start env) := by
  refine ⟨⟨[], .nil, ?_, ?_⟩, rfl, fun _ _ => rfl, ?_, ?_⟩
  · intro p h; exact (h rfl).elim
  · intro b _; rfl
  · intro k l x hx
    cases l with
    | var p => cases hx
    | mem b i => obtain ⟨_, _, h, _⟩ := hx; cases h
  · intro b c h; cases h

/-- Any call that returns. -/
theorem Fine.exec (s : Fine w) (c : Call V) : pw (exec c) w fun _ w' => Fine w' ∧ Keeps w.heap w'.heap := by
  have fin : ∀ {α : Type} (r : α → Option Ptr) (a : α) (w' : W V), Fine w' → Keeps w.heap w'.heap →
      pw (pure (r a)) w' fun _ w' => Fine w' ∧ Keeps w.heap w'.heap := fun r a w' s' k' => pw_pure ⟨s', k'⟩
  cases c with
  | newShared => exact pw_bind (s.newHnd fun w' s' q' _ _ => fin some _ w' s' q'.1.keeps)
  | makeShared al v ks => exact pw_bind (s.makeShared fun p w' s' q' => fin some _ w' s' q'.keeps)
  | copyShared l =>
    refine pw_bind (pw_bind (pw_getH ?_))
    intro x hx
    exact s.newRef (s.same _ _ _ hx (fun h => h)) fun w' s' q' => fin some _ w' s' q'.keeps
  | moveShared l => exact pw_bind (s.moveShared fun w' s' q' _ => fin some _ w' s' q'.1.keeps)
  | dropShared p => exact pw_bind (s.dropShared fun w' s' k' _ => fin (fun _ => none) () w' s' k')
  | assignShared l m =>
    refine pw_bind ?_
    unfold assignShared
    exact pw_ite (fun _ => s.assignSharedY fun w' s' k' => fin (fun _ => none) () w' s' k')
      (fun _ => pw_pure (fin (fun _ => none) () w s (Q0.refl _).keeps))
  | assignSharedY l m => exact pw_bind (s.assignSharedY fun w' s' k' => fin (fun _ => none) () w' s' k')
  | moveAssignShared l m => exact pw_bind (s.moveAssignShared fun w' s' k' => fin (fun _ => none) () w' s' k')
  | resetShared l => exact pw_bind (s.resetShared fun w' s' k' => fin (fun _ => none) () w' s' k')
  | swapShared l m => exact pw_bind (s.swap fun _ _ w' _ _ s' q' _ => fin (fun _ => none) () w' s' q'.1.keeps)
  | newWeak => exact pw_bind (s.newHnd fun w' s' q' _ _ => fin some _ w' s' q'.1.keeps)
  | toWeak k l => exact pw_bind (s.toWeak fun w' s' q' => fin some _ w' s' q'.keeps)
  | moveWeak l => exact pw_bind (s.moveWeak fun w' s' q' => fin some _ w' s' q'.1.keeps)
  | dropWeak p => exact pw_bind (s.dropWeak fun w' s' q' => fin (fun _ => none) () w' s' q'.keeps)
  | resetWeak l => exact pw_bind (s.resetWeak fun w' s' q' => fin (fun _ => none) () w' s' q'.keeps)
  | assignWeak k l m => exact pw_bind (s.assignWeak fun w' s' q' => fin (fun _ => none) () w' s' q'.keeps)
  | moveAssignWeak l m => exact pw_bind (s.moveAssignWeak fun w' s' q' => fin (fun _ => none) () w' s' q'.keeps)
  | lock l =>
    refine pw_bind (pw_bind (pw_getH ?_))
    intro x hx
    exact s.newRef (s.same _ _ _ hx (fun h => h)) fun w' s' q' => fin some _ w' s' q'.keeps

end Nestl.SP
