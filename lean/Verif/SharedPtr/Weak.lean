import Verif.SharedPtr.Ops
set_option autoImplicit false
/-
Effect of the `weak_ptr` operations.
-/
namespace Nestl.SP

variable {V : Type}

/-- What `weak_release` makes of a block. -/
def wrel (c : Blk V) : Option (Cell V) :=
  if c.weak - 1 = 0 ∧ c.use = 0 then none else some (.blk { c with weak := c.weak - 1 })

theorem wp_weakRelease_exact {w : W V} {b : Ptr} {c : Blk V} {a : Nat} (hb : w.heap b = some (.blk c)) (ha : b = .dyn a)
    (ho : c.owner = defaultAlloc) (hw : 0 < c.weak) {Q : Unit → W V → Prop} :
    wp (weakRelease b) w Q ↔ Q () (w.setHeap (upd w.heap b (wrel c))) := by
  have hn : b ≠ .null := by rw [ha]; intro h; cases h
  unfold weakRelease wrel
  rw [wp_bind, wp_rdBlk hb hn, wp_bind, wp_assertM]
  by_cases hz : c.weak - 1 = 0 ∧ c.use = 0
  · simp only [if_pos hz, wp_bind]
    rw [wp_setBlk hb hn, wp_destroySelf (c := { c with weak := c.weak - 1 }) (upd_same ..) ha ho]
    simp [hw]
  · simp only [if_neg hz, wp_bind]
    rw [wp_setBlk hb hn, wp_pure]
    simp [hw]

/-- The `weak_ptr` at `l` contains `z` but counts as empty. -/
structure Gh (T : Kind → Ptr → Int) (A : Hs) (B : Ptr → V → Prop) (L : Kind → Ptr → Prop) (l : Loc) (z : Hnd) (w : W V) : Prop where
  null : w.heap .null = none
  self : At w.heap .wk l z
  st : St T (A.put .wk l .nil) B L (w.setHeap (putH w.heap .wk l .nil))

section
variable {T : Kind → Ptr → Int} {A : Hs} {B : Ptr → V → Prop} {L : Kind → Ptr → Prop} {w : W V} {l : Loc} {z : Hnd}

theorem Gh.wp_get (g : Gh T A B L l z w) {Q : Hnd → W V → Prop} : wp (getH .wk l) w Q ↔ Q z w := wp_getH g.self g.null

theorem Gh.at_ne (g : Gh T A B L l z w) {k : Kind} {m : Loc} {y : Hnd} (hne : m ≠ l) (hy : A k m y) : At w.heap k m y := by
  have := Hs.put_ne (k := .wk) (y := .nil) hne hy
  rw [← g.st.at_] at this
  have := (at_putH g.self _ _ _).1 this
  rwa [if_neg hne] at this

theorem Gh.wp_get_ne (g : Gh T A B L l z w) {k : Kind} {m : Loc} {y : Hnd} (hne : m ≠ l) (hy : A k m y)
    {Q : Hnd → W V → Prop} : wp (getH k m) w Q ↔ Q y w := wp_getH (g.at_ne hne hy) g.null

theorem Gh.wp_set (g : Gh T A B L l z w) {y : Hnd} {Q : Unit → W V → Prop}
    (hQ : ∀ w', Fr w w' → Gh T A B L l y w' → Q () w') : wp (setH .wk l y) w Q := by
  rw [wp_setH g.self g.null]
  apply hQ
  · exact ⟨rfl, rfl, rfl, rfl, rfl, Nat.le_refl _, fun a ha => putH_stk g.self y ha⟩
  · refine ⟨putH_null g.self g.null y, at_putH_self g.self, ?_⟩
    simp only [World.setHeap_heap, putH_putH g.self, World.setHeap_setHeap]
    exact g.st

theorem putH_same {h : Heap V} {k : Kind} {x : Hnd} (hx : At h k l x) : putH h k l x = h := by
  cases l with
  | var p => exact upd_self _ _ _ hx
  | mem b i =>
    obtain ⟨c, o, h1, h2, h3⟩ := hx
    rw [putH_mem h1 h2]
    refine upd_self _ _ _ ?_
    rw [h1]
    have : o.mem.set i (k, x) = o.mem := by
      apply List.ext_getElem?
      intro j
      rw [List.getElem?_set]
      split
      · next e => subst e; split
                  · exact h3.symm
                  · next hh => rw [List.getElem?_eq_none (by omega)]
      · rfl
    cases c; cases o; simp_all

theorem Gh.fin (g : Gh T A B L l z w) (ht : z.ref ≠ .null → ∃ c, w.heap z.ref = some (.blk c)) :
    St (fun k b => T k b - ind k b (.wk, z)) (A.put .wk l z) B L w := by
  have h := St.wp_setRef g.st (k := .wk) (l := l) (x := .nil) (y := z) (Hs.put_self _ _ _ _) (by
    intro hz
    obtain ⟨c, hc⟩ := ht hz
    obtain ⟨c', h', -⟩ := blk_putH g.self .nil hc
    exact ⟨c', h'⟩) (Q := fun _ w' => St (fun k b => T k b - ind k b (.wk, z)) (A.put .wk l z) B L w') (by
    intro w' _ _ s
    rw [Hs.put_put] at s
    refine s.congr ?_
    intro k b hb
    have := ind_null (k := k) (k' := .wk) (x := Hnd.nil) rfl hb
    omega)
  rw [wp_setH (x := .nil) (at_putH_self g.self) (putH_null g.self g.null _)] at h
  simpa only [World.setHeap_heap, putH_putH g.self, World.setHeap_setHeap, putH_same g.self, World.setHeap_self] using h

/-- A block is a target of a handle other than the ghost. -/
theorem Gh.target (g : Gh T A B L l z w) {k : Kind} {m : Loc} {y : Hnd} (hne : m ≠ l) (hy : A k m y) (hr : y.ref ≠ .null) :
    ∃ c, w.heap y.ref = some (.blk c) := by
  obtain ⟨c, hc⟩ := g.st.target (Hs.put_ne hne hy) hr
  exact (blk_putH' g.self .nil hc).imp fun _ h => h.1

/-- An empty handle is a ghost too. -/
theorem St.ghost (s : St T A B L w) {x : Hnd} (hx : A .wk l x) (hr : x.ref = .null) : Gh T A B L l x w := by
  have hx' : At w.heap .wk l x := by rw [s.at_]; exact hx
  refine ⟨s.null, hx', ?_⟩
  have h := s.wp_setRef (y := .nil) hx (fun h => (h rfl).elim) (Q := fun _ w' => St T (A.put .wk l .nil) B L w') (by
    intro w' _ _ s'
    refine s'.congr ?_
    intro k b hb
    have := ind_null (k := k) (k' := .wk) (x := x) hr hb
    have := ind_null (k := k) (k' := .wk) (x := Hnd.nil) rfl hb
    omega)
  rwa [wp_setH hx' s.null] at h

/-- `weak_release` of the target of a handle that is still there. -/
theorem wp_weakRelease_at (s : G A B w) {x : Hnd} (hx : A .wk l x) (hr : x.ref ≠ .null) {Q : Unit → W V → Prop}
    (hQ : ∀ w', Fr w w' → Gh zero A B (fun _ _ => False) l x w' → Q () w') : wp (weakRelease x.ref) w Q := by
  have hx' : At w.heap .wk l x := by rw [s.at_]; exact hx
  obtain ⟨c, hc⟩ := s.target hx hr
  obtain ⟨dom, hi⟩ := s.inv
  have hw : 0 < c.weak := by
    have := hi.weak _ _ hc
    have := hi.tot_ge hx'
    simp only [zero] at *
    omega
  obtain ⟨a, ha⟩ := hi.shBlk _ _ hc
  have ho := hi.owner _ _ hc
  rw [wp_weakRelease_exact hc ha ho hw]
  -- the virtual world, where the handle has been cleared first
  have hv : St (fun k b => zero k b + ind k b (.wk, x)) (A.put .wk l .nil) B (L0 A) (w.setHeap (putH w.heap .wk l .nil)) := by
    have h := s.wp_setRef (y := .nil) hx (fun h => (h rfl).elim)
      (Q := fun _ w' => St (fun k b => zero k b + ind k b (.wk, x)) (A.put .wk l .nil) B (L0 A) w') (by
      intro w' _ _ s'
      refine s'.congr ?_
      intro k b hb
      have := ind_null (k := k) (k' := .wk) (x := Hnd.nil) rfl hb
      omega)
    rwa [wp_setH hx' s.null] at h
  obtain ⟨c0, hc0, e1, e2, e3⟩ := blk_putH hx' .nil hc
  have hrun := hv.wp_weakRelease (x := x) ⟨c0, hc0⟩ (fun k b => by simp [zero])
    (Q := fun _ w' => St zero (A.put .wk l .nil) B (fun _ _ => False) w') (by
      intro w' _ s'
      refine s'.congr ?_
      intro k b _
      simp only [zero]; omega)
  rw [wp_weakRelease_exact hc0 ha (by rw [e3.1]; exact ho) (by rw [e2]; exact hw)] at hrun
  have hlife := hi.life _ _ hc (by simp)
  -- what is left of the handles
  have hat : At (upd w.heap x.ref (wrel c)) .wk l x := by
    unfold wrel
    split
    · next hz =>
      have hobj : c.obj = none := by
        cases hob : c.obj with
        | none => rfl
        | some o => have := hlife.1.1 (by rw [hob]; simp); omega
      rw [(at_free hc hobj).1]; exact hx'
    · rw [(at_blk (c' := { c with weak := c.weak - 1 }) hc rfl).1]; exact hx'
  have hcomm : putH (upd w.heap x.ref (wrel c)) .wk l .nil = upd (putH w.heap .wk l .nil) x.ref (wrel c0) := by
    cases l with
    | var p =>
      have hne : p ≠ x.ref := by
        rintro rfl
        have hx' : w.heap _ = _ := hx'
        rw [hc] at hx'; cases hx'
      have : c0 = c := by
        have hc0 : upd w.heap p _ x.ref = _ := hc0
        rw [upd_other _ _ (Ne.symm hne), hc] at hc0
        cases hc0; rfl
      subst this
      exact upd_comm _ _ _ hne.symm
    | mem b i =>
      obtain ⟨c1, o, h1, h2, h3⟩ := hx'
      by_cases hb : b = x.ref
      · subst hb
        rw [hc] at h1; cases h1
        have hu : 0 < c.use := hlife.1.1 (by rw [h2]; simp)
        have hw1 : wrel c = some (.blk { c with weak := c.weak - 1 }) := by
          unfold wrel; rw [if_neg (by omega)]
        rw [hw1, putH_mem (c := { c with weak := c.weak - 1 }) (upd_same ..) h2, putH_mem hc h2]
        rw [putH_mem hc h2, upd_same] at hc0
        cases hc0
        simp only [upd_upd]
        unfold wrel
        rw [if_neg (by simp; omega)]
      · have hc0' : c0 = c := by
          rw [putH_mem h1 h2, upd_other _ _ (Ne.symm hb), hc] at hc0
          cases hc0; rfl
        subst hc0'
        rw [putH_mem (by rw [upd_other _ _ hb]; exact h1) h2, putH_mem h1 h2]
        exact upd_comm _ _ _ (Ne.symm hb)
  apply hQ
  · refine ⟨rfl, rfl, rfl, rfl, rfl, Nat.le_refl _, fun a ha => ?_⟩
    show upd w.heap x.ref (wrel c) _ = none
    rw [upd_other]
    · exact ha
    · intro h; rw [h, hc] at ha; cases ha
  · refine ⟨?_, hat, ?_⟩
    · show upd w.heap x.ref (wrel c) _ = none
      rw [upd_other _ _ (Ne.symm hr)]; exact s.null
    · simp only [World.setHeap_heap, World.setHeap_setHeap] at hrun ⊢
      rw [hcomm]; exact hrun

end

section
variable {A : Hs} {B : Ptr → V → Prop} {w : W V}

theorem wp_newWeak (s : G A B w) :
    wp newWeak w fun p w' => (p = .stk w.sp ∧ ∀ k z, ¬ A k (.var p) z) ∧ Post (A.put .wk (.var p) .nil) B w w' := by
  unfold newWeak
  refine s.wp_new (fun h => (h rfl).elim) ?_
  intro w' f _ hn s'
  exact ⟨⟨rfl, hn⟩, s'.post (fun k b hb => by have := ind_null (k := k) (k' := .wk) (x := Hnd.nil) rfl hb; simp [zero, this]) f⟩

theorem St.wp_moveWeak (s : St zero A B (L0 A) w) {l : Loc} {x : Hnd} (hx : A .wk l x) {Q : Ptr → W V → Prop}
    (hQ : ∀ w', Fr w w' → (∀ k z, ¬ A k (.var (.stk w.sp)) z) → Loc.var (.stk w.sp) ≠ l →
      St zero ((A.put .wk l .nil).put .wk (.var (.stk w.sp)) x) B (L0 A) w' → Q (.stk w.sp) w') : wp (moveWeak l) w Q := by
  unfold moveWeak
  rw [wp_bind, s.wp_get hx, wp_bind]
  refine s.wp_new (fun h => s.target hx h) ?_
  intro w1 f1 k1 hn s1
  have hne : Loc.var (.stk w.sp) ≠ l := by rintro rfl; exact hn _ _ hx
  have hx1 := Hs.put_ne (k := .wk) (y := x) (Ne.symm hne) hx
  rw [wp_bind, s1.wp_get hx1, wp_bind]
  refine s1.wp_setPtr (y := ⟨.null, x.ref⟩) hx1 (by rfl) ?_
  intro w2 f2 k2 s2
  have hx2 := Hs.put_self (A.put .wk (.var (.stk w.sp)) x) .wk l ⟨.null, x.ref⟩
  rw [wp_bind, s2.wp_get hx2, wp_bind]
  refine s2.wp_setRef (y := .nil) hx2 (fun h => (h rfl).elim) ?_
  intro w3 f3 k3 s3
  rw [wp_pure]
  refine hQ w3 ((f1.trans f2).trans f3) hn hne ?_
  rw [Hs.put_put, Hs.put_comm _ hne] at s3
  refine s3.congr ?_
  intro k b hb
  have := ind_null (k := k) (k' := .wk) (x := Hnd.nil) rfl hb
  have : ind k b (Kind.wk, (⟨.null, x.ref⟩ : Hnd)) = ind k b (.wk, x) := by simp [ind]
  simp only [zero]; omega

theorem wp_moveWeak (s : G A B w) {l : Loc} {x : Hnd} (hx : A .wk l x) :
    wp (moveWeak l) w fun p w' => (p = .stk w.sp ∧ ∀ k z, ¬ A k (.var p) z) ∧
      Post ((A.put .wk l .nil).put .wk (.var p) x) B w w' := by
  refine St.wp_moveWeak s hx ?_
  intro w' f hn _ s'
  exact ⟨⟨rfl, hn⟩, s'.post (fun _ _ _ => rfl) f⟩

theorem wp_toWeak (s : G A B w) {k : Kind} {l : Loc} {x : Hnd} (hx : A k l x) :
    wp (toWeak k l) w fun p w' => (p = .stk w.sp ∧ ∀ k z, ¬ A k (.var p) z) ∧ Post (A.put .wk (.var p) x) B w w' := by
  unfold toWeak
  rw [wp_bind, s.wp_get hx, wp_bind]
  refine s.wp_new (fun h => s.target hx h) ?_
  intro w1 f1 k1 hn s1
  by_cases hnull : x.ref = .null
  · rw [if_pos hnull]
    simp only []
    rw [wp_pure]
    exact ⟨⟨rfl, hn⟩, s1.post (fun k b hb => by have := ind_null (k := k) (k' := .wk) hnull hb; simp [zero, this]) f1⟩
  · rw [if_neg hnull, wp_bind]
    refine s1.wp_weakAddRef (k1 _ (s.target hx hnull)) ?_
    intro w2 f2 k2 s2
    rw [wp_pure]
    exact ⟨⟨rfl, hn⟩, s2.post (fun k b hb => by simp only [zero]; omega) (f1.trans f2)⟩

theorem St.wp_dropWeak {L : Kind → Ptr → Prop} (s : St zero A B L w) {p : Ptr} {x : Hnd} (hx : A .wk (.var p) x) :
    wp (dropWeak p) w fun _ w' => Post (A.del (.var p)) B w w' := by
  unfold dropWeak
  rw [wp_bind, s.wp_get hx, wp_bind]
  refine s.wp_drop hx ?_
  intro w1 f1 k1 s1
  by_cases hn : x.ref = .null
  · rw [if_pos hn, wp_pure]
    exact s1.post (fun k b hb => by have := ind_null (k := k) (k' := .wk) hn hb; simp [zero, this]) f1
  · rw [if_neg hn]
    refine s1.wp_weakRelease (k1 _ (s.target hx hn)) (fun k b => by simp [zero]) ?_
    intro w2 f2 s2
    exact s2.post (fun k b hb => by simp only [zero]; omega) (f1.trans f2)

theorem wp_dropWeak (s : G A B w) {p : Ptr} {x : Hnd} (hx : A .wk (.var p) x) :
    wp (dropWeak p) w fun _ w' => Post (A.del (.var p)) B w w' := St.wp_dropWeak s hx

theorem wp_resetWeak (s : G A B w) {l : Loc} {x : Hnd} (hx : A .wk l x) :
    wp (resetWeak l) w fun _ w' => Post (A.put .wk l .nil) B w w' := by
  unfold resetWeak
  rw [wp_bind, s.wp_get hx]
  have fin : ∀ z w1, z.ref = .null → Fr w w1 → Gh zero A B (fun _ _ => False) l z w1 →
      wp (do let h ← getH .wk l; setH .wk l { h with ptr := .null }) w1 fun _ w' => Post (A.put .wk l .nil) B w w' := by
    intro z w1 hz f1 g1
    rw [wp_bind, g1.wp_get]
    refine g1.wp_set ?_
    intro w2 f2 g2
    have := g2.fin (fun h => (h hz).elim)
    have e : ({ z with ptr := .null } : Hnd) = .nil := by cases z; simp_all [Hnd.nil]
    rw [e] at this
    exact this.post (fun k b hb => by have := ind_null (k := k) (k' := .wk) (x := Hnd.nil) rfl hb; simp [zero, this]) (f1.trans f2)
  by_cases hn : x.ref = .null
  · rw [if_pos hn]
    simp only []
    exact fin x w hn (Fr.refl _) ((s.weakenL (fun _ _ h => h.elim)).ghost hx hn)
  · rw [if_neg hn]
    simp only [wp_bind]
    refine wp_weakRelease_at s hx hn ?_
    intro w1 f1 g1
    rw [g1.wp_get]
    refine g1.wp_set ?_
    intro w2 f2 g2
    have := fin _ w2 rfl (f1.trans f2) g2
    rwa [wp_bind] at this

theorem wp_assignWeak_tail {L : Kind → Ptr → Prop} {l m : Loc} {k : Kind} {y z : Hnd} {w1 : W V} (f1 : Fr w w1)
    (g1 : Gh zero A B L l z w1) (hy : A k m y) (hm : m ≠ l) :
    wp (do
      let o ← getH k m
      let h ← getH .wk l
      setH .wk l { h with ptr := o.ptr }
      let o ← getH k m
      let h ← getH .wk l
      setH .wk l { h with ref := o.ref }
      let h ← getH .wk l
      if h.ref = .null then pure () else weakAddRef h.ref) w1 fun _ w' => Post (A.put .wk l y) B w w' := by
  rw [wp_bind, g1.wp_get_ne hm hy, wp_bind, g1.wp_get, wp_bind]
  refine g1.wp_set ?_
  intro w2 f2 g2
  rw [wp_bind, g2.wp_get_ne hm hy, wp_bind, g2.wp_get, wp_bind]
  refine g2.wp_set ?_
  intro w3 f3 g3
  have s3 := g3.fin (fun h => g3.target hm hy h)
  have f := (f1.trans f2).trans f3
  simp only [] at g3 s3
  rw [wp_bind, g3.wp_get]
  by_cases hn : y.ref = .null
  · rw [if_pos (show (⟨y.ptr, y.ref⟩ : Hnd).ref = .null from hn), wp_pure]
    exact s3.post (fun k b hb => by have := ind_null (k := k) (k' := .wk) (x := ⟨y.ptr, y.ref⟩) hn hb; simp [zero, this]) f
  · rw [if_neg (show ¬ (⟨y.ptr, y.ref⟩ : Hnd).ref = .null from hn)]
    refine s3.wp_weakAddRef (x := ⟨y.ptr, y.ref⟩) (g3.target hm hy hn) ?_
    intro w4 f4 k4 s4
    exact s4.post (fun k b hb => by simp only [zero]; omega) (f.trans f4)

theorem wp_assignWeak (s : G A B w) {k : Kind} {l m : Loc} {x y : Hnd} (hx : A .wk l x) (hy : A k m y) (hm : m ≠ l) :
    wp (assignWeak k l m) w fun _ w' => Post (A.put .wk l y) B w w' := by
  unfold assignWeak
  rw [wp_bind, s.wp_get hx]
  by_cases hn : x.ref = .null
  · rw [if_pos hn]
    simp only []
    exact wp_assignWeak_tail (Fr.refl _) (s.ghost hx hn) hy hm
  · rw [if_neg hn, wp_bind]
    refine wp_weakRelease_at s hx hn ?_
    intro w1 f1 g1
    exact wp_assignWeak_tail f1 g1 hy hm

/-- Self-assignment of a `weak_ptr` that is empty or whose block has another handle. -/
theorem wp_assignWeak_self (s : G A B w) {l : Loc} {x : Hnd} (hx : A .wk l x)
    (hother : x.ref ≠ .null → ∃ k m y, A k m y ∧ m ≠ l ∧ y.ref = x.ref) :
    wp (assignWeak .wk l l) w fun _ w' => Post A B w w' := by
  have hput : A.put .wk l x = A := Hs.put_same (fun k' z hz => s.det hx hz) hx
  have tail : ∀ L w1, Fr w w1 → Gh zero A B L l x w1 → wp (do
      let o ← getH .wk l
      let h ← getH .wk l
      setH .wk l { h with ptr := o.ptr }
      let o ← getH .wk l
      let h ← getH .wk l
      setH .wk l { h with ref := o.ref }
      let h ← getH .wk l
      if h.ref = .null then pure () else weakAddRef h.ref) w1 fun _ w' => Post A B w w' := by
    intro L w1 f1 g1
    rw [wp_bind, g1.wp_get, wp_bind, g1.wp_get, wp_bind]
    refine g1.wp_set ?_
    intro w2 f2 g2
    rw [wp_bind, g2.wp_get, wp_bind, g2.wp_get, wp_bind]
    refine g2.wp_set ?_
    intro w3 f3 g3
    have f := (f1.trans f2).trans f3
    have g3 : Gh zero A B L l x w3 := g3
    have ht : x.ref ≠ .null → ∃ c, w3.heap x.ref = some (.blk c) := by
      intro h
      obtain ⟨k, m, y, h1, h2, h3⟩ := hother h
      rw [← h3]
      exact g3.target h2 h1 (by rw [h3]; exact h)
    have s3 := g3.fin ht
    rw [hput] at s3
    rw [wp_bind, g3.wp_get]
    by_cases hn : x.ref = .null
    · rw [if_pos hn, wp_pure]
      exact s3.post (fun k b hb => by have := ind_null (k := k) (k' := .wk) (x := x) hn hb; simp [zero, this]) f
    · rw [if_neg hn]
      refine s3.wp_weakAddRef (ht hn) ?_
      intro w4 f4 k4 s4
      exact s4.post (fun k b hb => by simp only [zero]; omega) (f.trans f4)
  unfold assignWeak
  rw [wp_bind, s.wp_get hx]
  by_cases hn : x.ref = .null
  · rw [if_pos hn]
    simp only []
    exact tail _ w (Fr.refl _) (s.ghost hx hn)
  · rw [if_neg hn, wp_bind]
    refine wp_weakRelease_at s hx hn ?_
    intro w1 f1 g1
    exact tail _ w1 f1 g1

/-- Move assignment from an empty `weak_ptr`, or to itself. -/
theorem wp_moveAssignWeak (s : G A B w) {l m : Loc} {x y : Hnd} (hx : A .wk l x) (hy : A .wk m y)
    (hv : l = m ∨ y = .nil) : wp (moveAssignWeak l m) w fun _ w' => Post (A.put .wk l .nil) B w w' := by
  unfold moveAssignWeak
  rw [wp_bind]
  refine St.wp_moveWeak s hx ?_
  intro w1 f1 hn hne s1
  have hl1 : ((A.put .wk l .nil).put .wk (.var (.stk w.sp)) x) .wk l .nil := Hs.put_ne (Ne.symm hne) (Hs.put_self _ _ _ _)
  have hm1 : ((A.put .wk l .nil).put .wk (.var (.stk w.sp)) x) .wk m .nil := by
    by_cases hlm : m = l
    · rw [hlm]; exact hl1
    · have : y = .nil := hv.elim (fun h => (hlm h.symm).elim) id
      subst this
      refine Hs.put_ne ?_ (Hs.put_ne hlm hy)
      rintro rfl; exact hn _ _ hy
  have hput : ((A.put .wk l .nil).put .wk (.var (.stk w.sp)) x).put .wk l .nil = (A.put .wk l .nil).put .wk (.var (.stk w.sp)) x :=
    Hs.put_same (fun k' z hz => s1.det hl1 hz) hl1
  rw [wp_bind, s1.wp_get hm1, wp_bind, s1.wp_get hl1, wp_bind]
  refine s1.wp_setPtr (y := .nil) hl1 (by rfl) ?_
  intro w2 f2 k2 s2
  rw [hput] at s2
  rw [wp_bind, s2.wp_get hm1, wp_bind, s2.wp_get hl1, wp_bind]
  refine s2.wp_setPtr (y := .nil) hl1 (by rfl) ?_
  intro w3 f3 k3 s3
  rw [hput] at s3
  refine wp_mono (s3.wp_dropWeak (Hs.put_self _ _ _ _)) ?_
  intro _ w' hp
  refine hp.of ((f1.trans f2).trans f3) ?_
  rw [Hs.put_del]
  intro k z hz
  rw [Hs.put, if_neg hne] at hz; exact hn _ _ hz

/-- `lock` while the object is alive. -/
theorem wp_lock (s : G A B w) {l : Loc} {x : Hnd} (hx : A .wk l x) (hv : x.ref ≠ .null → ∃ v, B x.ref v) :
    wp (lock l) w fun p w' => (p = .stk w.sp ∧ ∀ k z, ¬ A k (.var p) z) ∧ Post (A.put .sh (.var p) x) B w w' := by
  unfold lock
  rw [wp_bind, s.wp_get hx, wp_bind]
  have s : St zero A B (fun k b => L0 A k b ∨ (k = .sh ∧ b ≠ .null ∧ b = x.ref)) w := by
    refine { s with live := ?_ }
    rintro k b (h | ⟨rfl, hb, rfl⟩)
    · exact s.live _ _ h
    · obtain ⟨v, hv⟩ := hv hb
      rw [← s.val] at hv
      obtain ⟨c, o, h1, h2, h3⟩ := hv
      obtain ⟨dom, hi⟩ := s.inv
      exact ⟨c, h1, fun _ => (hi.life _ _ h1 (by simp)).1.1 (by rw [h2]; simp)⟩
  refine s.wp_new (fun h => s.target hx h) ?_
  intro w1 f1 k1 hn s1
  by_cases hnull : x.ref = .null
  · rw [if_pos hnull]
    simp only []
    rw [wp_pure]
    exact ⟨⟨rfl, hn⟩, s1.post (fun k b hb => by have := ind_null (k := k) (k' := .sh) hnull hb; simp [zero, this]) f1⟩
  · rw [if_neg hnull, wp_bind]
    refine s1.wp_addRef (.inr ⟨rfl, hnull, rfl⟩) ?_
    intro w2 f2 k2 s2
    rw [wp_pure]
    exact ⟨⟨rfl, hn⟩, s2.post (fun k b hb => by simp only [zero]; omega) (f1.trans f2)⟩

end

end Nestl.SP
