import Verif.Vector.Ops
set_option autoImplicit false
/-
The effect of appending, resizing, assigning, moving and destroying on a set of vectors.
-/
namespace Nestl.Vec
variable {V : Type} [ElemSize V] {w w' : W V} {σ : Sg V} {s t p : Ptr} {v u : Vec V} {n m pos : Nat} {x : V} {a : Arg V}

/-- The number of elements relocated by an insertion. -/
def relocs (v : Vec V) : Nat := if v.els.length = v.cap then v.els.length else 0

/-- The effect of an insertion that does not break the vector. -/
structure Put (w : W V) (σ : Sg V) (s : Ptr) (v : Vec V) (pos : Nat) (x : V) (v' : Vec V) (r : Nat) (w' : W V) : Prop where
  st : St w'.heap (upd σ s (some v'))
  adv : Adv w w'
  sp : w'.sp = w.sp
  alloc : v'.alloc = v.alloc
  ok : w'.err = none → v'.els = v.els.take pos ++ x :: v.els.drop pos ∧ r = pos
  bad : w'.err ≠ none → v'.els = v.els ∧ r = v.els.length
  keep : v.els.length < v.cap → v'.start = v.start ∧ v'.cap = v.cap ∧ w'.nAlloc = w.nAlloc
  grown : v.els.length = v.cap → w'.err = none → v'.cap = growTo v.cap (v.cap + 1) ∧ w'.nAlloc = w.nAlloc + 1
  capLe : v'.cap = v.cap ∨ v.els.length = v.cap ∧ v'.cap = growTo v.cap (v.cap + 1)
  ctors : w'.err = none → w'.nCtor = w.nCtor + relocs v + (v.els.length - pos) + 1
  start : v'.start = v.start ∨ w.heap v'.start = none
  frame : ∀ q, q ≠ s → q ≠ v.start → w.heap q ≠ none → w'.heap q = w.heap q
  cause : w'.err ≠ none ↔ v.els.length = v.cap ∧ NoRoom w (growTo v.cap (v.cap + 1)) ∨
    ∃ k, k ≤ relocs v + (v.els.length - pos) ∧ w.env.ctor (w.nCtor + k) = false

theorem Reserved.put (h : Reserved w σ s v (growTo v.cap (v.cap + 1)) w') (hst : St w.heap σ) (hs : σ s = some v)
    (hfull : v.els.length = v.cap) (he : w.err = none) (hne : w'.err ≠ none) : Put w σ s v pos x v v.els.length w' := by
  have hrel : relocs v = v.els.length := if_pos hfull
  have hadv := h.adv
  have hup : upd σ s (some v) = σ := upd_self _ _ _ hs
  cases h with
  | noRoom h1 =>
    refine ⟨by rw [hup]; exact hst, hadv, rfl, rfl, fun h0 => absurd h0 hne, fun _ => ⟨rfl, rfl⟩, fun h0 => by omega,
      fun _ h0 => absurd h0 hne, .inl rfl, fun h0 => absurd h0 hne, .inl rfl, fun _ _ _ _ => rfl, fun _ => .inl ⟨hfull, h1⟩, fun _ => hne⟩
  | copyFailed j h1 h2 h3 h4 =>
    refine ⟨by rw [hup]; exact hst, hadv, rfl, rfl, fun h0 => absurd h0 hne, fun _ => ⟨rfl, rfl⟩, fun h0 => by omega,
      fun _ h0 => absurd h0 hne, .inl rfl, fun h0 => absurd h0 hne, .inl rfl, fun _ _ _ _ => rfl, fun _ => .inr ⟨j, by omega, h4⟩, fun _ => hne⟩
  | ok => exact absurd he hne

theorem Room.relocated {v1 : Vec V} {w1 : W V} (h : Room w σ s v v1 w1) (hl : v.els.length ≤ v.cap) :
    w1.nCtor = w.nCtor + relocs v ∧ (v1.start = v.start ∨ w.heap v1.start = none) ∧
      (v1.cap = v.cap ∨ v.els.length = v.cap ∧ v1.cap = growTo v.cap (v.cap + 1)) := by
  unfold relocs
  by_cases hf : v.els.length = v.cap
  · obtain ⟨h1, h2, h3, h4, h5, _⟩ := h.grown hf
    exact ⟨by rw [if_pos hf]; exact h3, .inr h5, .inr ⟨hf, h1⟩⟩
  · obtain ⟨rfl, rfl⟩ := h.keep (by omega)
    exact ⟨by rw [if_neg hf]; rfl, .inl rfl, .inl rfl⟩

/-- An insertion does not break the vector if it is at the end, if no constructor fails, or if it reports no error. -/
theorem Inserted.put' {r : Nat} (h : Inserted w σ s v pos x r w') (hst : St w.heap σ) (hs : σ s = some v)
    (he : w.err = none) (hpos : pos ≤ v.els.length)
    (hnb : pos = v.els.length ∨ (∀ k, w.nCtor ≤ k → w.env.ctor k = true) ∨ w'.err = none) :
    ∃ v', Put w σ s v pos x v' r w' := by
  have hl := (hst.ok _ _ hs).len
  cases h with
  | refused _ h1 h2 h3 => exact ⟨v, h2.put hst hs h1 he h3⟩
  | failed v1 w1 h1 h2 =>
    have h3 := h1.relocated hl
    refine ⟨v1, h1.st, ⟨h1.adv.env, h1.adv.sp, h1.adv.nAlloc, Nat.le_succ_of_le h1.adv.nCtor, h1.adv.fresh⟩, h1.sp, h1.alloc, (by simp), fun _ => ⟨h1.els, rfl⟩, ?_, by simp, h3.2.2, by simp,
      h3.2.1, h1.frame, fun _ => .inr ⟨relocs v, Nat.le_add_right _ _, ?_⟩, by simp⟩
    · intro h0; obtain ⟨rfl, rfl⟩ := h1.keep h0; exact ⟨rfl, rfl, rfl⟩
    · rw [← h3.1, ← h1.adv.env]; exact h2
  | broken v1 w1 j h1 h2 h3 h4 h5 =>
    rcases hnb with h6 | h6 | h6
    · omega
    · rw [h1.adv.env, h6 _ (Nat.le_trans h1.adv.nCtor (Nat.le_add_right _ _))] at h5; cases h5
    · cases h6
  | ok v1 w1 h' h1 h2 h3 h4 =>
    have h5 := h1.relocated hl
    have he1 := h1.err
    refine ⟨_, h3, ⟨h1.adv.env, h1.adv.sp, h1.adv.nAlloc, Nat.le_trans h1.adv.nCtor (Nat.le_add_right _ _), ?_⟩, h1.sp, h1.alloc, fun _ => ⟨rfl, rfl⟩, fun h0 => absurd he1 h0, ?_, ?_, h5.2.2, ?_, h5.2.1, ?_, ?_⟩
    · intro b hb
      refine h1.adv.fresh b ?_
      intro h0
      apply hb
      have hsd : Ptr.dyn b ≠ s := by obtain ⟨⟨i, rfl⟩, _⟩ := hst.obj _ _ hs; simp
      by_cases hbv : Ptr.dyn b = v1.start
      · rcases (h1.st.ok _ _ (upd_same _ _ _)).blk with ⟨h6, _⟩ | ⟨_, h6⟩
        · exact absurd h6 h1.some
        · rw [← hbv, h0] at h6; cases h6
      · exact (h4 _ hsd hbv).trans h0
    · intro h0; obtain ⟨rfl, rfl⟩ := h1.keep h0; exact ⟨rfl, rfl, rfl⟩
    · intro h0 _; exact ⟨(h1.grown h0).1, (h1.grown h0).2.1⟩
    · intro _; show w1.nCtor + _ = _; rw [h5.1]; omega
    · intro q h6 h7 h8
      have h9 : q ≠ v1.start := by
        rcases h5.2.1 with h9 | h9
        · rw [h9]; exact h7
        · exact fun h0 => h8 (h0 ▸ h9)
      exact (h4 q h6 h9).trans (h1.frame q h6 h7 h8)
    · refine ⟨fun h0 => absurd he1 h0, ?_⟩
      rintro (⟨h6, h7⟩ | ⟨k, h6, h7⟩)
      · exact absurd h7 (h1.grown h6).2.2.2.2.2.2.1
      · exfalso
        by_cases hk : k < relocs v
        · have hf : v.els.length = v.cap := by
            unfold relocs at hk; split at hk
            · assumption
            · omega
          have := (h1.grown hf).2.2.2.2.2.2.2 k (by unfold relocs at hk; rw [if_pos hf] at hk; exact hk)
          rw [this] at h7; cases h7
        · have := h2 (k - relocs v) (by omega)
          have e : w1.nCtor + (k - relocs v) = w.nCtor + k := by rw [h5.1]; omega
          rw [e, h1.adv.env, h7] at this; cases this

theorem Inserted.put {r : Nat} (h : Inserted w σ s v pos x r w') (hst : St w.heap σ) (hs : σ s = some v)
    (he : w.err = none) (hpos : pos ≤ v.els.length)
    (hnb : pos = v.els.length ∨ ∀ k, w.nCtor ≤ k → w.env.ctor k = true) :
    ∃ v', Put w σ s v pos x v' r w' :=
  h.put' hst hs he hpos (hnb.imp id .inl)

theorem wp_insert (hst : St w.heap σ) (he : w.err = none) (hs : σ s = some v) (hpos : pos ≤ v.els.length)
    (hv : Val w.heap a x) (hap : Apart v pos a) (hnb : pos = v.els.length ∨ ∀ k, w.nCtor ≤ k → w.env.ctor k = true) :
    wp (insertValue s pos a) w fun r w' => ∃ v', Put w σ s v pos x v' r w' :=
  wp_mono (wp_insertValue hst he hs hpos hv hap) fun _ _ h => h.put hst hs he hpos hnb

/-- The argument is not an element of the vector `v`. -/
def Far (v : Vec V) (a : Arg V) : Prop := ∀ p i, a = .ref p i → p ≠ v.start

omit [ElemSize V] in
theorem Far.apart (h : Far v a) : Apart v pos a := by
  cases a with
  | lit _ => trivial
  | ref p i => exact fun h0 => absurd h0 (h p i rfl)

theorem wp_pushBack (hst : St w.heap σ) (he : w.err = none) (hs : σ s = some v) (hv : Val w.heap a x)
    (hap : Apart v v.els.length a) :
    wp (pushBack s a) w fun _ w' => ∃ v', Put w σ s v v.els.length x v' v.els.length w' := by
  unfold pushBack; simp only [wp_bind]
  rw [wp_rdObj (hst.obj _ _ hs).2 (hst.ne_null hs)]
  refine wp_mono (wp_insert hst he hs (Nat.le_refl _) hv hap (.inl rfl)) ?_
  rintro r w' ⟨v', h⟩
  have e : r = v.els.length := by
    by_cases h0 : w'.err = none
    · exact (h.ok h0).2
    · exact (h.bad h0).2
  exact ⟨v', e ▸ h⟩

theorem Put.appended {r : Nat} {v' : Vec V} (h : Put w σ s v v.els.length x v' r w') (h0 : w'.err = none) :
    v'.els = v.els ++ [x] := by
  have := (h.ok h0).1; simpa using this

/-- Appending a sequence of values ends with the first `k` of them appended. -/
structure Filled (w : W V) (σ : Sg V) (s : Ptr) (v : Vec V) (xs : List V) (k : Nat) (v' : Vec V) (w' : W V) : Prop where
  st : St w'.heap (upd σ s (some v'))
  adv : Adv w w'
  sp : w'.sp = w.sp
  alloc : v'.alloc = v.alloc
  le : k ≤ xs.length
  els : v'.els = v.els ++ xs.take k
  err : w'.err ≠ none ↔ k < xs.length
  start : v'.start = v.start ∨ w.heap v'.start = none
  frame : ∀ q, q ≠ s → q ≠ v.start → w.heap q ≠ none → w'.heap q = w.heap q
  good : Good w → Fits V (2 * (v.els.length + xs.length)) ∨ v.els.length + xs.length ≤ v.cap → w'.err = none
  noAlloc : v.els.length + xs.length ≤ v.cap → w'.nAlloc = w.nAlloc ∧ v'.cap = v.cap ∧ v'.start = v.start

theorem Far.step {v' : Vec V} (hf : Far v a) (hv : Val w.heap a x) (h : v'.start = v.start ∨ w.heap v'.start = none) :
    Far v' a := by
  intro p i ha hp
  rcases h with h | h
  · exact hf p i ha (hp.trans h)
  · subst ha
    obtain ⟨_, b, h1, _⟩ := hv
    rw [hp, h] at h1; cases h1

theorem St.val_ne (hst : St w.heap σ) (hs : σ s = some v) {i : Nat} (hv : Val w.heap (.ref p i) x) : p ≠ s := by
  obtain ⟨_, b, h1, _⟩ := hv
  intro h0; rw [h0, (hst.obj _ _ hs).2] at h1; cases h1

theorem Val.frame (hv : Val w.heap a x) (hst : St w.heap σ) (hs : σ s = some v) (hf : Far v a)
    (h : ∀ q, q ≠ s → q ≠ v.start → w.heap q ≠ none → w'.heap q = w.heap q) : Val w'.heap a x := by
  refine hv.mono ?_
  rintro p i rfl
  have h1 := hst.val_ne hs hv
  obtain ⟨_, b, h2, _⟩ := hv
  exact h p h1 (hf p i rfl) (by simp [h2])

theorem Vals.step {as : List (Arg V)} {xs : List V} {v' : Vec V} (hv : Vals w.heap as xs) (hst : St w.heap σ)
    (hs : σ s = some v) (hf : ∀ a ∈ as, Far v a) (hstart : v'.start = v.start ∨ w.heap v'.start = none)
    (h : ∀ q, q ≠ s → q ≠ v.start → w.heap q ≠ none → w'.heap q = w.heap q) :
    Vals w'.heap as xs ∧ ∀ a ∈ as, Far v' a := by
  induction hv with
  | nil => exact ⟨.nil, by simp⟩
  | @cons b bs y ys hb hbs ih =>
    obtain ⟨i1, i2⟩ := ih fun c hc => hf c (List.mem_cons_of_mem _ hc)
    have hfb := hf b (by simp)
    refine ⟨.cons (hb.frame hst hs hfb h) i1, ?_⟩
    intro c hc
    rcases List.mem_cons.1 hc with rfl | hc
    · exact hfb.step hb hstart
    · exact i2 c hc

theorem wp_assignIter {as : List (Arg V)} : ∀ {w : W V} {σ : Sg V} {v : Vec V} {xs : List V}, St w.heap σ → w.err = none →
    σ s = some v → Vals w.heap as xs → (∀ a ∈ as, Far v a) →
    wp (assignIter s as) w fun _ w' => ∃ k v', Filled w σ s v xs k v' w' := by
  induction as with
  | nil =>
    intro w σ v xs hst he hs hv hf
    cases hv
    refine ⟨0, v, by rw [upd_self _ _ _ hs]; exact hst, .refl w, rfl, rfl, Nat.le_refl _, by simp, by simp [he], .inl rfl,
      fun _ _ _ _ => rfl, fun _ _ => he, fun _ => ⟨rfl, rfl, rfl⟩⟩
  | cons a as ih =>
    intro w σ v xs hst he hs hv hf
    cases hv with
    | @cons _ _ x xs hv1 hv2 =>
    simp only [assignIter, wp_bind, wp_hasErr]
    refine wp_mono (wp_pushBack hst he hs hv1 (hf a (by simp)).apart) ?_
    rintro _ w1 ⟨v1, h1⟩
    have hfull := (hst.ok _ _ hs).len
    have hgood : Good w → Fits V (2 * (v.els.length + (xs.length + 1))) ∨ v.els.length + (xs.length + 1) ≤ v.cap → w1.err = none := by
      intro hg hfit
      refine Classical.byContradiction fun h0 => ?_
      rcases h1.cause.1 h0 with ⟨h2, h3⟩ | ⟨k, _, h3⟩
      · rcases hfit with hfit | hfit
        · refine Good.room hg (hfit.mono ?_) h3
          unfold growTo; omega
        · omega
      · rw [hg.ctor] at h3; cases h3
    by_cases h0 : w1.err = none
    · rw [h0]
      refine wp_if_neg (by simp) ?_
      have hels := h1.appended h0
      have hs1 : upd σ s (some v1) s = some v1 := upd_same _ _ _
      have hv2' := hv2.step hst hs (fun c hc => hf c (List.mem_cons_of_mem _ hc)) h1.start h1.frame
      refine wp_mono (ih h1.st h0 hs1 hv2'.1 hv2'.2) ?_
      rintro _ w2 ⟨k, v2, h2⟩
      have hlen : v1.els.length = v.els.length + 1 := by rw [hels]; simp
      refine ⟨k + 1, v2, ?_, h1.adv.trans h2.adv, h2.sp.trans h1.sp, h2.alloc.trans h1.alloc, by simpa using h2.le, ?_, ?_, ?_, ?_, ?_, ?_⟩
      · have := h2.st; rwa [upd_upd] at this
      · rw [h2.els, hels]; simp
      · rw [h2.err]; simp
      · rcases h2.start with h3 | h3
        · rw [h3]; exact h1.start
        · rcases Classical.em (v2.start = v.start) with h4 | h4
          · exact .inl h4
          · right
            refine Classical.byContradiction fun h5 => ?_
            by_cases h6 : v2.start = s
            · exact h2.st.stk_ne (upd_same _ _ _) (upd_same _ _ _) h6.symm
            · rw [h1.frame _ h6 h4 h5] at h3; exact h5 h3
      · intro q h3 h4 h5
        have h6 := h1.frame q h3 h4 h5
        refine (h2.frame q h3 ?_ (by rw [h6]; exact h5)).trans h6
        rcases h1.start with h7 | h7
        · rw [h7]; exact h4
        · exact fun h8 => h5 (h8 ▸ h7)
      · intro hg hfit
        refine h2.good (h1.adv.good hg) ?_
        rw [hlen]
        rcases hfit with hfit | hfit
        · left; simpa [Nat.add_assoc, Nat.add_comm, Nat.add_left_comm] using hfit
        · right
          simp at hfit
          have := (h1.keep (by omega)).2.1
          omega
      · intro hfit
        simp at hfit
        have h3 := h1.keep (by omega)
        have h4 := h2.noAlloc (by omega)
        exact ⟨h4.1.trans h3.2.2, h4.2.1.trans h3.2.1, h4.2.2.trans h3.1⟩
    · refine wp_if_pos (by cases hh : w1.err <;> simp_all) ?_
      simp only [wp_pure]
      refine ⟨0, v1, h1.st, h1.adv, h1.sp, h1.alloc, Nat.zero_le _, ?_, ?_, h1.start, h1.frame, ?_, ?_⟩
      · rw [(h1.bad h0).1]; simp
      · simp [h0]
      · intro hg hfit; exact hgood hg (by simpa using hfit)
      · intro hfit
        simp at hfit
        have h3 := h1.keep (by omega)
        exact ⟨h3.2.2, h3.2.1, h3.1⟩

theorem assignLoop_eq (s : Ptr) (a : Arg V) (n : Nat) : assignLoop s a n = assignIter s (List.replicate n a) := by
  induction n with
  | zero => rfl
  | succ n ih => simp only [assignLoop, List.replicate_succ, assignIter, ih]

theorem resize_step {h : Ptr → Option (VCell V)} (hst : St h σ) (hs : σ s = some v) (hspare : v.els.length < v.cap) :
    v.start ≠ .null ∧ h v.start = some (.blk ⟨v.els.map some ++ none :: List.replicate (v.cap - v.els.length - 1) none, v.alloc, v.cap⟩) := by
  rcases (hst.ok _ _ hs).blk with ⟨_, h1⟩ | ⟨⟨a, h1⟩, h2⟩
  · omega
  · refine ⟨by rw [h1]; simp, ?_⟩
    rw [h2]; unfold Vec.blk slotsOf
    rw [← List.replicate_succ]; congr 6; omega

theorem wp_resizeLoop : ∀ (n : Nat) {w : W V} {σ : Sg V} {v : Vec V}, St w.heap σ → w.err = none →
    σ s = some v → Val w.heap a x → Far v a → v.els.length + n ≤ v.cap →
    wp (resizeLoop s a n) w fun _ w' => ∃ k v', Filled w σ s v (List.replicate n x) k v' w' := by
  intro n
  induction n with
  | zero =>
    intro w σ v hst he hs hv hf hn
    refine ⟨0, v, by rw [upd_self _ _ _ hs]; exact hst, .refl w, rfl, rfl, Nat.le_refl _, by simp, by simp [he], .inl rfl,
      fun _ _ _ _ => rfl, fun _ _ => he, fun _ => ⟨rfl, rfl, rfl⟩⟩
  | succ n ih =>
    intro w σ v hst he hs hv hf hn
    have hsn := hst.ne_null hs
    obtain ⟨hnn, hb⟩ := resize_step hst hs (by omega)
    simp only [resizeLoop, wp_bind, wp_hasErr]
    rw [wp_rdObj (hst.obj _ _ hs).2 hsn]
    refine wp_construct hv hb hnn (by simp) ?_ ?_
    · intro hc
      simp only [he]
      refine wp_if_neg (by simp) ?_
      simp only [wp_bind]
      have hne : s ≠ v.start := hst.stk_ne hs hs
      rw [wp_setObj (c := v.obj) (by simp only [upd_other _ _ hne]; exact (hst.obj _ _ hs).2) hsn]
      have key := hst.inPlace hs (els := v.els ++ [x]) (by simp; omega) hnn
      have e1 : Vec.blk { v with els := v.els ++ [x] } = .blk ⟨v.els.map some ++
          some x :: List.replicate (v.cap - v.els.length - 1) none, v.alloc, v.cap⟩ := by
        unfold Vec.blk slotsOf
        simp only [List.map_append, List.map_cons, List.append_assoc, List.cons_append, List.map_nil, List.nil_append]
        congr 5
        simp; omega
      have e2 : Vec.obj { v with els := v.els ++ [x] } = .obj ⟨v.alloc, v.start, v.els.length + 1, v.cap⟩ := by
        unfold Vec.obj; simp
      rw [e1, e2] at key
      refine wp_mono (ih key rfl (upd_same _ _ _) (hv.mono ?_) hf (by simp; omega)) ?_
      · rintro p i rfl
        simp only [World.setHeap_heap]
        rw [upd_other _ _ (hst.val_ne hs hv), upd_other _ _ (hf p i rfl)]
      · rintro _ w2 ⟨k, v2, h2⟩
        have hfr : ∀ q, q ≠ s → q ≠ v.start → (upd (upd w.heap v.start (some (.blk ⟨v.els.map some ++
          some x :: List.replicate (v.cap - v.els.length - 1) none, v.alloc, v.cap⟩))) s
            (some (.obj ⟨v.alloc, v.start, v.els.length + 1, v.cap⟩))) q = w.heap q := by
          intro q h3 h4; rw [upd_other _ _ h3, upd_other _ _ h4]
        have hadv : Adv w w2 := by
          refine Adv.trans ?_ h2.adv
          refine .same rfl (Nat.le_refl _) (Nat.le_refl _) (Nat.le_succ _) ?_
          intro b hb2 h0
          by_cases h3 : Ptr.dyn b = v.start
          · rw [h3, hb] at h0; cases h0
          · refine hb2 ((hfr _ ?_ h3).trans h0)
            obtain ⟨⟨i, rfl⟩, _⟩ := hst.obj _ _ hs; simp
        have hna := h2.noAlloc (by simp; omega)
        refine ⟨k + 1, v2, ?_, hadv, h2.sp, h2.alloc, by simpa using h2.le, ?_, ?_, .inl hna.2.2, ?_, ?_, ?_⟩
        · have := h2.st; rwa [upd_upd] at this
        · rw [h2.els]; simp [List.replicate_succ]
        · rw [h2.err]; simp
        · intro q h3 h4 h5
          have h6 := hfr q h3 h4
          exact (h2.frame q h3 h4 (by simp only [World.setHeap_heap]; rw [h6]; exact h5)).trans h6
        · intro hg _
          refine h2.good ?_ (.inr (by simp; omega))
          refine Adv.good ?_ hg
          refine .same rfl (Nat.le_refl _) (Nat.le_refl _) (Nat.le_succ _) ?_
          intro b hb2 h0
          by_cases h3 : Ptr.dyn b = v.start
          · rw [h3, hb] at h0; cases h0
          · refine hb2 ((hfr _ ?_ h3).trans h0)
            obtain ⟨⟨i, rfl⟩, _⟩ := hst.obj _ _ hs; simp
        · intro _; exact hna
    · intro hc
      refine wp_if_pos rfl ?_
      simp only [wp_pure]
      refine ⟨0, v, by simp only [upd_self _ _ _ hs]; exact hst, .same rfl (Nat.le_refl _) (Nat.le_refl _) (Nat.le_succ _) fun _ h => h,
        rfl, rfl, Nat.zero_le _, by simp, by simp, .inl rfl, fun _ _ _ _ => rfl, ?_, fun _ => ⟨rfl, rfl, rfl⟩⟩
      intro hg _
      rw [hg.ctor] at hc; cases hc

/-- How `do_resize` to more elements ends. -/
inductive Resized (w : W V) (σ : Sg V) (s : Ptr) (v : Vec V) (n : Nat) (x : V) : W V → Prop
  | refused (w' : W V) : Reserved w σ s v (growTo v.cap n) w' → w'.err ≠ none → Resized w σ s v n x w'
  | filled (w1 w' : W V) (v1 v' : Vec V) (k : Nat) : Reserved w σ s v (growTo v.cap n) w1 → w1.err = none →
      v1.els = v.els → v1.alloc = v.alloc → v1.cap = growTo v.cap n →
      Filled w1 (upd σ s (some v1)) s v1 (List.replicate (n - v.els.length) x) k v' w' → Resized w σ s v n x w'

theorem wp_resize_grow (hst : St w.heap σ) (he : w.err = none) (hs : σ s = some v) (hn : v.els.length < n) (hw : NoWrap V n)
    (hv : Val w.heap a x) (hf : Far v a) :
    wp (resize s n a) w fun _ w' => Resized w σ s v n x w' := by
  unfold resize; simp only [wp_bind]
  rw [wp_rdObj (hst.obj _ _ hs).2 (hst.ne_null hs)]
  refine wp_if_neg (by simp; omega) ?_
  simp only [wp_bind]
  refine wp_mono (wp_grow hst he hs hw) ?_
  intro _ w1 hr
  rw [wp_hasErr]
  have hr0 := hr
  cases hr with
  | noRoom h1 => exact wp_if_pos rfl (.refused _ hr0 (by simp))
  | copyFailed j h1 h2 h3 h4 => exact wp_if_pos rfl (.refused _ hr0 (by simp))
  | ok b h' h1 h2 h3 h4 h5 h6 h7 h8 =>
    simp only [he]
    refine wp_if_neg (by simp) ?_
    have hvp : ∀ p i, a = .ref p i → h' p = w.heap p := by
      rintro p i rfl
      have hps := hst.val_ne hs hv
      obtain ⟨_, c, h9, _⟩ := hv
      exact h6 p hps (hf p i rfl) (by simp [h9])
    refine wp_mono (wp_resizeLoop (n - v.els.length) h5 rfl (upd_same _ _ _) (hv.mono hvp) ?_ ?_) ?_
    · rintro p i rfl h9
      obtain ⟨_, c, h10, _⟩ := hv
      rw [h9] at h10; simp only at h10; rw [h3] at h10; cases h10
    · simp only [growTo]; omega
    · rintro _ w2 ⟨k, v2, h9⟩
      exact .filled _ w2 { v with start := .dyn b, cap := growTo v.cap n } v2 k hr0 he rfl rfl rfl (by rw [he]; exact h9)

theorem wp_resize_cut (hst : St w.heap σ) (hs : σ s = some v) (hn : n ≤ v.els.length) {Q : Unit → W V → Prop}
    (hq : ∀ w', St w'.heap (upd σ s (some { v with els := v.els.take n })) → Adv w w' → w'.err = w.err → w'.sp = w.sp →
      w'.nAlloc = w.nAlloc → w'.nCtor = w.nCtor → Q () w') :
    wp (resize s n a) w Q := by
  have hsn := hst.ne_null hs
  unfold resize; simp only [wp_bind]
  rw [wp_rdObj (hst.obj _ _ hs).2 hsn]
  refine wp_if_pos hn ?_
  simp only [wp_bind]
  have hl := (hst.ok _ _ hs).len
  rcases (hst.ok _ _ hs).blk with ⟨h1, h2⟩ | ⟨⟨b, h1⟩, h2⟩
  · have h3 : v.els.length = 0 := by omega
    have h4 : v.els.length - n = 0 := by omega
    simp only [h4, destroyRange, wp_pure]
    rw [wp_setObj (hst.obj _ _ hs).2 hsn]
    have h5 : v.els.take n = v.els := List.take_of_length_le (by omega)
    have h6 : n = v.els.length := by omega
    have h7 : upd w.heap s (some (.obj ⟨v.alloc, v.start, n, v.cap⟩)) = w.heap := by
      rw [h6]; exact upd_self _ _ _ (hst.obj _ _ hs).2
    rw [h7]
    exact hq _ (by rw [h5, upd_self _ _ _ hs]; exact hst) (.refl _) rfl rfl rfl rfl
  · have hnn : v.start ≠ .null := by rw [h1]; simp
    have e : v.els.length - n = (v.els.drop n).length := by simp
    rw [e]
    have hsl : slotsOf v.els v.cap = (v.els.take n).map some ++ ((v.els.drop n).map some ++
        List.replicate (v.cap - v.els.length) none) := by
      unfold slotsOf
      rw [← List.append_assoc, ← List.map_append, List.take_append_drop]
    have hb : w.heap v.start = some (.blk ⟨(v.els.take n).map some ++ ((v.els.drop n).map some ++
        List.replicate (v.cap - v.els.length) none), v.alloc, v.cap⟩) := by
      rw [h2]; unfold Vec.blk; rw [hsl]
    refine wp_destroyRange hnn (v.els.drop n) hb (by simp; omega) ?_
    have hne : s ≠ v.start := hst.stk_ne hs hs
    rw [wp_setObj (c := v.obj) (by simp only [World.setHeap_heap, upd_other _ _ hne]; exact (hst.obj _ _ hs).2) hsn]
    have key := hst.inPlace hs (els := v.els.take n) (by simp; omega) hnn
    have e1 : Vec.blk { v with els := v.els.take n } = .blk ⟨(v.els.take n).map some ++
        (List.replicate (v.els.drop n).length none ++ List.replicate (v.cap - v.els.length) none), v.alloc, v.cap⟩ := by
      unfold Vec.blk slotsOf
      rw [List.replicate_append_replicate]
      congr 4
      simp; omega
    have e2 : Vec.obj { v with els := v.els.take n } = .obj ⟨v.alloc, v.start, n, v.cap⟩ := by
      unfold Vec.obj; simp; omega
    rw [e1, e2] at key
    refine hq _ key ?_ rfl rfl rfl rfl
    refine .same rfl (Nat.le_refl _) (Nat.le_refl _) (Nat.le_refl _) ?_
    intro c hc h0
    by_cases h3 : Ptr.dyn c = v.start
    · rw [h3, h2] at h0; cases h0
    · apply hc
      simp only [World.setHeap_heap]
      rw [upd_other _ _ (by obtain ⟨⟨i, rfl⟩, _⟩ := hst.obj _ _ hs; simp), upd_other _ _ h3]; exact h0

theorem wp_clear (hst : St w.heap σ) (hs : σ s = some v) {Q : Unit → W V → Prop}
    (hq : ∀ w', St w'.heap (upd σ s (some { v with els := [] })) → Adv w w' → w'.err = w.err → w'.sp = w.sp →
      w'.nAlloc = w.nAlloc → w'.nCtor = w.nCtor → Q () w') :
    wp (clear s) w Q := by
  have e : clear s = resize (V := V) s 0 (.ref .null 0) := by unfold clear resize; simp
  rw [e]
  refine wp_resize_cut hst hs (Nat.zero_le _) ?_
  simpa using hq

/-- The effect of inserting the first `k` of the values `xs` at `pos`. -/
structure PutAll (w : W V) (σ : Sg V) (s : Ptr) (v : Vec V) (pos : Nat) (xs : List V) (k : Nat) (v' : Vec V) (w' : W V) : Prop where
  st : St w'.heap (upd σ s (some v'))
  adv : Adv w w'
  sp : w'.sp = w.sp
  alloc : v'.alloc = v.alloc
  le : k ≤ xs.length
  els : v'.els = v.els.take pos ++ xs.take k ++ v.els.drop pos
  err : w'.err ≠ none ↔ k < xs.length
  good : Good w → Fits V (2 * (v.els.length + xs.length)) → w'.err = none

theorem Put.noErr {r : Nat} {v' : Vec V} (hp : Put w σ s v pos x v' r w') (hg : Good w) (hm : Fits V (2 * (v.els.length + 1))) :
    w'.err = none := by
  refine Classical.byContradiction fun h0 => ?_
  rcases hp.cause.1 h0 with ⟨h2, h1⟩ | ⟨k, h1, h2⟩
  · refine Good.room hg (n := growTo v.cap (v.cap + 1)) (hm.mono ?_) h1
    unfold growTo; omega
  · rw [hg.ctor] at h2; cases h2

theorem wp_insertRangeLoop : ∀ (xs : List V) {w : W V} {σ : Sg V} {v : Vec V} {pos : Nat}, St w.heap σ → w.err = none →
    σ s = some v → pos ≤ v.els.length → (pos = v.els.length ∨ ∀ k, w.nCtor ≤ k → w.env.ctor k = true) →
    wp (insertRangeLoop s pos (xs.map Arg.lit)) w fun _ w' => ∃ k v', PutAll w σ s v pos xs k v' w' := by
  intro xs
  induction xs with
  | nil =>
    intro w σ v pos hst he hs hpos _
    exact ⟨0, v, by rw [upd_self _ _ _ hs]; exact hst, .refl _, rfl, rfl, Nat.le_refl _, by simp, by simp [he], fun _ _ => he⟩
  | cons x xs ih =>
    intro w σ v pos hst he hs hpos hnb
    simp only [List.map_cons, insertRangeLoop, wp_bind]
    refine wp_mono (wp_insert hst he hs hpos (a := .lit x) rfl trivial hnb) ?_
    rintro r w1 ⟨v1, hp⟩
    rw [wp_hasErr]
    by_cases h0 : w1.err = none
    · rw [h0]
      obtain ⟨h1, rfl⟩ := hp.ok h0
      refine wp_if_neg (by simp) ?_
      have hlen : v1.els.length = v.els.length + 1 := by rw [h1]; simp; omega
      refine wp_mono (ih hp.st h0 (upd_same _ _ _) (pos := r + 1) (by omega) ?_) ?_
      · refine hnb.imp (by omega) ?_
        intro h2 k hk
        rw [hp.adv.env]; exact h2 k (Nat.le_trans hp.adv.nCtor hk)
      · rintro _ w2 ⟨k, v2, h2⟩
        have hst2 := h2.st
        rw [upd_upd] at hst2
        refine ⟨k + 1, v2, hst2, hp.adv.trans h2.adv, h2.sp.trans hp.sp, h2.alloc.trans hp.alloc, ?_, ?_, ?_, ?_⟩
        · have := h2.le; simp; omega
        · have e1 : v1.els.take (r + 1) = v.els.take r ++ [x] := by
            rw [h1, List.take_append, List.length_take, Nat.min_eq_left hpos, List.take_of_length_le (by simp; omega)]
            simp
          have e2 : v1.els.drop (r + 1) = v.els.drop r := by
            rw [h1, List.drop_append, List.length_take, Nat.min_eq_left hpos, List.drop_eq_nil_of_le (by simp; omega)]
            simp
          rw [h2.els, e1, e2]; simp
        · rw [h2.err]; simp
        · intro hg hm
          refine h2.good (hp.adv.good hg) (hm.mono ?_)
          rw [hlen]; simp; omega
    · refine wp_if_pos (by cases h : w1.err <;> simp_all) ?_
      refine ⟨0, v1, hp.st, hp.adv, hp.sp, hp.alloc, Nat.zero_le _, by simp [(hp.bad h0).1], by simp [h0], ?_⟩
      intro hg hm
      exact hp.noErr hg (hm.mono (by simp; omega))

theorem wp_insertRange (hst : St w.heap σ) (he : w.err = none) (hs : σ s = some v) (hpos : pos ≤ v.els.length)
    (hnb : pos = v.els.length ∨ ∀ k, w.nCtor ≤ k → w.env.ctor k = true) (xs : List V) :
    wp (insertRange s pos (xs.map Arg.lit)) w fun _ w' => ∃ k v', PutAll w σ s v pos xs k v' w' := by
  unfold insertRange; simp only [wp_bind]
  rw [wp_rdObj (hst.obj _ _ hs).2 (hst.ne_null hs)]
  simp only [wp_assertM, decide_eq_true_eq]
  exact ⟨hpos, wp_insertRangeLoop xs hst he hs hpos hnb⟩

end Nestl.Vec
