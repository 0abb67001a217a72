import Verif.Vector.Ops2
set_option autoImplicit false
/-
The effect of constructing, destroying, swapping, moving and assigning vectors, and of observing them.
-/
namespace Nestl.Vec
variable {V : Type} [ElemSize V] {w w' : W V} {σ : Sg V} {s t p d : Ptr} {v u v' u' : Vec V} {n m pos : Nat} {x : V} {a : Arg V}
  {h : Ptr → Option (VCell V)}

/-- An empty vector without a block. -/
def bare (alloc : Nat) : Vec V := ⟨alloc, .null, [], 0⟩

theorem St.new (hst : St h σ) {i : Nat} (hd : σ (.stk i) = none) (al : Nat) :
    St (upd h (.stk i) (some (.obj ⟨al, .null, 0, 0⟩))) (upd σ (.stk i) (some (bare al))) := by
  have hne : ∀ {t u}, σ t = some u → t ≠ .stk i := by
    intro t u ht h0; rw [h0, hd] at ht; cases ht
  refine ⟨?_, ?_, ?_, ?_⟩
  · intro t u ht
    by_cases h0 : t = .stk i
    · subst h0; rw [upd_same] at ht; cases ht
      exact ⟨⟨i, rfl⟩, upd_same _ _ _⟩
    · rw [upd_other _ _ h0] at ht
      obtain ⟨h1, h2⟩ := hst.obj _ _ ht
      exact ⟨h1, by rw [upd_other _ _ h0]; exact h2⟩
  · intro t u ht
    by_cases h0 : t = .stk i
    · subst h0; rw [upd_same] at ht; cases ht
      exact ⟨Nat.le_refl _, by simp [Fits, bare], .inl ⟨rfl, rfl⟩⟩
    · rw [upd_other _ _ h0] at ht
      have h1 := hst.ok _ _ ht
      refine ⟨h1.len, h1.fits, ?_⟩
      rcases h1.blk with h2 | ⟨⟨b, h2⟩, h3⟩
      · exact .inl h2
      · exact .inr ⟨⟨b, h2⟩, by rw [h2, upd_other _ _ (by simp), ← h2]; exact h3⟩
  · intro t t' u u' ht ht' he hn
    by_cases h0 : t = .stk i
    · subst h0; rw [upd_same] at ht; cases ht; exact absurd rfl hn
    · by_cases h1 : t' = .stk i
      · subst h1; rw [upd_same] at ht'; cases ht'; exact absurd he hn
      · rw [upd_other _ _ h0] at ht; rw [upd_other _ _ h1] at ht'
        exact hst.disj _ _ _ _ ht ht' he hn
  · intro q hq
    by_cases h0 : q = .stk i
    · left; rw [h0, upd_same]; simp
    · rw [upd_other _ _ h0] at hq ⊢
      rcases hst.cover q hq with h1 | ⟨t, u, h1, h2⟩
      · exact .inl h1
      · exact .inr ⟨t, u, by rw [upd_other _ _ (hne h1)]; exact h1, h2⟩

theorem wp_newVec (hst : St w.heap σ) (hd : σ (.stk w.sp) = none) (al : Nat) {Q : Ptr → W V → Prop}
    (hq : ∀ h', St h' (upd σ (.stk w.sp) (some (bare al))) → (∀ q, q ≠ .stk w.sp → h' q = w.heap q) →
      Q (.stk w.sp) { w with sp := w.sp + 1, heap := h' }) : wp (newVec al) w Q := by
  unfold newVec
  rw [wp_newObj]
  exact hq _ (hst.new hd al) fun q h0 => upd_other _ _ h0

theorem St.drop (hst : St h σ) (hs : σ s = some v) : St (upd (upd h v.start none) s none) (upd σ s none) := by
  refine ⟨?_, ?_, ?_, ?_⟩
  · intro t u ht
    by_cases h0 : t = s
    · subst h0; rw [upd_same] at ht; cases ht
    · rw [upd_other _ _ h0] at ht
      obtain ⟨h1, h2⟩ := hst.obj _ _ ht
      exact ⟨h1, by rw [upd_other _ _ h0, upd_other _ _ (hst.stk_ne ht hs)]; exact h2⟩
  · intro t u ht
    by_cases h0 : t = s
    · subst h0; rw [upd_same] at ht; cases ht
    · rw [upd_other _ _ h0] at ht
      have h1 := hst.ok _ _ ht
      refine ⟨h1.len, h1.fits, ?_⟩
      rcases h1.blk with h2 | ⟨⟨b, h2⟩, h3⟩
      · exact .inl h2
      · refine .inr ⟨⟨b, h2⟩, ?_⟩
        rw [upd_other _ _ (Ne.symm (hst.stk_ne hs ht)), upd_other _ _ ?_]
        · exact h3
        · intro h4; exact h0 (hst.disj _ _ _ _ ht hs h4 (by rw [h2]; simp))
  · intro t t' u u' ht ht' he hn
    by_cases h0 : t = s
    · subst h0; rw [upd_same] at ht; cases ht
    · by_cases h1 : t' = s
      · subst h1; rw [upd_same] at ht'; cases ht'
      · rw [upd_other _ _ h0] at ht; rw [upd_other _ _ h1] at ht'
        exact hst.disj _ _ _ _ ht ht' he hn
  · intro q hq
    by_cases h0 : q = s
    · rw [h0, upd_same] at hq; exact absurd rfl hq
    · rw [upd_other _ _ h0] at hq ⊢
      by_cases h1 : q = v.start
      · rw [h1, upd_same] at hq; exact absurd rfl hq
      · rw [upd_other _ _ h1] at hq
        rcases hst.cover q hq with h2 | ⟨t, u, h2, h3, h4⟩
        · exact .inl h2
        · refine .inr ⟨t, u, ?_, h3, h4⟩
          rw [upd_other _ _ ?_]
          · exact h2
          · intro h5; subst h5; rw [hs] at h2; cases h2; exact h1 h3.symm

theorem wp_destroyVec (hst : St w.heap σ) (hs : σ s = some v) {Q : Unit → W V → Prop}
    (hq : ∀ h', St h' (upd σ s none) → (∀ q, q ≠ s → q ≠ v.start → h' q = w.heap q) →
      (∀ b, h' (.dyn b) ≠ none → w.heap (.dyn b) ≠ none) → Q () (w.setHeap h')) :
    wp (destroyVec s) w Q := by
  have hsn := hst.ne_null hs
  have hok := hst.ok _ _ hs
  have hfin := hq _ (hst.drop hs) (by intro q h1 h2; rw [upd_other _ _ h1, upd_other _ _ h2]) (by
    intro b hb h0
    apply hb
    by_cases h1 : Ptr.dyn b = s
    · rw [h1, upd_same]
    · rw [upd_other _ _ h1]
      by_cases h2 : Ptr.dyn b = v.start
      · rw [h2, upd_same]
      · rw [upd_other _ _ h2]; exact h0)
  unfold destroyVec; simp only [wp_bind]
  rw [wp_rdObj (hst.obj _ _ hs).2 hsn]
  have hne : s ≠ v.start := hst.stk_ne hs hs
  refine wp_destroyAll hok rfl ⟨?_, ?_⟩
  · intro h0
    simp only [h0, wp_deallocate_null]
    rw [wp_dropObj (hst.obj _ _ hs).2]
    rw [h0, upd_self _ _ _ hst.null] at hfin
    exact hfin
  · intro h0
    obtain ⟨b, h1⟩ : ∃ b, v.start = .dyn b := by
      rcases hok.blk with ⟨h1, _⟩ | ⟨h1, _⟩
      · exact absurd h1 h0
      · exact h1
    simp only [h1]
    rw [wp_deallocate (i := v.cap) (by simp)]
    rw [wp_dropObj (c := v.obj) (by
      simp only [World.setHeap_heap]
      rw [upd_other _ _ (by rw [← h1]; exact hne), upd_other _ _ (by rw [← h1]; exact hne)]; exact (hst.obj _ _ hs).2)]
    rw [h1] at hfin
    simpa using hfin

/-- `v'` has the block and the elements of `u`, and its allocator unless there is no block. -/
structure Like (u v' : Vec V) : Prop where
  start : v'.start = u.start
  els : v'.els = u.els
  cap : v'.cap = u.cap
  alloc : u.start ≠ .null → v'.alloc = u.alloc

omit [ElemSize V] in
theorem Like.blk (h : Like u v') (hn : u.start ≠ .null) : v'.blk = u.blk := by
  unfold Vec.blk; rw [h.els, h.cap, h.alloc hn]

theorem St.exchange (hst : St h σ) (hs : σ s = some v) (ht : σ t = some u) (hne : s ≠ t) (hv : Like u v') (hu : Like v u') :
    St (upd (upd h s (some v'.obj)) t (some u'.obj)) (upd (upd σ s (some v')) t (some u')) := by
  -- every vector of the new set is like an old one
  have hold : ∀ {r x}, upd (upd σ s (some v')) t (some u') r = some x → ∃ r' y, σ r' = some y ∧ Like y x ∧
      (r = s ∧ r' = t ∨ r = t ∧ r' = s ∨ r ≠ s ∧ r ≠ t ∧ r' = r) := by
    intro r x hx
    by_cases h1 : r = t
    · rw [h1, upd_same] at hx; cases hx; exact ⟨s, v, hs, hu, .inr (.inl ⟨h1, rfl⟩)⟩
    · rw [upd_other _ _ h1] at hx
      by_cases h2 : r = s
      · rw [h2, upd_same] at hx; cases hx; exact ⟨t, u, ht, hv, .inl ⟨h2, rfl⟩⟩
      · rw [upd_other _ _ h2] at hx
        exact ⟨r, x, hx, ⟨rfl, rfl, rfl, fun _ => rfl⟩, .inr (.inr ⟨h2, h1, rfl⟩)⟩
  have hh : ∀ {r y}, σ r = some y → y.start ≠ .null → upd (upd h s (some v'.obj)) t (some u'.obj) y.start = h y.start := by
    intro r y hr _
    rw [upd_other _ _ (Ne.symm (hst.stk_ne ht hr)), upd_other _ _ (Ne.symm (hst.stk_ne hs hr))]
  refine ⟨?_, ?_, ?_, ?_⟩
  · intro r x hx
    by_cases h1 : r = t
    · rw [h1, upd_same] at hx; cases hx
      exact ⟨h1 ▸ (hst.obj _ _ ht).1, by rw [h1, upd_same]⟩
    · rw [upd_other _ _ h1] at hx ⊢
      by_cases h2 : r = s
      · rw [h2, upd_same] at hx; cases hx
        exact ⟨h2 ▸ (hst.obj _ _ hs).1, by rw [h2, upd_same]⟩
      · rw [upd_other _ _ h2] at hx ⊢
        exact hst.obj _ _ hx
  · intro r x hx
    obtain ⟨r', y, h1, h2, _⟩ := hold hx
    have h3 := hst.ok _ _ h1
    refine ⟨by rw [h2.els, h2.cap]; exact h3.len, by rw [h2.cap]; exact h3.fits, ?_⟩
    rcases h3.blk with ⟨h4, h5⟩ | ⟨⟨b, h4⟩, h5⟩
    · exact .inl ⟨h2.start.trans h4, h2.cap.trans h5⟩
    · have h6 : y.start ≠ .null := by rw [h4]; simp
      exact .inr ⟨⟨b, h2.start.trans h4⟩, by rw [h2.start, hh h1 h6, h2.blk h6]; exact h5⟩
  · intro r r' x x' hx hx' he hn
    obtain ⟨q, y, h1, h2, h3⟩ := hold hx
    obtain ⟨q', y', h1', h2', h3'⟩ := hold hx'
    have := hst.disj _ _ _ _ h1 h1' (by rw [← h2.start, ← h2'.start]; exact he) (by rw [← h2.start]; exact hn)
    subst this
    rcases h3 with ⟨h4, h5⟩ | ⟨h4, h5⟩ | ⟨h4, h5, h6⟩ <;> rcases h3' with ⟨h4', h5'⟩ | ⟨h4', h5'⟩ | ⟨h4', h5', h6'⟩
    · rw [h4, h4']
    · exact absurd (h5'.symm.trans h5) hne
    · exact absurd (h6'.symm.trans h5) h5'
    · exact absurd (h5.symm.trans h5') hne
    · rw [h4, h4']
    · exact absurd (h6'.symm.trans h5) h4'
    · exact absurd (h6.symm.trans h5') h5
    · exact absurd (h6.symm.trans h5') h4
    · rw [← h6, ← h6']
  · intro q hq
    by_cases h1 : q = t
    · left; rw [h1, upd_same]; simp
    · rw [upd_other _ _ h1] at hq ⊢
      by_cases h2 : q = s
      · left; rw [h2, upd_same]; simp
      · rw [upd_other _ _ h2] at hq ⊢
        rcases hst.cover q hq with h3 | ⟨r, y, h3, h4, h5⟩
        · exact .inl h3
        · by_cases h6 : r = s
          · subst h6; rw [hs] at h3; cases h3
            exact .inr ⟨t, u', by rw [upd_same], hu.start.trans h4, h5⟩
          · by_cases h7 : r = t
            · subst h7; rw [ht] at h3; cases h3
              exact .inr ⟨s, v', by rw [upd_other _ _ hne, upd_same], hv.start.trans h4, h5⟩
            · exact .inr ⟨r, y, by rw [upd_other _ _ h7, upd_other _ _ h6]; exact h3, h4, h5⟩

/-- `swap_data` of two vectors. -/
theorem wp_swapData (hst : St w.heap σ) (hs : σ s = some v) (ht : σ t = some u) (hne : s ≠ t)
    (hv : u.start = .null ∨ v.alloc = u.alloc) (hu : v.start = .null ∨ u.alloc = v.alloc) {Q : Unit → W V → Prop}
    (hq : ∀ h', St h' (upd (upd σ s (some { u with alloc := v.alloc })) t (some { v with alloc := u.alloc })) →
      (∀ q, q ≠ s → q ≠ t → h' q = w.heap q) → Q () (w.setHeap h')) : wp (swapData s t) w Q := by
  unfold swapData; simp only [wp_bind]
  have hsn := hst.ne_null hs
  have htn := hst.ne_null ht
  have h1 := (hst.obj _ _ hs).2
  have h2 := (hst.obj _ _ ht).2
  rw [wp_rdObj h1 hsn, wp_rdObj h2 htn, wp_setObj h1 hsn]
  rw [wp_rdObj (o := ⟨u.alloc, u.start, u.els.length, u.cap⟩) (by simp only [World.setHeap_heap, upd_other _ _ (Ne.symm hne)]; exact h2) htn]
  rw [wp_setObj (c := u.obj) (by simp only [World.setHeap_heap, upd_other _ _ (Ne.symm hne)]; exact h2) htn]
  refine hq _ (hst.exchange hs ht hne (v' := { u with alloc := v.alloc }) (u' := { v with alloc := u.alloc }) ?_ ?_) ?_
  · exact ⟨rfl, rfl, rfl, fun h0 => hv.resolve_left h0⟩
  · exact ⟨rfl, rfl, rfl, fun h0 => hu.resolve_left h0⟩
  · intro q h3 h4; simp only [World.setHeap_heap]; rw [upd_other _ _ h4, upd_other _ _ h3]

theorem wp_swapData_self {Q : Unit → W V → Prop} (hst : St w.heap σ) (hs : σ s = some v) (hq : Q () w) : wp (swapData s s) w Q := by
  unfold swapData; simp only [wp_bind]
  have hsn := hst.ne_null hs
  have h1 := (hst.obj _ _ hs).2
  have e : w.setHeap (upd w.heap s (some (.obj ⟨v.alloc, v.start, v.els.length, v.cap⟩))) = w := by
    have := upd_self _ _ _ h1
    exact congrArg w.setHeap this
  rw [wp_rdObj h1 hsn, wp_rdObj h1 hsn, wp_setObj h1 hsn, e, wp_rdObj h1 hsn, wp_setObj h1 hsn, e]
  exact hq

/-- `swap` of two vectors exchanges everything. -/
theorem wp_swap (hst : St w.heap σ) (hs : σ s = some v) (ht : σ t = some u) (hne : s ≠ t) {Q : Unit → W V → Prop}
    (hq : ∀ h', St h' (upd (upd σ s (some u)) t (some v)) →
      (∀ q, q ≠ s → q ≠ t → h' q = w.heap q) → Q () (w.setHeap h')) : wp (swap s t) w Q := by
  unfold swap; simp only [wp_bind]
  have hsn := hst.ne_null hs
  have htn := hst.ne_null ht
  have h1 := (hst.obj _ _ hs).2
  have h2 := (hst.obj _ _ ht).2
  rw [wp_rdObj h1 hsn, wp_rdObj h2 htn, wp_setObj h1 hsn]
  rw [wp_rdObj (o := ⟨u.alloc, u.start, u.els.length, u.cap⟩) (by simp only [World.setHeap_heap, upd_other _ _ (Ne.symm hne)]; exact h2) htn]
  rw [wp_setObj (c := u.obj) (by simp only [World.setHeap_heap, upd_other _ _ (Ne.symm hne)]; exact h2) htn]
  unfold swapData; simp only [wp_bind]
  rw [wp_rdObj (o := ⟨u.alloc, v.start, v.els.length, v.cap⟩) (by simp only [World.setHeap_heap, upd_other _ _ hne, upd_same]) hsn]
  rw [wp_rdObj (o := ⟨v.alloc, u.start, u.els.length, u.cap⟩) (by simp) htn]
  rw [wp_setObj (c := .obj ⟨u.alloc, v.start, v.els.length, v.cap⟩) (by simp only [World.setHeap_heap, upd_other _ _ hne, upd_same]) hsn]
  rw [wp_rdObj (o := ⟨v.alloc, u.start, u.els.length, u.cap⟩) (by simp [upd_other _ _ (Ne.symm hne)]) htn]
  rw [wp_setObj (c := .obj ⟨v.alloc, u.start, u.els.length, u.cap⟩) (by simp [upd_other _ _ (Ne.symm hne)]) htn]
  have := hq _ (hst.exchange hs ht hne (v' := u) (u' := v) ⟨rfl, rfl, rfl, fun _ => rfl⟩ ⟨rfl, rfl, rfl, fun _ => rfl⟩) (by
    intro q h3 h4; rw [upd_other _ _ h4, upd_other _ _ h3])
  have e : ∀ (A B C D : Option (VCell V)), upd (upd (upd (upd w.heap s A) t B) s C) t D = upd (upd w.heap s C) t D := by
    intro A B C D
    rw [upd_comm (upd w.heap s A) _ _ (Ne.symm hne), upd_upd, upd_upd]
  simp only [World.setHeap_setHeap, World.setHeap_heap] at this ⊢
  rw [e]
  exact this

theorem wp_swap_self {Q : Unit → W V → Prop} (hst : St w.heap σ) (hs : σ s = some v) (hq : Q () w) : wp (swap s s) w Q := by
  unfold swap; simp only [wp_bind]
  have hsn := hst.ne_null hs
  have h1 := (hst.obj _ _ hs).2
  have e : w.setHeap (upd w.heap s (some (.obj ⟨v.alloc, v.start, v.els.length, v.cap⟩))) = w := by
    have := upd_self _ _ _ h1
    exact congrArg w.setHeap this
  rw [wp_rdObj h1 hsn, wp_rdObj h1 hsn, wp_setObj h1 hsn, e, wp_rdObj h1 hsn, wp_setObj h1 hsn, e]
  exact wp_swapData_self hst hs hq

omit [ElemSize V] in
theorem St.ne_new (hs : σ s = some v) (hd : σ d = none) : s ≠ d := by
  intro h0; rw [h0, hd] at hs; cases hs

theorem wp_moveCtor (hst : St w.heap σ) (ht : σ t = some u) (hd : σ (.stk w.sp) = none) {Q : Ptr → W V → Prop}
    (hq : ∀ h', St h' (upd (upd σ t (some (bare u.alloc))) (.stk w.sp) (some u)) →
      (∀ q, q ≠ t → q ≠ .stk w.sp → h' q = w.heap q) → Q (.stk w.sp) { w with sp := w.sp + 1, heap := h' }) :
    wp (moveCtor t) w Q := by
  have hne : t ≠ .stk w.sp := St.ne_new ht hd
  unfold moveCtor; simp only [wp_bind]
  rw [wp_rdObj (hst.obj _ _ ht).2 (hst.ne_null ht)]
  refine wp_newVec hst hd _ ?_
  intro h1 hst1 hfr1
  refine wp_swapData (σ := upd σ (.stk w.sp) (some (bare u.alloc))) (s := .stk w.sp) (t := t) (v := bare u.alloc) (u := u) (by exact hst1) (upd_same _ _ _) (by rw [upd_other _ _ hne]; exact ht) (Ne.symm hne) (.inr rfl) (.inr rfl) ?_
  intro h2 hst2 hfr2
  simp only [wp_pure]
  refine hq h2 ?_ ?_
  · rw [upd_upd, upd_comm _ _ _ (Ne.symm hne)] at hst2; exact hst2
  · intro q h3 h4; rw [hfr2 q h4 h3]; exact hfr1 q h4

theorem wp_moveAssign (hst : St w.heap σ) (hs : σ s = some v) (ht : σ t = some u) (hd : σ (.stk w.sp) = none)
    (hal : s = t ∨ u.start = .null ∨ v.alloc = u.alloc) {Q : Unit → W V → Prop}
    (hq : ∀ h', St h' (if s = t then upd σ s (some (bare v.alloc)) else
        upd (upd σ s (some { u with alloc := v.alloc })) t (some (bare u.alloc))) →
      (∀ b, h' (.dyn b) ≠ none → w.heap (.dyn b) ≠ none) → Q () { w with sp := w.sp + 1, heap := h' }) :
    wp (moveAssign s t) w Q := by
  have hsd : s ≠ .stk w.sp := St.ne_new hs hd
  have htd : t ≠ .stk w.sp := St.ne_new ht hd
  have hdyn : ∀ {r x} (b : Nat), σ r = some x → Ptr.dyn b ≠ r := by
    intro r x b hr h0
    obtain ⟨⟨i, rfl⟩, _⟩ := hst.obj _ _ hr; cases h0
  unfold moveAssign; simp only [wp_bind]
  refine wp_moveCtor hst hs hd ?_
  intro h1 hst1 hfr1
  by_cases hne : s = t
  · subst hne
    have e1 : upd (upd σ s (some (bare v.alloc))) (.stk w.sp) (some v) s = some (bare v.alloc) := by
      rw [upd_other _ _ hsd, upd_same]
    refine wp_swapData_self (by exact hst1) e1 ?_
    refine wp_destroyVec (by exact hst1) (upd_same _ _ _) ?_
    intro h2 hst2 _ hdy
    refine hq h2 ?_ ?_
    · rw [if_pos rfl]
      rw [upd_upd, upd_self _ _ _ (by rw [upd_other _ _ (Ne.symm hsd)]; exact hd)] at hst2
      exact hst2
    · intro b hb h0
      refine hdy b hb ?_
      exact (hfr1 _ (hdyn b hs) (by simp)).trans h0
  · have e1 : upd (upd σ s (some (bare v.alloc))) (.stk w.sp) (some v) s = some (bare v.alloc) := by
      rw [upd_other _ _ hsd, upd_same]
    have e2 : upd (upd σ s (some (bare v.alloc))) (.stk w.sp) (some v) t = some u := by
      rw [upd_other _ _ htd, upd_other _ _ (Ne.symm hne)]; exact ht
    refine wp_swapData (by exact hst1) e1 e2 hne (hal.resolve_left hne) (.inl rfl) ?_
    intro h2 hst2 hfr2
    refine wp_destroyVec (s := .stk w.sp) (v := v) (by exact hst2) ?_ ?_
    · rw [upd_other _ _ (Ne.symm htd), upd_other _ _ (Ne.symm hsd), upd_same]
    · intro h3 hst3 _ hdy
      refine hq h3 ?_ ?_
      · rw [if_neg hne]
        have e : upd (upd (upd (upd (upd σ s (some (bare v.alloc))) (.stk w.sp) (some v)) s
            (some { u with alloc := (bare v.alloc : Vec V).alloc })) t (some { (bare v.alloc : Vec V) with alloc := u.alloc })) (.stk w.sp) none =
            upd (upd σ s (some { u with alloc := v.alloc })) t (some (bare u.alloc)) := by
          funext q
          by_cases h4 : q = .stk w.sp
          · subst h4
            rw [upd_same, upd_other _ _ (Ne.symm htd), upd_other _ _ (Ne.symm hsd), hd]
          · rw [upd_other _ _ h4]
            by_cases h5 : q = t
            · subst h5; rw [upd_same, upd_same]; rfl
            · rw [upd_other _ _ h5, upd_other _ _ h5]
              by_cases h6 : q = s
              · subst h6; rw [upd_same, upd_same]; rfl
              · rw [upd_other _ _ h6, upd_other _ _ h6, upd_other _ _ h4, upd_other _ _ h6]
        rw [e] at hst3; exact hst3
      · intro b hb h0
        refine hdy b hb ?_
        refine (hfr2 _ (hdyn b hs) (hdyn b ht)).trans ?_
        exact (hfr1 _ (hdyn b hs) (by simp)).trans h0

/-! ### Assignment -/

omit [ElemSize V] in
theorem wp_ite {α : Type} {b : Bool} {x y : M (W V) α} {Q : α → W V → Prop} :
    wp (if b then x else y) w Q ↔ (if b then wp x w Q else wp y w Q) := by cases b <;> rfl

/-- Assigning the values `xs` ends with the first `k` of them in the vector. -/
structure Assigned (w : W V) (σ : Sg V) (s : Ptr) (xs : List V) (need : Nat) (k : Nat) (v' : Vec V) (w' : W V) : Prop where
  st : St w'.heap (upd σ s (some v'))
  adv : Adv w w'
  alloc : v'.alloc = defaultAlloc
  le : k ≤ xs.length
  els : v'.els = xs.take k
  ok : w'.err = none → k = xs.length
  good : Good w → Fits V need → w'.err = none

/-- The part of an assignment between the swap and the destruction of the old contents. -/
theorem wp_assignFrame {src : List (Arg V)} {xs : List V} {need : Nat} (hst : St w.heap σ) (he : w.err = none)
    (hs : σ s = some v) (hd : σ (.stk w.sp) = none) (hv : Vals w.heap src xs) {body : M (W V) Unit}
    (hbody : ∀ (w1 : W V) (σ1 : Sg V), St w1.heap σ1 → w1.err = none → σ1 s = some (bare defaultAlloc) →
      Vals w1.heap src xs → (∀ a ∈ src, Far (bare defaultAlloc) a) →
      wp body w1 fun _ w2 => ∃ k v', St w2.heap (upd σ1 s (some v')) ∧ Adv w1 w2 ∧ w2.sp = w1.sp ∧ v'.alloc = defaultAlloc ∧
        k ≤ xs.length ∧ v'.els = xs.take k ∧ (w2.err = none → k = xs.length) ∧ (Good w1 → Fits V need → w2.err = none)) :
    wp (do
      let tmp ← newVec defaultAlloc
      swap tmp s
      assertM ((← rdObj s).fin = 0)
      body
      destroyVec tmp) w fun _ w' => ∃ k v', Assigned w σ s xs need k v' w' := by
  have hsd : s ≠ .stk w.sp := St.ne_new hs hd
  have hdyn : ∀ (b : Nat), Ptr.dyn b ≠ s := by
    intro b h0
    obtain ⟨⟨i, rfl⟩, _⟩ := hst.obj _ _ hs; cases h0
  simp only [wp_bind]
  refine wp_newVec hst hd _ ?_
  intro h1 hst1 hfr1
  refine wp_swap (s := .stk w.sp) (t := s) (by exact hst1) (upd_same _ _ _) (by rw [upd_other _ _ hsd]; exact hs) (Ne.symm hsd) ?_
  intro h2 hst2 hfr2
  have hs2 : upd (upd (upd σ (.stk w.sp) (some (bare defaultAlloc))) (.stk w.sp) (some v)) s (some (bare defaultAlloc)) s =
    some (bare defaultAlloc) := upd_same _ _ _
  have hheap : ∀ q, q ≠ s → q ≠ .stk w.sp → h2 q = w.heap q := fun q h3 h4 => (hfr2 q h4 h3).trans (hfr1 q h4)
  rw [wp_rdObj (o := ⟨defaultAlloc, .null, 0, 0⟩) (by exact (hst2.obj _ _ hs2).2) (hst.ne_null hs)]
  simp only [wp_assertM]
  refine ⟨by simp, ?_⟩
  have hd0 : w.heap (.stk w.sp) = none := by
    refine Classical.byContradiction fun h0 => ?_
    rcases hst.cover _ h0 with h3 | ⟨r, y, h3, h4, _⟩
    · exact h3 hd
    · rcases (hst.ok _ _ h3).blk with ⟨h5, _⟩ | ⟨⟨b, h5⟩, _⟩ <;> rw [h5] at h4 <;> cases h4
  have hval : ∀ a x, Val w.heap a x → Val h2 a x := by
    intro a x hx
    refine hx.mono ?_
    rintro p i rfl
    refine hheap p (hst.val_ne hs hx) ?_
    obtain ⟨_, b, h3, _⟩ := hx
    intro h0; rw [h0, hd0] at h3; cases h3
  refine wp_mono (hbody _ _ hst2 he hs2 (hv.imp hval) ?_) ?_
  · intro a ha p i hai
    subst hai
    have : ∃ x, Val w.heap (.ref p i) x := by
      clear hbody hval
      induction hv with
      | nil => cases ha
      | cons h3 _ ih =>
        rcases List.mem_cons.1 ha with rfl | h4
        · exact ⟨_, h3⟩
        · exact ih h4
    obtain ⟨x, h3, _⟩ := this
    exact h3
  · rintro _ w2 ⟨k, v', h3, h4, h5, h6, h7, h8, h9, h10⟩
    refine wp_destroyVec (s := .stk w.sp) (v := v) h3 ?_ ?_
    · rw [upd_other _ _ (Ne.symm hsd), upd_other _ _ (Ne.symm hsd), upd_same]
    · intro h11 hst3 _ hdy
      have e : upd (upd (upd (upd (upd σ (.stk w.sp) (some (bare defaultAlloc))) (.stk w.sp) (some v)) s (some (bare defaultAlloc))) s
          (some v')) (.stk w.sp) none = upd σ s (some v') := by
        funext q
        by_cases h12 : q = .stk w.sp
        · subst h12; rw [upd_same, upd_other _ _ (Ne.symm hsd), hd]
        · rw [upd_other _ _ h12, upd_upd]
          by_cases h13 : q = s
          · subst h13; rw [upd_same, upd_same]
          · rw [upd_other _ _ h13, upd_other _ _ h13, upd_other _ _ h12, upd_other _ _ h12]
      rw [e] at hst3
      have hadv1 : Adv w ({ w with sp := w.sp + 1, heap := h1 }.setHeap h2) := by
        refine .same rfl (Nat.le_succ _) (Nat.le_refl _) (Nat.le_refl _) ?_
        intro b hb h0
        exact hb ((hheap _ (hdyn b) (by simp)).trans h0)
      refine ⟨k, v', hst3, ?_, h6, h7, h8, h9, ?_⟩
      · refine hadv1.trans (h4.trans ?_)
        exact .same rfl (Nat.le_refl _) (Nat.le_refl _) (Nat.le_refl _) hdy
      · intro hg hf
        exact h10 (hadv1.good hg) hf

theorem Reserved.cases_ok (h : Reserved w σ s v n w') (he : w'.err = none) :
    ∃ b, St w'.heap (upd σ s (some { v with start := .dyn b, cap := n })) ∧ w.heap (.dyn b) = none ∧
      (∀ q, q ≠ s → q ≠ v.start → w.heap q ≠ none → w'.heap q = w.heap q) ∧ w'.sp = w.sp := by
  cases h with
  | noRoom => simp at he
  | copyFailed => simp at he
  | ok b h' h1 h2 h3 h4 h5 h6 h7 h8 => exact ⟨b, h5, h3, h6, rfl⟩

theorem Reserved.cases_bad (h : Reserved w σ s v n w') (he : w'.err ≠ none) (he0 : w.err = none) :
    w'.heap = w.heap ∧ w'.sp = w.sp ∧ (Good w → Fits V n → False) := by
  cases h with
  | noRoom h1 => exact ⟨rfl, rfl, fun hg hf => Good.room hg hf h1⟩
  | copyFailed j h1 h2 h3 h4 => exact ⟨rfl, rfl, fun hg _ => by rw [hg.ctor] at h4; cases h4⟩
  | ok b h' => exact absurd he0 he

/-- `grow` and then appending (`assign_nothrow` with a known number of elements). -/
theorem wp_growFill {src : List (Arg V)} {xs : List V} (hst : St w.heap σ) (he : w.err = none)
    (hs : σ s = some (bare defaultAlloc)) (hv : Vals w.heap src xs) (hf : ∀ a ∈ src, Far (bare defaultAlloc) a)
    (hn : NoWrap V xs.length) {body : M (W V) Unit}
    (hbody : ∀ (w1 : W V) (v1 : Vec V), St w1.heap (upd σ s (some v1)) → v1.els = [] →
      wp (assignIter s src) w1 (fun _ w' => ∃ k v', Filled w1 (upd σ s (some v1)) s v1 xs k v' w') →
      wp body w1 fun _ w' => ∃ k v', Filled w1 (upd σ s (some v1)) s v1 xs k v' w') :
    wp (do
      grow s src.length
      if (← hasErr) then pure () else body) w fun _ w2 => ∃ k v', St w2.heap (upd σ s (some v')) ∧ Adv w w2 ∧ w2.sp = w.sp ∧
        v'.alloc = defaultAlloc ∧ k ≤ xs.length ∧ v'.els = xs.take k ∧ (w2.err = none → k = xs.length) ∧
        (Good w → Fits V (max 1 xs.length) → w2.err = none) := by
  simp only [wp_bind, wp_hasErr]
  have hlen := hv.length
  have hcap : growTo (bare defaultAlloc : Vec V).cap src.length = max 1 xs.length := by
    rw [hlen]; simp [growTo, bare]
  refine wp_mono (wp_grow hst he hs (by rw [hlen]; exact hn)) ?_
  intro _ w1 hr
  have hadv := hr.adv
  rw [hcap] at hr
  by_cases h0 : w1.err = none
  · rw [h0]
    refine wp_if_neg (by simp) ?_
    obtain ⟨b, h1, h2, h3, h4⟩ := hr.cases_ok h0
    have hvf := hv.step (v' := { (bare defaultAlloc : Vec V) with start := .dyn b, cap := max 1 xs.length }) hst hs hf (.inr h2) h3
    refine wp_mono (hbody w1 { (bare defaultAlloc : Vec V) with start := .dyn b, cap := max 1 xs.length } h1 rfl ?_) ?_
    · exact wp_assignIter h1 h0 (upd_same _ _ _) hvf.1 hvf.2
    · rintro _ w2 ⟨k, v', h5⟩
      refine ⟨k, v', ?_, hadv.trans h5.adv, h5.sp.trans h4, h5.alloc, h5.le, ?_, ?_, ?_⟩
      · have := h5.st; rwa [upd_upd] at this
      · have := h5.els; simpa [bare] using this
      · intro h6
        have := mt h5.err.2 (by simp [h6])
        have := h5.le
        omega
      · intro hg _
        refine h5.good (hadv.good hg) (.inr ?_)
        simp only [bare, List.length_nil]; omega
  · refine wp_if_pos (by cases hh : w1.err <;> simp_all) ?_
    obtain ⟨h1, h2, h3⟩ := hr.cases_bad h0 he
    refine ⟨0, bare defaultAlloc, ?_, hadv, h2, rfl, Nat.zero_le _, by simp [bare], fun h4 => absurd h4 h0, fun hg hfit => (h3 hg hfit).elim⟩
    rw [upd_self _ _ _ hs, h1]; exact hst

omit [ElemSize V] in
theorem Vals.replicate {hh : Ptr → Option (VCell V)} (hv : Val hh a x) (n : Nat) : Vals hh (List.replicate n a) (List.replicate n x) := by
  induction n with
  | zero => exact .nil
  | succ n ih => rw [List.replicate_succ, List.replicate_succ]; exact .cons hv ih

theorem wp_assignN (hst : St w.heap σ) (he : w.err = none) (hs : σ s = some v) (hd : σ (.stk w.sp) = none)
    (hv : Val w.heap a x) (hn : NoWrap V n) :
    wp (assignN s n a) w fun _ w' => ∃ k v', Assigned w σ s (List.replicate n x) (max 1 n) k v' w' := by
  have := wp_assignFrame (src := List.replicate n a) (xs := List.replicate n x) (need := max 1 n) hst he hs hd (Vals.replicate hv n)
    (body := do
      grow s (List.replicate n a).length
      if (← hasErr) then pure () else assignLoop s a n) ?_
  · unfold assignN
    simp only [wp_bind, List.length_replicate, wp_ite, wp_pure] at this ⊢
    exact this
  · intro w1 σ1 h1 h2 h3 h4 h5
    have := wp_growFill h1 h2 h3 h4 h5 (by simpa using hn) (body := assignLoop s a n) (by
      intro w1 v1 _ _ h6; rw [assignLoop_eq]; exact h6)
    simpa using this

theorem wp_assignRandom {src : List (Arg V)} {xs : List V} (hst : St w.heap σ) (he : w.err = none) (hs : σ s = some v)
    (hd : σ (.stk w.sp) = none) (hv : Vals w.heap src xs) (hn : NoWrap V xs.length) :
    wp (assignRandom s src) w fun _ w' => ∃ k v', Assigned w σ s xs (max 1 xs.length) k v' w' := by
  have := wp_assignFrame (src := src) (xs := xs) (need := max 1 xs.length) hst he hs hd hv
    (body := do
      grow s src.length
      if (← hasErr) then pure () else do
        assertM ((← rdObj s).fin = 0)
        assignIter s src) ?_
  · unfold assignRandom
    simp only [wp_bind, wp_ite, wp_pure] at this ⊢
    exact this
  · intro w1 σ1 h1 h2 h3 h4 h5
    refine wp_growFill h1 h2 h3 h4 h5 hn (body := do assertM ((← rdObj s).fin = 0); assignIter s src) ?_
    intro w1 v1 h6 h7 h8
    simp only [wp_bind]
    rw [wp_rdObj (h6.obj _ _ (upd_same _ _ _)).2 (h1.ne_null h3)]
    simp only [wp_assertM]
    exact ⟨by simp [h7], h8⟩

theorem wp_assignInput {src : List (Arg V)} {xs : List V} (hst : St w.heap σ) (he : w.err = none) (hs : σ s = some v)
    (hd : σ (.stk w.sp) = none) (hv : Vals w.heap src xs) :
    wp (assignInput s src) w fun _ w' => ∃ k v', Assigned w σ s xs (2 * xs.length) k v' w' := by
  have := wp_assignFrame (src := src) (xs := xs) (need := 2 * xs.length) hst he hs hd hv (body := assignIter s src) ?_
  · unfold assignInput
    simp only [wp_bind] at this ⊢
    exact this
  · intro w1 σ1 h1 h2 h3 h4 h5
    refine wp_mono (wp_assignIter h1 h2 h3 h4 h5) ?_
    rintro _ w2 ⟨k, v', h6⟩
    refine ⟨k, v', h6.st, h6.adv, h6.sp, h6.alloc, h6.le, by simpa [bare] using h6.els, ?_, ?_⟩
    · intro h7
      have := mt h6.err.2 (by simp [h7])
      have := h6.le
      omega
    · intro hg hf
      exact h6.good hg (.inl (by simpa [bare] using hf))

theorem wp_copyNothrow (hst : St w.heap σ) (he : w.err = none) (hs : σ s = some v) (ht : σ t = some u)
    (hd : σ (.stk w.sp) = none) :
    wp (copyNothrow s t) w fun _ w' => ∃ k v', Assigned w σ s u.els (max 1 u.els.length) k v' w' := by
  unfold copyNothrow; simp only [wp_bind]
  rw [wp_rdObj (hst.obj _ _ ht).2 (hst.ne_null ht)]
  have hu := hst.ok _ _ ht
  exact wp_assignRandom hst he hs hd (hst.refs ht) (hu.fits.noWrap.mono hu.len)

/-! ### Observation -/

theorem St.val (hst : St h σ) (hs : σ s = some v) {i : Nat} (hi : v.els[i]? = some x) : Val h (.ref v.start i) x := by
  have hok := hst.ok _ _ hs
  have hlt : i < v.els.length := (List.getElem?_eq_some_iff.1 hi).1
  have hl := hok.len
  rcases hok.blk with ⟨_, h1⟩ | ⟨⟨b, h1⟩, h2⟩
  · omega
  · refine ⟨by rw [h1]; simp, _, h2, ?_⟩
    simp only [slotsOf]
    rw [List.getElem?_append_left (by simpa using hlt), List.getElem?_map, hi]; rfl

theorem wp_slot (hst : St w.heap σ) (hs : σ s = some v) {i : Nat} (hi : v.els[i]? = some x) {Q : V → W V → Prop} :
    wp (slotRd v.start i) w Q ↔ Q x w := by
  obtain ⟨h1, b, h2, h3⟩ := hst.val hs hi
  exact wp_slotRd h2 h1 h3

theorem wp_at (hst : St w.heap σ) (hs : σ s = some v) {i : Nat} (hi : v.els[i]? = some x) {Q : V → W V → Prop} (hq : Q x w) :
    wp (at_ s i) w Q := by
  unfold at_; simp only [wp_bind]
  rw [wp_rdObj (hst.obj _ _ hs).2 (hst.ne_null hs)]
  simp only [wp_assertM, decide_eq_true_eq]
  refine ⟨(List.getElem?_eq_some_iff.1 hi).1, ?_⟩
  rw [wp_slot hst hs hi]; exact hq

theorem wp_eqLoop (hst : St w.heap σ) (hs : σ s = some v) (ht : σ t = some u) (eq : V → V → Bool) : ∀ (n i : Nat),
    i + n = v.els.length → v.els.length = u.els.length → ∀ {Q : Bool → W V → Prop},
    Q (((v.els.drop i).zip (u.els.drop i)).all fun p => eq p.1 p.2) w →
    wp (eqLoop eq v.start u.start i n) w Q := by
  intro n
  induction n with
  | zero =>
    intro i hi hl Q hq
    have h1 : v.els.drop i = [] := List.drop_eq_nil_of_le (by omega)
    rw [h1] at hq
    simpa [eqLoop] using hq
  | succ n ih =>
    intro i hi hl Q hq
    have h1 : i < v.els.length := by omega
    have h2 : i < u.els.length := by omega
    simp only [eqLoop, wp_bind]
    rw [wp_slot hst hs (List.getElem?_eq_getElem h1), wp_slot hst ht (List.getElem?_eq_getElem h2)]
    rw [List.drop_eq_getElem_cons h1, List.drop_eq_getElem_cons h2, List.zip_cons_cons, List.all_cons] at hq
    cases hc : eq v.els[i] u.els[i]
    · rw [hc] at hq
      exact wp_if_pos rfl (by simpa using hq)
    · rw [hc] at hq
      refine wp_if_neg (by simp) (ih (i + 1) (by omega) hl (by simpa using hq))

theorem wp_equal (hst : St w.heap σ) (hs : σ s = some v) (ht : σ t = some u) (eq : V → V → Bool) {Q : Bool → W V → Prop}
    (hq : Q (decide (v.els.length = u.els.length) && (v.els.zip u.els).all fun p => eq p.1 p.2) w) :
    wp (equal eq s t) w Q := by
  unfold equal; simp only [wp_bind]
  rw [wp_rdObj (hst.obj _ _ hs).2 (hst.ne_null hs), wp_rdObj (hst.obj _ _ ht).2 (hst.ne_null ht)]
  by_cases hl : v.els.length = u.els.length
  · refine wp_if_neg (by simp [hl]) (wp_eqLoop hst hs ht eq _ 0 (by simp) hl ?_)
    simpa [hl] using hq
  · refine wp_if_pos (by simp [hl]) ?_
    simpa [hl] using hq

end Nestl.Vec
