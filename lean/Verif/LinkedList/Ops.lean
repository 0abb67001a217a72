import Verif.LinkedList.State
set_option autoImplicit false
/-
Effect of the basic `nestl::list` operations on the abstract state.
-/
namespace Nestl.LL
variable {V : Type} {w : W V} {σ : Sg V} {s : Ptr} {ls : Lst V}

/-! ### Iterators and observers -/

theorem Inv.on_pos (h : Inv w σ) (hs : σ s = some ls) {A B : List (El V)} (hA : ls.els = A ++ B) :
    On w.heap (posE s B) := h.st.on_pos hs hA

theorem Inv.link (h : Inv w σ) (hs : σ s = some ls) {A B : List (El V)} (hA : ls.els = A ++ B) :
    Lk w.heap (lastP s (ptrs A)) (posE s B) := by
  have := h.st.ring s ls hs; rw [hA, ptrs_append, Ring.split] at this; exact this.2.1

@[simp] theorem posE_nil : posE s ([] : List (El V)) = s := rfl
@[simp] theorem posE_cons {e : El V} {l} : posE s (e :: l) = e.p := rfl

theorem Inv.pos_ne (h : Inv w σ) (hs : σ s = some ls) {A B : List (El V)} {e : El V} (hA : ls.els = A ++ e :: B) :
    e.p ≠ posE s B := by
  have := h.st.ring_nodup hs
  rw [hA, ptrs_append] at this
  intro h2
  rcases firstP_mem s (ptrs B) with h3 | h3 <;> (unfold posE at h2; rw [← h2] at h3) <;> grind [ptrs_cons]

theorem Inv.pos_ne_end (h : Inv w σ) (hs : σ s = some ls) {e : El V} (he : e ∈ ls.els) : e.p ≠ s :=
  h.st.hdr_ne hs hs he

theorem wp_itEq {a b : Ptr} (ha : On w.heap a) (hb : On w.heap b) {Q : Bool → W V → Prop} :
    Q (decide (a = b)) w → wp (itEq a b) w Q := by
  intro hq
  unfold itEq
  simp only [wp_bind]
  exact wp_checkNode ha (wp_checkNode hb hq)

theorem wp_itEq_true {a b : Ptr} (ha : On w.heap a) (hab : a = b) {Q : Bool → W V → Prop}
    (hq : Q true w) : wp (itEq a b) w Q := by
  subst hab; exact wp_itEq ha ha (by simpa using hq)

theorem wp_itEq_false {a b : Ptr} (ha : On w.heap a) (hb : On w.heap b) (hab : a ≠ b) {Q : Bool → W V → Prop}
    (hq : Q false w) : wp (itEq a b) w Q :=
  wp_itEq ha hb (by simpa [hab] using hq)

theorem wp_deref (h : Inv w σ) (hs : σ s = some ls) {e : El V} (he : e ∈ ls.els) {Q : V → W V → Prop}
    (hq : Q e.v w) : wp (deref e.p) w Q := by
  unfold deref
  simp only [wp_bind]
  apply wp_checkNode (h.st.on_el hs he)
  obtain ⟨⟨a, ha⟩, hd⟩ := h.st.el s ls hs e he
  obtain ⟨c, hc, hv, -⟩ := dat_cell hd
  rw [wp_rd hc (by simp [ha]), hv]
  exact hq

theorem wp_incr (h : Inv w σ) (hs : σ s = some ls) {A B : List (El V)} {e : El V} (hA : ls.els = A ++ e :: B)
    {Q : Ptr → W V → Prop} (hq : Q (posE s B) w) : wp (incr e.p) w Q := by
  unfold incr
  simp only [wp_bind]
  apply wp_checkNode (h.on_pos hs hA)
  have hA2 : ls.els = (A ++ [e]) ++ B := by simp [hA]
  have hl := h.link hs hA2
  simp [lastP] at hl
  rw [wp_getNext hl.1]
  exact wp_checkNode (h.on_pos hs hA2) hq

theorem wp_decr (h : Inv w σ) (hs : σ s = some ls) {A B : List (El V)} {e : El V} (hA : ls.els = A ++ e :: B)
    {Q : Ptr → W V → Prop} (hq : Q e.p w) : wp (decr (posE s B)) w Q := by
  unfold decr
  simp only [wp_bind]
  have hA2 : ls.els = (A ++ [e]) ++ B := by simp [hA]
  apply wp_checkNode (h.on_pos hs hA2)
  have hl := h.link hs hA2
  simp [lastP] at hl
  rw [wp_getPrev hl.2]
  exact wp_checkNode (h.on_pos hs hA) hq

theorem wp_begin (h : Inv w σ) (hs : σ s = some ls) {Q : Ptr → W V → Prop} (hq : Q (posE s ls.els) w) :
    wp (begin_ s) w Q := by
  unfold begin_
  simp only [wp_bind]
  have hl : Lk w.heap s (posE s ls.els) := h.link hs (A := []) rfl
  rw [wp_getNext hl.1]
  exact wp_checkNode (h.on_pos hs (A := []) rfl) hq

theorem wp_end (h : Inv w σ) (hs : σ s = some ls) {Q : Ptr → W V → Prop} (hq : Q s w) : wp (end_ s) w Q := by
  unfold end_
  simp only [wp_bind]
  exact wp_checkNode (h.st.on_hdr hs) hq

theorem wp_empty (h : Inv w σ) (hs : σ s = some ls) {Q : Bool → W V → Prop} (hq : Q ls.els.isEmpty w) :
    wp (empty s) w Q := by
  unfold empty
  simp only [wp_bind]
  have hl : Lk w.heap s (posE s ls.els) := h.link hs (A := []) rfl
  rw [wp_getNext hl.1, wp_pure]
  cases hc : ls.els with
  | nil => rw [hc] at hq; simpa using hq
  | cons e l =>
    have := h.pos_ne_end hs (e := e) (by simp [hc])
    rw [hc] at hq; simpa [this] using hq

theorem wp_distance (h : Inv w σ) (hs : σ s = some ls) {A B : List (El V)} (hA : ls.els = A ++ B)
    {Q : Nat → W V → Prop} (hq : Q B.length w) : wp (distance (posE s B) s) w Q := by
  induction B generalizing A Q with
  | nil =>
    rw [distance]; simp only [wp_bind]
    apply wp_itEq_true (h.on_pos hs hA) rfl
    exact wp_if_pos rfl hq
  | cons e B ih =>
    rw [distance]; simp only [wp_bind]
    apply wp_itEq_false (h.on_pos hs hA) (h.st.on_hdr hs) (h.pos_ne_end hs (by simp [hA]))
    refine wp_if_neg (by simp) ?_
    simp only [wp_bind]
    apply wp_incr h hs hA
    apply ih (A := A ++ [e]) (by simp [hA])
    exact hq

theorem wp_size (h : Inv w σ) (hs : σ s = some ls) {Q : Nat → W V → Prop} (hq : Q ls.els.length w) :
    wp (size s) w Q := by
  unfold size
  simp only [wp_bind]
  apply wp_begin h hs
  apply wp_end h hs
  exact wp_distance h hs (A := []) rfl hq

theorem wp_front (h : Inv w σ) (hs : σ s = some ls) {e : El V} {l : List (El V)} (hl : ls.els = e :: l)
    {Q : V → W V → Prop} (hq : Q e.v w) : wp (front s) w Q := by
  unfold front
  simp only [wp_bind]
  apply wp_empty h hs
  simp only [wp_assertM]
  refine ⟨by simp [hl], ?_⟩
  apply wp_begin h hs
  rw [hl, posE_cons]
  exact wp_deref h hs (by simp [hl]) hq

theorem wp_back (h : Inv w σ) (hs : σ s = some ls) {e : El V} {l : List (El V)} (hl : ls.els = l ++ [e])
    {Q : V → W V → Prop} (hq : Q e.v w) : wp (back s) w Q := by
  unfold back
  simp only [wp_bind]
  apply wp_empty h hs
  simp only [wp_assertM]
  refine ⟨by simp [hl], ?_⟩
  apply wp_end h hs
  apply wp_decr h hs (B := []) hl
  exact wp_deref h hs (by simp [hl]) hq

/-! ### Relinking operations -/

theorem tail_facts {s y : Ptr} {l : List Ptr} (hn : (s :: l).Nodup) (h : y ∈ tailP s l) :
    (y = s ∨ y ∈ l) ∧ y ≠ firstP s l := by
  cases l with
  | nil => simp [tailP] at h
  | cons x l => simp [tailP, firstP] at h hn ⊢; grind

theorem sep2 {s t m : Ptr} {A P C M D : List Ptr}
    (hn : (s :: (A ++ (P ++ (t :: (C ++ (m :: (M ++ D))))))).Nodup) :
    firstP s P ≠ m ∧ firstP s P ≠ firstP t D ∧ m ≠ firstP t D ∧
    (∀ x, x ∈ A ∨ x ∈ tailP s P ∨ x ∈ C ∨ x ∈ M ∨ x ∈ tailP t D → x ≠ firstP s P ∧ x ≠ m ∧ x ≠ firstP t D) := by
  have k1 := fun y => @tail_facts s y P (by grind)
  have k2 := fun y => @tail_facts t y D (by grind)
  have f1 := firstP_mem s P
  have f2 := firstP_mem t D
  generalize firstP s P = pos at *
  generalize firstP t D = last at *
  generalize tailP s P = T1 at *
  generalize tailP t D = T2 at *
  simp only [List.nodup_cons, List.nodup_append, List.mem_append, List.mem_cons, not_or] at hn
  refine ⟨by grind, by grind, by grind, ?_⟩
  rintro x (h | h | h | h | h)
  · grind
  · have := k1 x h; grind
  · grind
  · grind
  · have := k2 x h; grind

theorem sep1 {s x y : Ptr} {A X Y B : List Ptr} (hn : (s :: (A ++ (x :: X ++ (y :: Y ++ B)))).Nodup) :
    x ≠ y ∧ x ≠ firstP s B ∧ y ≠ firstP s B ∧
    (∀ z, z ∈ A ∨ z ∈ X ∨ z ∈ Y ∨ z ∈ tailP s B → z ≠ x ∧ z ≠ y ∧ z ≠ firstP s B) := by
  have k1 := fun y => @tail_facts s y B (by grind)
  have f1 := firstP_mem s B
  generalize firstP s B = pos at *
  generalize tailP s B = T1 at *
  simp only [List.cons_append, List.nodup_cons, List.nodup_append, List.mem_append, List.mem_cons, not_or] at hn
  refine ⟨by grind, by grind, by grind, ?_⟩
  rintro x (h | h | h | h)
  · grind
  · grind
  · grind
  · have := k1 x h; grind

theorem St.ring_other {H H' : Heap V} (h : St H σ) {u : Ptr} {lu : Lst V} (hu : σ u = some lu)
    (hf : ∀ x y, Lk H x y → y = u ∨ y ∈ ptrs lu.els → Lk H' x y) : Ring H' u (ptrs lu.els) :=
  (h.ring u lu hu).frame fun a b h1 h2 => hf a b h1 (by simpa using h2)

theorem St.nodup2 {H : Heap V} (h : St H σ) (hs : σ s = some ls) {t : Ptr} {lt : Lst V} (ht : σ t = some lt)
    (hst : s ≠ t) : (s :: (ptrs ls.els ++ t :: ptrs lt.els)).Nodup := by
  have n1 := h.nodup s ls hs
  have n2 := h.nodup t lt ht
  have k1 := h.hdr_not_mem hs ht
  have k2 := h.hdr_not_mem ht hs
  have k3 := h.hdr_not_mem hs hs
  have k4 := h.hdr_not_mem ht ht
  have k5 := h.disj s t ls lt hs ht hst
  simp only [List.nodup_cons, List.nodup_append, List.mem_append, List.mem_cons, not_or]
  refine ⟨⟨k3, hst, k1⟩, n1, ⟨k4, n2⟩, ?_⟩
  rintro a ha b (rfl | hb) rfl
  · exact k2 ha
  · exact k5 a ha hb

/-- Nodes of another list. -/
theorem St.other {H : Heap V} (h : St H σ) (hs : σ s = some ls) {u : Ptr} {lu : Lst V} (hu : σ u = some lu)
    (hus : u ≠ s) {y : Ptr} (hy : y = u ∨ y ∈ ptrs lu.els) : y ≠ s ∧ y ∉ ptrs ls.els := by
  rcases hy with rfl | hy
  · exact ⟨hus, h.hdr_not_mem hu hs⟩
  · exact ⟨fun hc => h.hdr_not_mem hs hu (hc ▸ hy), fun hc => h.disj u s lu ls hu hs hus y hy hc⟩

/-- Transfer of a non-empty range between two lists. -/
theorem wp_transfer2 (h : Inv w σ) (hs : σ s = some ls) {t : Ptr} {lt : Lst V} (ht : σ t = some lt) (hst : s ≠ t)
    {A P C M D : List (El V)} {m : El V} (h1 : ls.els = A ++ P) (h2 : lt.els = C ++ (m :: M ++ D))
    {Q : Unit → W V → Prop}
    (hq : ∀ w' : W V, Adv w w' 0 → w'.err = w.err → w'.sp = w.sp →
      Inv w' (upd (upd σ s (some ⟨ls.alloc, A ++ (m :: M ++ P)⟩)) t (some ⟨lt.alloc, C ++ D⟩)) → Q () w') :
    wp (transfer (posE s P) m.p (posE t D)) w Q := by
  have hn := h.st.nodup2 hs ht hst
  have r1 := h.st.ring s ls hs
  have r2 := h.st.ring t lt ht
  have o1 := h.on_pos hs h1
  have o2 := h.on_pos ht h2
  have o3 := h.on_pos (B := D) ht (A := C ++ m :: M) (by simp [h2])
  have e1 : ptrs ls.els = ptrs A ++ ptrs P := by simp [h1]
  have e2 : ptrs lt.els = ptrs C ++ (m.p :: ptrs M ++ ptrs D) := by simp [h2]
  rw [e1, Ring.split] at r1
  rw [e2, Ring.split3] at r2
  rw [e1, e2] at hn
  have hsep := sep2 (by simpa using hn)
  unfold transfer
  simp only [wp_bind]
  apply wp_checkNode o1
  apply wp_checkNode o2
  apply wp_checkNode o3
  apply wp_transferNodes (pos := posE s P) (f := m.p) (last := posE t D) r1.2.1 r2.2.1 r2.2.2.2.1 o1 o2 o3
    hsep.1 hsep.2.1 hsep.2.2.1
  intro H' l1 l2 l3 fr hd
  have fr' : ∀ x y, Lk w.heap x y → (y ∈ ptrs A ∨ y ∈ tailP s (ptrs P) ∨ y ∈ ptrs C ∨ y ∈ ptrs M ∨
      y ∈ tailP t (ptrs D)) → Lk H' x y := fun x y hxy hy => by
    have := hsep.2.2.2 y hy
    exact fr x y hxy this.1 this.2.1 this.2.2
  apply hq _ (Adv.setHeap_dat hd) rfl rfl
  apply h.setHeap_dat _ hd
  apply h.st.relink2 hs ht hst
  · rw [h1, h2]
    classical
    simp only [List.perm_iff_count, List.count_append, List.count_cons]
    intro a; omega
  · exact hd
  · rw [ptrs_append, ptrs_append, ptrs_cons, Ring.split3]
    exact ⟨r1.1.frame fun a b hab hb => fr' _ _ hab (.inl hb), l1,
      r2.2.2.1.frame fun a b hab hb => fr' _ _ hab (.inr (.inr (.inr (.inl hb)))), l2,
      r1.2.2.frame fun a b hab hb => fr' _ _ hab (.inr (.inl hb))⟩
  · rw [ptrs_append, Ring.split]
    exact ⟨r2.1.frame fun a b hab hb => fr' _ _ hab (.inr (.inr (.inl hb))), l3,
      r2.2.2.2.2.frame fun a b hab hb => fr' _ _ hab (.inr (.inr (.inr (.inr hb))))⟩
  · intro u lu hu hus hut
    apply h.st.ring_other hu
    intro x y hxy hy
    have d1 := h.st.other hs hu hus hy
    have d2 := h.st.other ht hu hut hy
    rw [e1] at d1; rw [e2] at d2
    refine fr _ _ hxy ?_ ?_ ?_
    · rintro rfl; rcases firstP_mem s (ptrs P) with h3 | h3
      · exact d1.1 h3
      · exact d1.2 (List.mem_append_right _ h3)
    · rintro rfl; exact d2.2 (by simp)
    · rintro rfl; rcases firstP_mem t (ptrs D) with h3 | h3
      · exact d2.1 h3
      · exact d2.2 (List.mem_append_right _ (List.mem_append_right _ h3))

/-- Common part of the transfers within one list: the adjacent blocks `x :: X` and `y :: Y` are exchanged. -/
theorem St.exchange {H H' : Heap V} (h : St H σ) (hs : σ s = some ls) {A X Y B : List (El V)} {x y : El V}
    (h1 : ls.els = A ++ (x :: X ++ (y :: Y ++ B)))
    (l1 : Lk H' (lastP s (ptrs A)) y.p) (l2 : Lk H' (lastP y.p (ptrs Y)) x.p)
    (l3 : Lk H' (lastP x.p (ptrs X)) (posE s B))
    (fr : ∀ a b, Lk H a b → b ≠ x.p → b ≠ y.p → b ≠ posE s B → Lk H' a b) (hd : dat H' = dat H) :
    St H' (upd σ s (some ⟨ls.alloc, A ++ (y :: Y ++ (x :: X ++ B))⟩)) := by
  have hn := h.ring_nodup hs
  have r := h.ring s ls hs
  have e1 : ptrs ls.els = ptrs A ++ (x.p :: ptrs X ++ (y.p :: ptrs Y ++ ptrs B)) := by simp [h1]
  rw [e1] at hn
  rw [e1, Ring.split4] at r
  have hsep := sep1 hn
  have fr' : ∀ a b, Lk H a b → (b ∈ ptrs A ∨ b ∈ ptrs X ∨ b ∈ ptrs Y ∨ b ∈ tailP s (ptrs B)) → Lk H' a b :=
    fun a b hab hb => by
      have := hsep.2.2.2 b hb
      exact fr a b hab this.1 this.2.1 this.2.2
  apply h.relink1 hs _ hd
  · rw [ptrs_append, ptrs_append, ptrs_append, ptrs_cons, ptrs_cons, Ring.split4]
    exact ⟨r.1.frame fun a b hab hb => fr' _ _ hab (.inl hb), l1,
      r.2.2.2.2.1.frame fun a b hab hb => fr' _ _ hab (.inr (.inr (.inl hb))), l2,
      r.2.2.1.frame fun a b hab hb => fr' _ _ hab (.inr (.inl hb)), l3,
      r.2.2.2.2.2.2.frame fun a b hab hb => fr' _ _ hab (.inr (.inr (.inr hb)))⟩
  · intro u lu hu hus
    apply h.ring_other hu
    intro a b hab hb
    have d1 := h.other hs hu hus hb
    rw [e1] at d1
    refine fr _ _ hab ?_ ?_ ?_
    · rintro rfl; exact d1.2 (by simp)
    · rintro rfl; exact d1.2 (by simp)
    · rintro rfl; rcases firstP_mem s (ptrs B) with h3 | h3
      · exact d1.1 h3
      · exact d1.2 (by simp [posE, h3])
  · rw [h1]
    classical
    simp only [List.perm_iff_count, List.count_append, List.count_cons]
    intro a; omega

/-- Transfer within one list, to a later position. -/
theorem wp_transfer_later (h : Inv w σ) (hs : σ s = some ls) {A X Y B : List (El V)} {x y : El V}
    (h1 : ls.els = A ++ (x :: X ++ (y :: Y ++ B))) {Q : Unit → W V → Prop}
    (hq : ∀ w' : W V, Adv w w' 0 → w'.err = w.err → w'.sp = w.sp →
      Inv w' (upd σ s (some ⟨ls.alloc, A ++ (y :: Y ++ (x :: X ++ B))⟩)) → Q () w') :
    wp (transfer (posE s B) x.p y.p) w Q := by
  have hn := h.st.ring_nodup hs
  have r := h.st.ring s ls hs
  have e1 : ptrs ls.els = ptrs A ++ (x.p :: ptrs X ++ (y.p :: ptrs Y ++ ptrs B)) := by simp [h1]
  have o1 := h.on_pos (B := B) hs (A := A ++ x :: X ++ y :: Y) (by simp [h1])
  have o2 := h.on_pos hs h1
  have o3 := h.on_pos (B := y :: Y ++ B) hs (A := A ++ x :: X) (by simp [h1])
  rw [e1] at hn
  rw [e1, Ring.split4] at r
  have hsep := sep1 hn
  unfold transfer
  simp only [wp_bind]
  apply wp_checkNode o1
  apply wp_checkNode o2
  apply wp_checkNode o3
  apply wp_transferNodes (pos := posE s B) (f := x.p) (last := y.p) r.2.2.2.2.2.1 r.2.1 r.2.2.2.1 o1 o2 o3
    (Ne.symm hsep.2.1) (Ne.symm hsep.2.2.1) hsep.1
  intro H' l1 l2 l3 fr hd
  apply hq _ (Adv.setHeap_dat hd) rfl rfl
  apply h.setHeap_dat _ hd
  exact h.st.exchange hs h1 l3 l1 l2 (fun a b hab h1 h2 h3 => fr a b hab h3 h1 h2) hd

/-- Transfer within one list, to an earlier position. -/
theorem wp_transfer_earlier (h : Inv w σ) (hs : σ s = some ls) {A X Y B : List (El V)} {x y : El V}
    (h1 : ls.els = A ++ (x :: X ++ (y :: Y ++ B))) {Q : Unit → W V → Prop}
    (hq : ∀ w' : W V, Adv w w' 0 → w'.err = w.err → w'.sp = w.sp →
      Inv w' (upd σ s (some ⟨ls.alloc, A ++ (y :: Y ++ (x :: X ++ B))⟩)) → Q () w') :
    wp (transfer x.p y.p (posE s B)) w Q := by
  have hn := h.st.ring_nodup hs
  have r := h.st.ring s ls hs
  have e1 : ptrs ls.els = ptrs A ++ (x.p :: ptrs X ++ (y.p :: ptrs Y ++ ptrs B)) := by simp [h1]
  have o1 := h.on_pos (B := B) hs (A := A ++ x :: X ++ y :: Y) (by simp [h1])
  have o2 := h.on_pos hs h1
  have o3 := h.on_pos (B := y :: Y ++ B) hs (A := A ++ x :: X) (by simp [h1])
  rw [e1] at hn
  rw [e1, Ring.split4] at r
  have hsep := sep1 hn
  unfold transfer
  simp only [wp_bind]
  apply wp_checkNode o2
  apply wp_checkNode o3
  apply wp_checkNode o1
  apply wp_transferNodes (pos := x.p) (f := y.p) (last := posE s B) r.2.1 r.2.2.2.1 r.2.2.2.2.2.1 o2 o3 o1
    hsep.1 hsep.2.1 hsep.2.2.1
  intro H' l1 l2 l3 fr hd
  apply hq _ (Adv.setHeap_dat hd) rfl rfl
  apply h.setHeap_dat _ hd
  exact h.st.exchange hs h1 l1 l2 l3 fr hd

end Nestl.LL
