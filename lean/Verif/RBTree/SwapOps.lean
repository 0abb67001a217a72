import Verif.RBTree.ModelSwap
import Verif.RBTree.Move
set_option autoImplicit false
/-
Swap and move assignment: effect on memory.
-/
namespace Nestl.RB
variable {K : Type}

section
variable {s t : Ptr} {w : W K} {H : Ptr → Option (TNode K)} {a b a' b' : TNode K}

/-- Memory with given cells at two addresses. -/
def two (H : Ptr → Option (TNode K)) (s : Ptr) (a : TNode K) (t : Ptr) (b : TNode K) : Ptr → Option (TNode K) :=
  upd (upd H s (some a)) t (some b)

theorem two_fst (h : s ≠ t) : two H s a t b s = some a := by
  unfold two; rw [upd_other _ _ h, upd_same]

theorem two_snd : two H s a t b t = some b := upd_same _ _ _

theorem two_other {q : Ptr} (h1 : q ≠ s) (h2 : q ≠ t) : two H s a t b q = H q := by
  unfold two; rw [upd_other _ _ h2, upd_other _ _ h1]

theorem upd_two_fst (h : s ≠ t) : upd (two H s a t b) s (some a') = two H s a' t b := by
  funext q
  unfold two upd
  by_cases e1 : q = s
  · subst e1; simp [h]
  · simp [e1]

theorem upd_two_snd : upd (two H s a t b) t (some b') = two H s a t b' := by
  unfold two; rw [upd_upd]

theorem two_self (hs : H s = some a) (ht : H t = some b) : two H s a t b = H := by
  funext q
  unfold two upd
  by_cases e1 : q = t
  · subst e1; simp [ht]
  · by_cases e2 : q = s
    · subst e2; simp [e1, hs]
    · simp [e1, e2]

theorem two_comm (h : s ≠ t) : two H s a t b = two H t b s a := by
  funext q
  unfold two upd
  by_cases e1 : q = t
  · subst e1; simp [Ne.symm h]
  · simp [e1]

theorem wp_two_rd1 {Q : TNode K → W K → Prop} (h : s ≠ t) (hs : s ≠ .null) (hQ : Q a (w.setHeap (two H s a t b))) :
    wp (rd s) (w.setHeap (two H s a t b)) Q := (wp_rd (by exact two_fst h) hs).2 hQ

theorem wp_two_rd2 {Q : TNode K → W K → Prop} (ht : t ≠ .null) (hQ : Q b (w.setHeap (two H s a t b))) :
    wp (rd t) (w.setHeap (two H s a t b)) Q := (wp_rd (by exact two_snd) ht).2 hQ

theorem wp_two_mod1 {Q : Unit → W K → Prop} {f : TNode K → TNode K} (h : s ≠ t) (hs : s ≠ .null)
    (hQ : Q () (w.setHeap (two H s (f a) t b))) : wp (modCell s f) (w.setHeap (two H s a t b)) Q := by
  refine (wp_modCell (w := w.setHeap (two H s a t b)) (by exact two_fst h) hs).2 ?_
  simp only [World.setHeap_heap, World.setHeap_setHeap]
  rw [upd_two_fst h]; exact hQ

theorem wp_two_mod2 {Q : Unit → W K → Prop} {f : TNode K → TNode K} (ht : t ≠ .null)
    (hQ : Q () (w.setHeap (two H s a t (f b)))) : wp (modCell t f) (w.setHeap (two H s a t b)) Q := by
  refine (wp_modCell (w := w.setHeap (two H s a t b)) (by exact two_snd) ht).2 ?_
  simp only [World.setHeap_heap, World.setHeap_setHeap]
  rw [upd_two_snd]; exact hQ

theorem setHeap_two (hs : w.heap s = some a) (ht : w.heap t = some b) : w.setHeap (two w.heap s a t b) = w := by
  rw [two_self hs ht]; rfl

/-- Setting the parent of a root while two header cells are being changed. -/
theorem wp_two_reparent {o : Nat} {u : T K} {x y : Ptr} {Q : Unit → W K → Prop} (hu : u ≠ .nil) (hr : Rep H o y u) (hn : u.ptrs.Nodup)
    (h0 : Ptr.null ∉ u.ptrs) (h1 : s ∉ u.ptrs) (h2 : t ∉ u.ptrs)
    (hQ : ∀ H', Rep H' o x u → (∀ q, q ∉ u.ptrs → H' q = H q) → Q () (w.setHeap (two H' s a t b))) :
    wp (setParent u.ptr x) (w.setHeap (two H s a t b)) Q := by
  refine wp_setParent_root (w := w.setHeap (two H s a t b)) (x := x) hu (by exact Rep_upd (Rep_upd hr h1) h2) hn h0 ?_
  intro H1 g1 g2
  simp only [World.setHeap_heap, World.setHeap_setHeap] at g2 ⊢
  have e : H1 = two (fun q => if q ∈ u.ptrs then H1 q else H q) s a t b := by
    funext q
    by_cases e1 : q = t
    · subst e1; rw [two_snd, g2 q h2, two_snd]
    · by_cases e2 : q = s
      · subst e2
        rw [two_fst e1, g2 q h1, two_fst e1]
      · rw [two_other e2 e1]
        by_cases e3 : q ∈ u.ptrs
        · simp [e3]
        · simp only [e3, if_false]
          rw [g2 q e3, two_other e2 e1]
  rw [e]
  refine hQ _ ?_ (fun q hq => by simp [hq])
  exact Rep_congr (fun q hq => by simp [hq]) g1

end

section
variable {s t : Ptr} {w : W K} {u v : T K} {o o' : Nat} {prop : Bool}

theorem firstP_change {L : List (Ptr × K)} (h : L ≠ []) (x y : Ptr) : firstP x L = firstP y L := by
  cases L with
  | nil => exact absurd rfl h
  | cons a L => simp

theorem lastP_change {L : List (Ptr × K)} (h : L ≠ []) (x y : Ptr) : lastP x L = lastP y L := by
  obtain ⟨A, a, rfl⟩ := (List.eq_nil_or_concat L).resolve_left h
  rw [List.concat_eq_append]
  simp [lastP]

/-- The header cell of a tree with shape `u` at `hdr` whose allocator is `o`. -/
def hcell (hdr : Ptr) (o : Nat) (u : T K) : TNode K := hdCell ⟨firstP hdr u.nodes, lastP hdr u.nodes, o, u.nodes.length⟩ u.ptr

theorem Tree.stk_notMem (h : Tree w.heap s o u) {i : Nat} : Ptr.stk i ∉ u.ptrs := by
  intro e
  obtain ⟨j, hj⟩ := h.ok.dyn _ e
  cases hj

theorem Tree.hdr_notMem (h : Tree w.heap s o u) (h2 : Tree w.heap t o' v) : s ∉ v.ptrs := by
  obtain ⟨i, rfl⟩ := h.ok.hdr
  exact h2.stk_notMem

/-- What `swap` does with the links and counts (allocators not exchanged yet). -/
theorem wp_moveLinks {Q : Unit → W K → Prop} {cs : TNode K} (hne : s ≠ t) (hsn : s ≠ .null)
    (hs : w.heap s = some cs) (ht : Tree w.heap t o' v) (hv : v ≠ .nil) (hsv : s ∉ v.ptrs)
    (hQ : ∀ H', Rep H' o' s v → (∀ q, q ∉ v.ptrs → H' q = w.heap q) →
      Q () (w.setHeap (two H' s { cs with parent := v.ptr, left := firstP s v.nodes, right := lastP s v.nodes }
        t { hcell t o' (.nil : T K) with count := v.nodes.length }))) :
    wp (moveLinks s t) w Q := by
  have htn := ht.hdr_ne
  have htc := ht.cell
  have htv : t ∉ v.ptrs := fun e => ht.node_ne_hdr e rfl
  rw [← setHeap_two (w := w) hs htc]
  unfold moveLinks setParent setLeft setRight
  simp only [wp_bind]
  refine wp_two_rd2 htn ?_
  refine wp_two_mod1 hne hsn ?_
  refine wp_two_rd2 htn ?_
  refine wp_two_mod1 hne hsn ?_
  refine wp_two_rd2 htn ?_
  refine wp_two_mod1 hne hsn ?_
  refine wp_two_rd1 hne hsn ?_
  simp only [hdCell]
  refine wp_two_reparent hv ht.rep ht.ok.nodup ht.null_notMem hsv htv ?_
  intro H1 g1 g2
  refine wp_two_mod2 htn ?_
  refine wp_two_mod2 htn ?_
  refine wp_two_mod2 htn ?_
  have := hQ H1 g1 g2
  rw [firstP_change (nodes_ne_nil hv) s t, lastP_change (nodes_ne_nil hv) s t] at this
  exact this

theorem wp_swapCounts {Q : Unit → W K → Prop} {H : Ptr → Option (TNode K)} {a b : TNode K} (hne : s ≠ t) (hsn : s ≠ .null) (htn : t ≠ .null)
    (hQ : Q () (w.setHeap (two H s { a with count := b.count } t { b with count := a.count }))) :
    wp (swapCounts s t) (w.setHeap (two H s a t b)) Q := by
  unfold swapCounts setCount
  simp only [wp_bind]
  refine wp_two_rd1 hne hsn ?_
  refine wp_two_rd2 htn ?_
  refine wp_two_mod1 hne hsn ?_
  exact wp_two_mod2 htn hQ

theorem wp_allocOnSwap {Q : Unit → W K → Prop} {H : Ptr → Option (TNode K)} {a b : TNode K} (hne : s ≠ t) (hsn : s ≠ .null) (htn : t ≠ .null)
    (hok : prop = true ∨ a.owner = b.owner)
    (hQ : Q () (w.setHeap (two H s { a with owner := b.owner } t { b with owner := a.owner }))) :
    wp (allocOnSwap prop s t) (w.setHeap (two H s a t b)) Q := by
  unfold allocOnSwap
  cases prop with
  | true =>
    simp only [if_true, wp_bind]
    refine wp_two_rd1 hne hsn ?_
    refine wp_two_rd2 htn ?_
    refine wp_two_mod1 hne hsn ?_
    exact wp_two_mod2 htn hQ
  | false =>
    have e : a.owner = b.owner := by simpa using hok
    simp only [Bool.false_eq_true, if_false, wp_pure]
    rw [← e] at hQ
    have e2 : { b with owner := a.owner } = b := by rw [e]
    rw [e2] at hQ
    exact hQ

/-- After the exchange both objects hold the tree of the other. -/
theorem Tree.exchanged {H : Ptr → Option (TNode K)} (hs : ∃ i, s = .stk i) (hne : s ≠ t) (hu : Tree w.heap t o u) (hd : ∀ q ∈ u.ptrs, q ≠ s)
    {b : TNode K} (hr : u ≠ .nil → Rep H o s u) : Tree (two H s (hcell s o u) t b) s o u := by
  refine ⟨two_fst hne, ?_, ⟨hu.ok.nodup, hu.ok.dyn, hs⟩, hu.rb, hu.black⟩
  by_cases h : u = .nil
  · subst h; trivial
  · exact Rep_upd (Rep_upd (hr h) (fun e => hd _ e rfl)) (fun e => hu.node_ne_hdr e rfl)

theorem wp_swapTrees {Q : Unit → W K → Prop} (hs : Tree w.heap s o u) (ht : Tree w.heap t o' v) (hne : s ≠ t)
    (hd : ∀ q ∈ u.ptrs, q ∉ v.ptrs) (hok : prop = true ∨ o = o')
    (hQ : ∀ H', Tree H' s o' v → Tree H' t o u → (∀ q, q ≠ s → q ≠ t → q ∉ u.ptrs → q ∉ v.ptrs → H' q = w.heap q) →
      Q () (w.setHeap H')) : wp (swapTrees prop s t) w Q := by
  have hsn := hs.hdr_ne
  have htn := ht.hdr_ne
  have hsv := hs.hdr_notMem ht
  have htu := ht.hdr_notMem hs
  have hsu : s ∉ u.ptrs := fun e => hs.node_ne_hdr e rfl
  have htv : t ∉ v.ptrs := fun e => ht.node_ne_hdr e rfl
  obtain ⟨i, hi⟩ := hs.ok.hdr
  obtain ⟨j, hj⟩ := ht.ok.hdr
  -- the final state in terms of a heap in which both trees have their new parents
  have fin : ∀ H' : Ptr → Option (TNode K), (v ≠ .nil → Rep H' o' s v) → (u ≠ .nil → Rep H' o t u) →
      (∀ q, q ∉ u.ptrs → q ∉ v.ptrs → H' q = w.heap q) → Q () (w.setHeap (two H' s (hcell s o' v) t (hcell t o u))) := by
    intro H' h1 h2 h3
    refine hQ _ ?_ ?_ ?_
    · exact Tree.exchanged ⟨i, hi⟩ hne ht (fun q hq e => hsv (e ▸ hq)) h1
    · rw [two_comm hne]
      exact Tree.exchanged ⟨j, hj⟩ (Ne.symm hne) hs (fun q hq e => htu (e ▸ hq)) h2
    · intro q g1 g2 g3 g4
      rw [two_other g1 g2, h3 q g3 g4]
  have hnil : ∀ {x : T K}, x = .nil → x.nodes.length = 0 := by rintro x rfl; rfl
  unfold swapTrees
  simp only [wp_bind]
  rw [wp_rd hs.cell hsn]
  simp only [hdCell]
  by_cases hu : u = .nil
  · subst hu
    refine wp_if_pos rfl ?_
    rw [wp_bind, wp_rd ht.cell htn]
    simp only [hdCell]
    by_cases hv : v = .nil
    · subst hv
      refine wp_if_neg (by simp [T.ptr]) ?_
      rw [wp_bind]
      rw [← setHeap_two (w := w) hs.cell ht.cell]
      refine wp_swapCounts hne hsn htn ?_
      refine wp_allocOnSwap hne hsn htn hok ?_
      exact fin _ (fun h => absurd rfl h) (fun h => absurd rfl h) (fun _ _ _ => rfl)
    · refine wp_if_pos (ht.node_ne_null (ptr_mem_ptrs hv)) ?_
      rw [wp_bind]
      refine wp_moveLinks hne hsn hs.cell ht hv hsv ?_
      intro H1 g1 g2
      rw [wp_bind]
      refine wp_swapCounts hne hsn htn ?_
      refine wp_allocOnSwap hne hsn htn hok ?_
      exact fin _ (fun _ => g1) (fun h => absurd rfl h) (fun q _ h => g2 q h)
  · refine wp_if_neg (hs.node_ne_null (ptr_mem_ptrs hu)) ?_
    rw [wp_bind, wp_rd ht.cell htn]
    simp only [hdCell]
    by_cases hv : v = .nil
    · subst hv
      refine wp_if_pos rfl ?_
      rw [wp_bind]
      refine wp_moveLinks (Ne.symm hne) htn ht.cell hs hu htu ?_
      intro H1 g1 g2
      rw [two_comm (Ne.symm hne), wp_bind]
      refine wp_swapCounts hne hsn htn ?_
      refine wp_allocOnSwap hne hsn htn hok ?_
      exact fin _ (fun h => absurd rfl h) (fun _ => g1) (fun q h _ => g2 q h)
    · refine wp_if_neg (ht.node_ne_null (ptr_mem_ptrs hv)) ?_
      have e0 := setHeap_two (w := w) hs.cell ht.cell
      rw [← e0]
      unfold swapLinks
      simp only [wp_bind]
      refine wp_two_rd1 hne hsn ?_
      refine wp_two_rd2 htn ?_
      refine wp_two_mod1 hne hsn ?_
      refine wp_two_mod2 htn ?_
      refine wp_two_rd1 hne hsn ?_
      refine wp_two_rd2 htn ?_
      refine wp_two_mod1 hne hsn ?_
      refine wp_two_mod2 htn ?_
      refine wp_two_rd1 hne hsn ?_
      refine wp_two_rd2 htn ?_
      refine wp_two_mod1 hne hsn ?_
      refine wp_two_mod2 htn ?_
      refine wp_two_rd1 hne hsn ?_
      simp only [hdCell]
      refine wp_two_reparent hv ht.rep ht.ok.nodup ht.null_notMem hsv htv ?_
      intro H1 g1 g2
      refine wp_two_rd2 htn ?_
      refine wp_two_reparent hu (y := s) (Rep_congr (fun q hq => g2 q (hd q hq)) hs.rep) hs.ok.nodup hs.null_notMem hsu htu ?_
      intro H2 g3 g4
      refine wp_swapCounts hne hsn htn ?_
      refine wp_allocOnSwap hne hsn htn hok ?_
      have := fin H2 (fun _ => Rep_congr (fun q hq => g4 q (fun h => hd q h hq)) g1) (fun _ => g3)
        (fun q h1 h2 => (g4 q h1).trans (g2 q h2))
      unfold hcell at this
      rw [firstP_change (nodes_ne_nil hv) s t, lastP_change (nodes_ne_nil hv) s t,
        firstP_change (nodes_ne_nil hu) t s, lastP_change (nodes_ne_nil hu) t s] at this
      exact this

theorem upd_id {H : Ptr → Option (TNode K)} {p : Ptr} {c : TNode K} (h : H p = some c) : upd H p (some c) = H := by
  funext q
  unfold upd
  by_cases e : q = p
  · subst e; simp [h]
  · simp [e]

/-- Writing a value that is already there. -/
theorem wp_modCell_id {Q : Unit → W K → Prop} {p : Ptr} {c : TNode K} {f : TNode K → TNode K} (h : w.heap p = some c) (hp : p ≠ .null)
    (hf : f c = c) (hQ : Q () w) : wp (modCell p f) w Q := by
  refine (wp_modCell h hp).2 ?_
  rw [hf, upd_id h]; exact hQ

/-- Swapping an object with itself changes nothing. -/
theorem wp_swapTrees_self {Q : Unit → W K → Prop} (hs : Tree w.heap s o u) (hQ : Q () w) : wp (swapTrees prop s s) w Q := by
  have hsn := hs.hdr_ne
  have hc := hs.cell
  have tail : wp (swapCounts s s >>= fun _ => allocOnSwap prop s s) w Q := by
    unfold swapCounts setCount
    simp only [wp_bind]
    rw [wp_rd hc hsn, wp_rd hc hsn]
    refine wp_modCell_id hc hsn rfl ?_
    refine wp_modCell_id hc hsn rfl ?_
    unfold allocOnSwap
    cases prop with
    | false => simpa using hQ
    | true =>
      simp only [if_true, wp_bind]
      rw [wp_rd hc hsn, wp_rd hc hsn]
      refine wp_modCell_id hc hsn rfl ?_
      exact wp_modCell_id hc hsn rfl hQ
  rw [wp_bind] at tail
  unfold swapTrees
  simp only [wp_bind]
  rw [wp_rd hc hsn]
  simp only [hdCell]
  by_cases hu : u = .nil
  · subst hu
    refine wp_if_pos rfl ?_
    rw [wp_bind, wp_rd hc hsn]
    refine wp_if_neg (by simp [hdCell, T.ptr]) ?_
    rw [wp_bind]
    exact tail
  · have hun := hs.node_ne_null (ptr_mem_ptrs hu)
    refine wp_if_neg hun ?_
    rw [wp_bind, wp_rd hc hsn]
    refine wp_if_neg hun ?_
    unfold swapLinks setParent setLeft setRight
    simp only [wp_bind]
    rw [wp_rd hc hsn, wp_rd hc hsn]
    refine wp_modCell_id hc hsn rfl ?_
    refine wp_modCell_id hc hsn rfl ?_
    rw [wp_rd hc hsn, wp_rd hc hsn]
    refine wp_modCell_id hc hsn rfl ?_
    refine wp_modCell_id hc hsn rfl ?_
    rw [wp_rd hc hsn, wp_rd hc hsn]
    refine wp_modCell_id hc hsn rfl ?_
    refine wp_modCell_id hc hsn rfl ?_
    rw [wp_rd hc hsn]
    simp only [hdCell]
    have hroot : ∃ c, w.heap u.ptr = some c ∧ c.parent = s := by
      cases u with
      | nil => exact absurd rfl hu
      | node p c l k r => exact ⟨_, hs.rep.1, rfl⟩
    obtain ⟨c, h1, h2⟩ := hroot
    have e : { c with parent := s } = c := by rw [← h2]
    refine wp_modCell_id h1 hun e ?_
    rw [wp_rd hc hsn]
    refine wp_modCell_id h1 hun e ?_
    exact tail

/-! ### Move assignment -/

/-- `m_move_data` into an empty object whose allocator may differ. -/
theorem wp_moveData' {Q : Unit → W K → Prop} (h : Tree w.heap t o' v) (hv : v ≠ .nil) (hd : Tree w.heap s o .nil) (hne : s ≠ t)
    (hQ : ∀ H', Rep H' o' s v → (∀ q, q ∉ v.ptrs → H' q = w.heap q) →
      Q () (w.setHeap (two H' s (hcell s o v) t (hcell t o' (.nil : T K))))) : wp (moveData s t) w Q := by
  have hsn := hd.hdr_ne
  have htn := h.hdr_ne
  have hsv := hd.hdr_notMem h
  have htv : t ∉ v.ptrs := fun e => h.node_ne_hdr e rfl
  rw [← setHeap_two (w := w) hd.cell h.cell]
  unfold moveData setParent setLeft setRight setCount
  simp only [wp_bind]
  refine wp_two_rd2 htn ?_
  refine wp_two_mod1 hne hsn ?_
  refine wp_two_rd2 htn ?_
  refine wp_two_mod1 hne hsn ?_
  refine wp_two_rd2 htn ?_
  refine wp_two_mod1 hne hsn ?_
  refine wp_two_rd1 hne hsn ?_
  simp only [hdCell]
  refine wp_two_reparent hv h.rep h.ok.nodup h.null_notMem hsv htv ?_
  intro H1 g1 g2
  refine wp_two_mod2 htn ?_
  refine wp_two_mod2 htn ?_
  refine wp_two_mod2 htn ?_
  refine wp_two_rd2 htn ?_
  refine wp_two_mod1 hne hsn ?_
  refine wp_two_mod2 htn ?_
  have := hQ H1 g1 g2
  unfold hcell at this
  rw [firstP_change (nodes_ne_nil hv) s t, lastP_change (nodes_ne_nil hv) s t] at this
  exact this

/-- Move assignment: the old elements are released, the nodes of the source are handed over. -/
theorem wp_moveAssign {Q : Bool → W K → Prop} (hs : Tree w.heap s o u) (ht : Tree w.heap t o' v) (hne : s ≠ t)
    (hd : ∀ q ∈ u.ptrs, q ∉ v.ptrs) (hok : prop = true ∨ o = o')
    (hQ : ∀ H', Tree H' s o' v → Tree H' t o' .nil → (∀ q ∈ u.ptrs, H' q = none) →
      (∀ q, q ≠ s → q ≠ t → q ∉ u.ptrs → q ∉ v.ptrs → H' q = w.heap q) → Q true (w.setHeap H')) :
    wp (moveAssign prop s t) w Q := by
  have hsn := hs.hdr_ne
  have htn := ht.hdr_ne
  have hsv := hs.hdr_notMem ht
  have htu := ht.hdr_notMem hs
  obtain ⟨i, hi⟩ := hs.ok.hdr
  obtain ⟨j, hj⟩ := ht.ok.hdr
  unfold moveAssign
  simp only [wp_bind]
  rw [wp_rd hs.cell hsn, wp_rd ht.cell htn]
  refine wp_if_pos hok ?_
  simp only [wp_bind]
  refine wp_clear hs ?_
  intro H1 h1 h2 h3
  have ht1 : Tree H1 t o' v := ht.congr (h3 t (Ne.symm hne) htu)
    (fun q hq => h3 q (fun e => hsv (e ▸ hq)) (fun e => hd q e hq))
  -- the allocator
  have fin : ∀ H' : Ptr → Option (TNode K), (v ≠ .nil → Rep H' o' s v) → (∀ q, q ∉ v.ptrs → H' q = H1 q) →
      wp (allocOnMove prop s t >>= fun _ => pure true) ((w.setHeap H1).setHeap (two H' s (hcell s o v) t (hcell t o' (.nil : T K)))) Q := by
    intro H' g1 g2
    have last : Q true (w.setHeap (two H' s (hcell s o' v) t (hcell t o' (.nil : T K)))) := by
      refine hQ _ ?_ ?_ ?_ ?_
      · exact Tree.exchanged (w := w) ⟨i, hi⟩ hne ht (fun q hq e => hsv (e ▸ hq)) g1
      · exact ⟨two_snd, trivial, ⟨by simp [T.ptrs, T.nodes], by simp [T.ptrs, T.nodes], ⟨j, hj⟩⟩, ⟨0, rfl⟩, rfl⟩
      · intro q hq
        rw [two_other (fun e => hs.node_ne_hdr hq e) (fun e : q = t => htu (e ▸ hq)), g2 q (hd q hq), h2 q hq]
      · intro q e1 e2 e3 e4
        rw [two_other e1 e2, g2 q e4, h3 q e1 e3]
    unfold allocOnMove
    simp only [World.setHeap_setHeap]
    cases prop with
    | false =>
      have e : o = o' := by simpa using hok
      subst e
      simpa [wp_bind, wp_pure] using last
    | true =>
      simp only [if_true, wp_bind]
      refine wp_two_rd2 htn ?_
      refine wp_two_mod1 hne hsn ?_
      rw [wp_pure]
      exact last
  simp only [wp_bind] at fin
  rw [wp_rd (by exact ht1.cell) htn]
  simp only [hdCell]
  by_cases hv : v = .nil
  · subst hv
    refine wp_if_neg (by simp [T.ptr]) ?_
    rw [wp_bind]
    have := fin H1 (fun h => absurd rfl h) (fun _ _ => rfl)
    have e : two H1 s (hcell s o (.nil : T K)) t (hcell t o' (.nil : T K)) = H1 := two_self h1.cell ht1.cell
    rw [e] at this
    exact this
  · refine wp_if_pos (ht.node_ne_null (ptr_mem_ptrs hv)) ?_
    rw [wp_bind]
    refine wp_moveData' (w := w.setHeap H1) (by exact ht1) hv (by exact h1) hne ?_
    intro H2 g1 g2
    rw [wp_bind]
    exact fin H2 (fun _ => g1) g2

/-- Move assignment between different allocators that do not propagate does nothing and reports this. -/
theorem wp_moveAssign_refused {Q : Bool → W K → Prop} (hs : Tree w.heap s o u) (ht : Tree w.heap t o' v) (hp : prop = false) (hne : o ≠ o')
    (hQ : Q false w) : wp (moveAssign prop s t) w Q := by
  unfold moveAssign
  simp only [wp_bind]
  rw [wp_rd hs.cell hs.hdr_ne, wp_rd ht.cell ht.hdr_ne]
  refine wp_if_neg ?_ hQ
  simp [hp, hdCell, hne]

/-- Move assignment to itself empties the object. -/
theorem wp_moveAssign_self {Q : Bool → W K → Prop} (hs : Tree w.heap s o u)
    (hQ : ∀ H', Tree H' s o .nil → (∀ q ∈ u.ptrs, H' q = none) → (∀ q, q ≠ s → q ∉ u.ptrs → H' q = w.heap q) →
      Q true (w.setHeap H')) : wp (moveAssign prop s s) w Q := by
  unfold moveAssign
  simp only [wp_bind]
  rw [wp_rd hs.cell hs.hdr_ne, wp_rd hs.cell hs.hdr_ne]
  refine wp_if_pos (Or.inr rfl) ?_
  simp only [wp_bind]
  refine wp_clear hs ?_
  intro H1 h1 h2 h3
  rw [wp_rd (by exact h1.cell) hs.hdr_ne]
  refine wp_if_neg (by simp [hdCell, T.ptr]) ?_
  rw [wp_bind]
  unfold allocOnMove
  cases prop with
  | false => simpa [wp_bind, wp_pure] using hQ H1 h1 h2 h3
  | true =>
    simp only [if_true, wp_bind]
    rw [wp_rd (by exact h1.cell) hs.hdr_ne]
    refine wp_modCell_id (w := w.setHeap H1) (by exact h1.cell) hs.hdr_ne rfl ?_
    exact hQ H1 h1 h2 h3

end
end Nestl.RB
