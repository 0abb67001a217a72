import Verif.LinkedList.Sort
import Verif.LinkedList.Client
set_option autoImplicit false
/-
Every call of the list API does to the lists what the specification says.
-/
namespace Nestl.LC
open Nestl.LL
variable {V : Type} {w : W V} {σ : Sg V} {s t : Ptr} {ls l2 : Lst V}

def view (l : List (El V)) : List (Ptr × V) := l.map fun e => (e.p, e.v)

@[simp] theorem view_nil : view ([] : List (El V)) = [] := rfl
@[simp] theorem view_cons (e : El V) (l) : view (e :: l) = (e.p, e.v) :: view l := rfl
@[simp] theorem view_append (l m : List (El V)) : view (l ++ m) = view l ++ view m := List.map_append
@[simp] theorem view_eq_nil {l : List (El V)} : view l = [] ↔ l = [] := List.map_eq_nil_iff
@[simp] theorem length_view (l : List (El V)) : (view l).length = l.length := List.length_map _
theorem view_snd (l : List (El V)) : (view l).map Prod.snd = l.map El.v := by simp [view]
theorem view_fst (l : List (El V)) : (view l).map Prod.fst = ptrs l := by simp [view, ptrs]

theorem posOf_view (s : Ptr) (l : List (El V)) : posOf s (view l) = posE s l := by cases l <;> rfl

/-- Splitting the observed sequence splits the elements. -/
theorem view_split {l : List (El V)} {X Y : List (Ptr × V)} (h : view l = X ++ Y) :
    ∃ A B, l = A ++ B ∧ view A = X ∧ view B = Y := by
  obtain ⟨A, B, h1, h2, h3⟩ := List.map_eq_append_iff.1 h
  exact ⟨A, B, h1, h2, h3⟩

theorem view_cons_inv {l : List (El V)} {x : Ptr × V} {Y : List (Ptr × V)} (h : view l = x :: Y) :
    ∃ e B, l = e :: B ∧ (e.p, e.v) = x ∧ view B = Y := by
  obtain ⟨e, B, h1, h2, h3⟩ := List.map_eq_cons_iff.1 h
  exact ⟨e, B, h1, h2, h3⟩

def abs (σ : Sg V) : AState V := fun s => (σ s).map fun ls => (ls.alloc, view ls.els)

theorem abs_some (hs : σ s = some ls) : abs σ s = some (ls.alloc, view ls.els) := by simp [abs, hs]

theorem abs_none : abs σ s = none ↔ σ s = none := by simp [abs]

theorem abs_inv {a : Nat} {L : List (Ptr × V)} (h : abs σ s = some (a, L)) : ∃ l, σ s = some ⟨a, l⟩ ∧ L = view l := by
  unfold abs at h
  cases hs : σ s with
  | none => rw [hs] at h; cases h
  | some ls => rw [hs] at h; cases h; exact ⟨ls.els, rfl, rfl⟩

theorem abs_upd (a : Nat) (l : List (El V)) : abs (upd σ s (some ⟨a, l⟩)) = upd (abs σ) s (some (a, view l)) := by
  funext x; simp only [abs, upd_apply]; split <;> rfl

theorem abs_upd_none : abs (upd σ s none) = upd (abs σ) s none := by
  funext x; simp only [abs, upd_apply]; split <;> rfl

/-- Every node comes from the allocator of its list. -/
def Own (σ : Sg V) : Prop := ∀ s ls, σ s = some ls → ∀ e ∈ ls.els, e.own = ls.alloc

theorem Own.set (h : Own σ) {a : Nat} {l : List (El V)} (hl : ∀ e ∈ l, e.own = a) : Own (upd σ s (some ⟨a, l⟩)) := by
  intro x lx hx
  rw [upd_apply] at hx
  split at hx
  · cases hx; exact hl
  · exact h x lx hx

theorem Own.drop (h : Own σ) : Own (upd σ s none) := by
  intro x lx hx
  rw [upd_apply] at hx
  split at hx
  · cases hx
  · exact h x lx hx

/-- The program state `w` holds the lists `A`. -/
def Sim (w : W V) (A : AState V) : Prop := ∃ σ, Inv w σ ∧ Own σ ∧ A = abs σ

/-! ### What a client observes -/

theorem wp_walkFrom (h : Inv w σ) (hs : σ s = some ls) {A B : List (El V)} (hA : ls.els = A ++ B)
    {Q : List (Ptr × V) → W V → Prop} (hq : Q (view B) w) : wp (walkFrom (posE s B) s) w Q := by
  induction B generalizing A Q with
  | nil =>
    rw [walkFrom]; simp only [wp_bind]
    refine wp_itEq_true (h.on_pos hs hA) rfl ?_
    exact wp_if_pos rfl hq
  | cons e B ih =>
    rw [walkFrom]; simp only [wp_bind]
    refine wp_itEq_false (h.on_pos hs hA) (h.st.on_hdr hs) (h.pos_ne_end hs (by rw [hA]; simp)) ?_
    refine wp_if_neg (by simp) ?_
    simp only [wp_bind]
    refine wp_deref h hs (e := e) (by rw [hA]; simp) ?_
    refine wp_incr h hs (A := A) (B := B) (e := e) hA ?_
    refine ih (A := A ++ [e]) (by rw [hA]; simp) ?_
    exact hq

theorem wp_walk (h : Inv w σ) (hs : σ s = some ls) {Q : List (Ptr × V) → W V → Prop} (hq : Q (view ls.els) w) :
    wp (walk s) w Q := by
  unfold walk; simp only [wp_bind]
  refine wp_begin h hs ?_
  refine wp_end h hs ?_
  exact wp_walkFrom h hs (A := []) rfl hq

theorem wp_walkBackFrom (h : Inv w σ) (hs : σ s = some ls) {A B : List (El V)} (hA : ls.els = A ++ B)
    {Q : List (Ptr × V) → W V → Prop} (hq : Q (view A).reverse w) :
    wp (walkBackFrom (posE s B) (posE s ls.els)) w Q := by
  obtain ⟨n, hn⟩ : ∃ n, n = A.length := ⟨_, rfl⟩
  induction n generalizing A B Q with
  | zero =>
    obtain rfl := List.length_eq_zero_iff.1 hn.symm
    rw [walkBackFrom]; simp only [wp_bind]
    refine wp_itEq_true (h.on_pos hs hA) (by rw [hA]; rfl) ?_
    exact wp_if_pos rfl hq
  | succ n ih =>
    obtain ⟨A', e, rfl⟩ : ∃ A' e, A = A' ++ [e] := by
      refine ⟨A.dropLast, A.getLast (by rintro rfl; simp at hn), (List.dropLast_concat_getLast _).symm⟩
    rw [walkBackFrom]; simp only [wp_bind]
    have hA2 : ls.els = A' ++ e :: B := by rw [hA]; simp
    have hne : posE s B ≠ posE s ls.els := by
      have hnd := h.st.ring_nodup hs
      rw [hA2] at hnd ⊢
      intro heq
      cases A' with
      | nil => exact h.pos_ne hs (A := []) (e := e) (B := B) (by rw [hA2]) heq.symm
      | cons x A' =>
        have h1 : posE s (x :: A' ++ e :: B) = x.p := rfl
        rw [h1] at heq
        cases B with
        | nil =>
          have : s = x.p := heq
          simp [this] at hnd
        | cons y B =>
          have : y.p = x.p := heq
          simp [this] at hnd
    refine wp_itEq_false (h.on_pos hs hA) (h.on_pos hs (A := []) rfl) hne ?_
    refine wp_if_neg (by simp) ?_
    simp only [wp_bind]
    refine wp_decr h hs hA2 ?_
    refine wp_deref h hs (e := e) (by rw [hA2]; simp) ?_
    refine ih (A := A') (B := e :: B) hA2 ?_ (by simp at hn; omega)
    simpa using hq

theorem wp_walkBack (h : Inv w σ) (hs : σ s = some ls) {Q : List (Ptr × V) → W V → Prop}
    (hq : Q (view ls.els).reverse w) : wp (walkBack s) w Q := by
  unfold walkBack; simp only [wp_bind]
  refine wp_end h hs ?_
  refine wp_begin h hs ?_
  exact wp_walkBackFrom h hs (A := ls.els) (B := []) (by simp) hq

theorem contents_iff (h : Inv w σ) (hs : σ s = some ls) {L : List (Ptr × V)} : Contents w s L ↔ L = view ls.els := by
  have hr := (wp_walk h hs (Q := fun r w' => r = view ls.els ∧ w' = w) ⟨rfl, rfl⟩).runs
  obtain ⟨r, w', hr, rfl, rfl⟩ := hr
  constructor
  · intro hc; exact (Runs.det hc hr).1
  · rintro rfl; exact hr

theorem alive_iff (h : Inv w σ) : Alive w s ↔ ∃ ls, σ s = some ls := by
  constructor
  · rintro ⟨i, rfl, hi⟩
    rcases h.st.cover (.stk i) (by rw [Ne, dat_none]; exact hi) with h1 | ⟨t, lt, ht, hm⟩
    · exact Option.ne_none_iff_exists'.1 h1
    · obtain ⟨e, he, hep⟩ := mem_ptrs.1 hm
      obtain ⟨a, ha⟩ := (h.st.el t lt ht e he).1
      rw [hep] at ha; cases ha
  · rintro ⟨ls, hs⟩
    obtain ⟨⟨i, rfl⟩, hd⟩ := h.st.hdr s ls hs
    refine ⟨i, rfl, ?_⟩
    rw [Ne, ← dat_none, hd]; simp

theorem hasAlloc_iff (h : Inv w σ) (hs : σ s = some ls) {a : Nat} : HasAlloc w s a ↔ a = ls.alloc := by
  obtain ⟨⟨i, rfl⟩, hd⟩ := h.st.hdr s ls hs
  have : wp (getAlloc (.stk i)) w fun r w' => r = ls.alloc ∧ w' = w := by
    unfold getAlloc dat at *
    cases hc : w.heap (.stk i) with
    | none => simp [hc] at hd
    | some c =>
      simp [hc] at hd
      simp only [wp_bind]
      rw [wp_rd hc (by simp)]
      exact ⟨hd.2, rfl⟩
  obtain ⟨r, w', hr, rfl, rfl⟩ := this.runs
  constructor
  · intro hc; exact (Runs.det hc hr).1
  · rintro rfl; exact hr

theorem isPos_iff (h : Inv w σ) (hs : σ s = some ls) {pos : Ptr} :
    IsPos w s pos ↔ ∃ A B, ls.els = A ++ B ∧ pos = posE s B := by
  constructor
  · rintro ⟨X, Y, hc, rfl⟩
    obtain ⟨A, B, h1, rfl, rfl⟩ := view_split ((contents_iff h hs).1 hc).symm
    exact ⟨A, B, h1, posOf_view s B⟩
  · rintro ⟨A, B, h1, rfl⟩
    exact ⟨view A, view B, (contents_iff h hs).2 (by rw [h1, view_append]), (posOf_view s B).symm⟩

theorem own_default (h : Inv w σ) (ho : Own σ) (hs : σ s = some ls) (ha : Assignable w s) :
    ∀ e ∈ ls.els, e.own = defaultAlloc := by
  intro e he
  rcases ha with ha | ha
  · rw [ho s ls hs e he]; exact ((hasAlloc_iff h hs).1 ha).symm
  · have := (contents_iff h hs).1 ha
    rw [eq_comm, view_eq_nil] at this
    rw [this] at he; cases he

theorem same_alloc (h : Inv w σ) (hs : σ s = some ls) (ht : σ t = some l2) (ha : SameAlloc w s t) :
    ls.alloc = l2.alloc := by
  obtain ⟨a, h1, h2⟩ := ha
  rw [← (hasAlloc_iff h hs).1 h1, ← (hasAlloc_iff h ht).1 h2]

theorem unused (h : Inv w σ) {n : Ptr} (hn : w.heap n = none) : Unused (abs σ) n := by
  intro s a L v hs hm
  obtain ⟨l, h1, rfl⟩ := abs_inv hs
  obtain ⟨e, he, h2⟩ := List.mem_map.1 hm
  cases h2
  exact h.heap_el h1 he hn

theorem newElems (h : Inv w σ) {w' : W V} {σ' : Sg V} (h' : Inv w' σ') {vs us : List V} {k a b : Nat}
    {N A B : List (El V)} (hN : Added w w' vs k a N) (hs : σ' s = some ⟨b, A ++ (N ++ B)⟩) (hv : N.map El.v = us) :
    NewElems (abs σ) (view N) us := by
  refine ⟨by rw [view_snd, hv], ?_, ?_⟩
  · rw [view_fst]
    have := h'.st.nodup _ _ hs
    simp only [ptrs_append] at this
    exact (List.nodup_append.1 (List.nodup_append.1 this).2.1).1
  · intro x hx
    obtain ⟨e, he, rfl⟩ := List.mem_map.1 hx
    exact unused h (hN.fresh e he)

theorem failed_iff {w w' : W V} {vs : List V} {k a : Nat} {N : List (El V)} (h : Added w w' vs k a N) :
    w'.err.isSome = true ↔ k < vs.length := by
  cases he : w'.err with
  | none => have := h.ok he; simp; omega
  | some e => have := h.fail (by rw [he]; simp); simpa using this

/-- The outcome of a call. -/
def Post (w : W V) (A : AState V) (c : Call V) (r : Res) (w' : W V) : Prop :=
  ∃ A', Spec A c r w'.err.isSome A' ∧ Sim w' A' ∧ (∃ k, Adv w w' k) ∧ (Good w → w'.err = none)

theorem Post.mk' {A : AState V} {c : Call V} {r : Res} {w' : W V} {σ' : Sg V} {k : Nat} (h : Inv w' σ') (ho : Own σ')
    (hadv : Adv w w' k) (hsp : Spec A c r w'.err.isSome (abs σ')) (hg : Good w → w'.err = none) : Post w A c r w' :=
  ⟨abs σ', hsp, ⟨σ', h, ho, rfl⟩, ⟨k, hadv⟩, hg⟩


/-! ### Calls -/

theorem good_refused {w w' : W V} (h : Refused w) : Good w → w'.err = none := fun hg => absurd h hg.not_refused

theorem isSome_none {w : W V} (h : w.err = none) : w.err.isSome = false := by simp [h]

theorem sim_create (h : Inv w σ) (ho : Own σ) (he : w.err = none) (a : Nat) :
    wp (exec (.create a)) w (Post w (abs σ) (.create a)) := by
  unfold exec; simp only [wp_bind]
  refine wp_newList h a ?_
  intro w' hadv herr hsp hn hinv
  refine Post.mk' hinv (ho.set (by simp)) hadv ?_ (fun _ => herr.trans he)
  exact ⟨isSome_none (herr.trans he), _, rfl, abs_none.2 hn, abs_upd _ _⟩

theorem sim_insert (h : Inv w σ) (ho : Own σ) (he : w.err = none) {pos : Ptr} {v : V}
    (hv : Valid w (.insert s pos v)) : wp (exec (.insert s pos v)) w (Post w (abs σ) (.insert s pos v)) := by
  obtain ⟨ha, hp⟩ := hv
  obtain ⟨ls, hs⟩ := (alive_iff h).1 ha
  obtain ⟨A, B, hA, rfl⟩ := (isPos_iff h hs).1 hp
  have hs2 : abs σ s = some (ls.alloc, view A ++ view B) := by rw [abs_some hs, hA, view_append]
  unfold exec; simp only [wp_bind]
  refine wp_emplace h hs hA he ?_ ?_
  · intro w' hadv hsp herr hr hinv hheap
    refine Post.mk' hinv ho hadv ?_ (good_refused hr)
    refine ⟨_, _, _, hs2, (posOf_view s B).symm, ?_⟩
    rw [herr]; exact ⟨rfl, rfl⟩
  · intro w' n hadv hsp herr hr hn hinv
    refine Post.mk' hinv (ho.set ?_) hadv ?_ (fun _ => herr)
    · intro e hm
      have := ho s ls hs; rw [hA] at this
      simp at hm this
      rcases hm with h1 | rfl | h1
      · exact this e (.inl h1)
      · rfl
      · exact this e (.inr h1)
    · refine ⟨_, _, _, hs2, (posOf_view s B).symm, ?_⟩
      rw [isSome_none herr]
      exact ⟨n, unused h hn, rfl, by rw [abs_upd]; simp⟩

theorem own_insert (ho : Own σ) (hs : σ s = some ls) {A B N : List (El V)} (hA : ls.els = A ++ B)
    (hN : ∀ e ∈ N, e.own = ls.alloc) : ∀ e ∈ A ++ (N ++ B), e.own = ls.alloc := by
  intro e hm
  have := ho s ls hs; rw [hA] at this
  simp at hm this
  rcases hm with h1 | h1 | h1
  · exact this e (.inl h1)
  · exact hN e h1
  · exact this e (.inr h1)

theorem sim_insertRange (h : Inv w σ) (ho : Own σ) (he : w.err = none) {pos : Ptr} {vs : List V}
    (hv : Valid w (.insertRange s pos vs)) :
    wp (exec (.insertRange s pos vs)) w (Post w (abs σ) (.insertRange s pos vs)) := by
  obtain ⟨ha, hp⟩ := hv
  obtain ⟨ls, hs⟩ := (alive_iff h).1 ha
  obtain ⟨A, B, hA, rfl⟩ := (isPos_iff h hs).1 hp
  have hs2 : abs σ s = some (ls.alloc, view A ++ view B) := by rw [abs_some hs, hA, view_append]
  unfold exec; simp only [wp_bind]
  refine wp_insertRange h hs hA he ?_
  intro w' k N hadv hsp hadd hN hinv
  refine Post.mk' hinv (ho.set (own_insert ho hs hA hadd.own)) hadv ?_ hadd.good
  refine ⟨_, _, _, k, view N, hs2, (posOf_view s B).symm, hadd.le, failed_iff hadd, ?_, ?_⟩
  · exact newElems h hinv hadd (upd_same _ _ _) hN
  · rw [abs_upd]; simp

theorem sim_insertN (h : Inv w σ) (ho : Own σ) (he : w.err = none) {pos : Ptr} {n : Nat} {v : V}
    (hv : Valid w (.insertN s pos n v)) :
    wp (exec (.insertN s pos n v)) w (Post w (abs σ) (.insertN s pos n v)) := by
  have := sim_insertRange h ho he (s := s) (pos := pos) (vs := List.replicate n v) hv
  simp only [exec] at this ⊢
  rw [insertN_eq]
  refine wp_mono this ?_
  rintro r w' ⟨A', ⟨a, X, Y, k, N, h1, h2, h3, h4, h5, h6⟩, hrest⟩
  rw [List.length_replicate] at h3 h4
  refine ⟨A', ⟨a, X, Y, k, N, h1, h2, h3, h4, ?_, h6⟩, hrest⟩
  rw [List.take_replicate, Nat.min_eq_left h3, List.reverse_replicate] at h5
  exact h5

theorem sim_erase (h : Inv w σ) (ho : Own σ) (he : w.err = none) {pos : Ptr}
    (hv : Valid w (.erase s pos)) : wp (exec (.erase s pos)) w (Post w (abs σ) (.erase s pos)) := by
  obtain ⟨ha, X, v, Y, hc⟩ := hv
  obtain ⟨ls, hs⟩ := (alive_iff h).1 ha
  obtain ⟨A, B', hA, rfl, hB⟩ := view_split ((contents_iff h hs).1 hc).symm
  obtain ⟨e, B, rfl, hx, rfl⟩ := view_cons_inv hB
  cases hx
  have hmem : e ∈ ls.els := by rw [hA]; simp
  unfold exec; simp only [wp_bind]
  refine wp_erase h hs hA (ho s ls hs e hmem) ?_
  intro w' hadv herr hsp hinv hm hn
  refine Post.mk' hinv (ho.set ?_) hadv ?_ (fun _ => herr.trans he)
  · intro x hx
    apply ho s ls hs; rw [hA]; simp at hx ⊢
    rcases hx with h1 | h1 <;> simp [h1]
  · refine ⟨isSome_none (herr.trans he), ls.alloc, view A, e.v, view B, ?_, ?_, ?_⟩
    · rw [abs_some hs, hA]; simp
    · rw [posOf_view]
    · rw [abs_upd]; simp

theorem own_remove (ho : Own σ) (hs : σ s = some ls) {A N B : List (El V)} (hA : ls.els = A ++ (N ++ B)) :
    (∀ e ∈ A ++ B, e.own = ls.alloc) ∧ ∀ e ∈ N, e.own = ls.alloc := by
  have := ho s ls hs
  rw [hA] at this
  simp at this ⊢
  exact ⟨fun e he => this e (by rcases he with h | h <;> simp [h]), fun e he => this e (by simp [he])⟩

theorem sim_eraseRange (h : Inv w σ) (ho : Own σ) (he : w.err = none) {f l : Ptr}
    (hv : Valid w (.eraseRange s f l)) : wp (exec (.eraseRange s f l)) w (Post w (abs σ) (.eraseRange s f l)) := by
  obtain ⟨ha, X, M, Y, hc, rfl, rfl⟩ := hv
  obtain ⟨ls, hs⟩ := (alive_iff h).1 ha
  obtain ⟨A, MY, hA, rfl, hMY⟩ := view_split ((contents_iff h hs).1 hc).symm
  obtain ⟨M, B, rfl, rfl, rfl⟩ := view_split hMY
  have e1 : posOf s (view M ++ view B) = posE s (M ++ B) := by rw [← view_append, posOf_view]
  have hown := own_remove ho hs hA
  unfold exec; simp only [wp_bind]
  rw [e1, posOf_view]
  refine wp_eraseRange h hs hA hown.2 ?_
  intro w' hadv herr hsp hinv hm
  refine Post.mk' hinv (ho.set hown.1) hadv ?_ (fun _ => herr.trans he)
  refine ⟨isSome_none (herr.trans he), ls.alloc, view A, view M, view B, ?_, e1.symm, (posOf_view ..).symm, rfl, ?_⟩
  · rw [abs_some hs, hA]; simp
  · rw [abs_upd]; simp

theorem sim_pushBack (h : Inv w σ) (ho : Own σ) (he : w.err = none) {v : V}
    (hv : Valid w (.pushBack s v)) : wp (exec (.pushBack s v)) w (Post w (abs σ) (.pushBack s v)) := by
  obtain ⟨ls, hs⟩ := (alive_iff h).1 hv
  unfold exec; simp only [wp_bind]
  refine wp_pushBack h hs he ?_ ?_
  · intro w' hadv hsp herr hr hinv hheap
    refine Post.mk' hinv ho hadv ?_ (good_refused hr)
    refine ⟨_, _, abs_some hs, ?_⟩
    rw [herr]; rfl
  · intro w' n hadv hsp herr hr hn hinv
    refine Post.mk' hinv (ho.set ?_) hadv ?_ (fun _ => herr)
    · intro e hm
      simp at hm
      rcases hm with h1 | rfl
      · exact ho s ls hs e h1
      · rfl
    · refine ⟨_, _, abs_some hs, ?_⟩
      rw [isSome_none herr]
      exact ⟨n, unused h hn, by rw [abs_upd]; simp⟩

theorem sim_pushFront (h : Inv w σ) (ho : Own σ) (he : w.err = none) {v : V}
    (hv : Valid w (.pushFront s v)) : wp (exec (.pushFront s v)) w (Post w (abs σ) (.pushFront s v)) := by
  obtain ⟨ls, hs⟩ := (alive_iff h).1 hv
  unfold exec; simp only [wp_bind]
  refine wp_pushFront h hs he ?_ ?_
  · intro w' hadv hsp herr hr hinv hheap
    refine Post.mk' hinv ho hadv ?_ (good_refused hr)
    refine ⟨_, _, abs_some hs, ?_⟩
    rw [herr]; rfl
  · intro w' n hadv hsp herr hr hn hinv
    refine Post.mk' hinv (ho.set ?_) hadv ?_ (fun _ => herr)
    · intro e hm
      simp at hm
      rcases hm with rfl | h1
      · rfl
      · exact ho s ls hs e h1
    · refine ⟨_, _, abs_some hs, ?_⟩
      rw [isSome_none herr]
      exact ⟨n, unused h hn, by rw [abs_upd]; simp⟩

theorem sim_popBack (h : Inv w σ) (ho : Own σ) (he : w.err = none)
    (hv : Valid w (.popBack s)) : wp (exec (.popBack s)) w (Post w (abs σ) (.popBack s)) := by
  obtain ⟨ls, hs⟩ := (alive_iff h).1 hv.1
  have hne : ls.els ≠ [] := by
    intro h0; exact hv.2 ((contents_iff h hs).2 (by rw [h0]; rfl))
  obtain ⟨A, e, hA⟩ : ∃ A e, ls.els = A ++ [e] := ⟨_, _, (List.dropLast_concat_getLast hne).symm⟩
  unfold exec; simp only [wp_bind]
  refine wp_popBack h hs hA (ho s ls hs e (by rw [hA]; simp)) ?_
  intro w' hadv herr hsp hinv hm hn
  refine Post.mk' hinv (ho.set ?_) hadv ?_ (fun _ => herr.trans he)
  · intro x hx
    apply ho s ls hs; rw [hA]; simp [hx]
  · refine ⟨isSome_none (herr.trans he), ls.alloc, view A, (e.p, e.v), ?_, ?_⟩
    · rw [abs_some hs, hA]; simp
    · rw [abs_upd]

theorem sim_popFront (h : Inv w σ) (ho : Own σ) (he : w.err = none)
    (hv : Valid w (.popFront s)) : wp (exec (.popFront s)) w (Post w (abs σ) (.popFront s)) := by
  obtain ⟨ls, hs⟩ := (alive_iff h).1 hv.1
  have hne : ls.els ≠ [] := by
    intro h0; exact hv.2 ((contents_iff h hs).2 (by rw [h0]; rfl))
  obtain ⟨e, B, hA⟩ := List.exists_cons_of_ne_nil hne
  unfold exec; simp only [wp_bind]
  refine wp_popFront h hs hA (ho s ls hs e (by rw [hA]; simp)) ?_
  intro w' hadv herr hsp hinv hm hn
  refine Post.mk' hinv (ho.set ?_) hadv ?_ (fun _ => herr.trans he)
  · intro x hx
    apply ho s ls hs; rw [hA]; simp [hx]
  · refine ⟨isSome_none (herr.trans he), ls.alloc, view B, (e.p, e.v), ?_, ?_⟩
    · rw [abs_some hs, hA]; simp
    · rw [abs_upd]

theorem sim_clear (h : Inv w σ) (ho : Own σ) (he : w.err = none)
    (hv : Valid w (.clear s)) : wp (exec (.clear s)) w (Post w (abs σ) (.clear s)) := by
  obtain ⟨ls, hs⟩ := (alive_iff h).1 hv
  unfold exec; simp only [wp_bind]
  refine wp_clear h hs (ho s ls hs) ?_
  intro w' hadv herr hsp hinv hm
  refine Post.mk' hinv (ho.set (by simp)) hadv ?_ (fun _ => herr.trans he)
  exact ⟨isSome_none (herr.trans he), ls.alloc, view ls.els, abs_some hs, by rw [abs_upd]; simp⟩

theorem sim_destroy (h : Inv w σ) (ho : Own σ) (he : w.err = none)
    (hv : Valid w (.destroy s)) : wp (exec (.destroy s)) w (Post w (abs σ) (.destroy s)) := by
  obtain ⟨ls, hs⟩ := (alive_iff h).1 hv
  unfold exec; simp only [wp_bind]
  refine wp_destroyList h hs (ho s ls hs) ?_
  intro w' hadv herr hsp hinv hm
  refine Post.mk' hinv ho.drop hadv ?_ (fun _ => herr.trans he)
  exact ⟨isSome_none (herr.trans he), ls.alloc, view ls.els, abs_some hs, abs_upd_none⟩

theorem sim_assignVals (h : Inv w σ) (ho : Own σ) (he : w.err = none) {vs : List V}
    (hv : Valid w (.assignVals s vs)) : wp (exec (.assignVals s vs)) w (Post w (abs σ) (.assignVals s vs)) := by
  obtain ⟨ls, hs⟩ := (alive_iff h).1 hv.1
  unfold exec; simp only [wp_bind]
  refine wp_assignVals h hs (own_default h ho hs hv.2) he ?_
  intro w' k N hadv hadd hN hinv
  refine Post.mk' hinv (ho.set hadd.own) hadv ?_ hadd.good
  refine ⟨_, _, k, view N, abs_some hs, hadd.le, failed_iff hadd, ?_, by rw [abs_upd]⟩
  exact newElems h hinv hadd (b := ls.alloc) (A := []) (B := []) (by rw [upd_same]; simp) hN

theorem sim_assignN (h : Inv w σ) (ho : Own σ) (he : w.err = none) {n : Nat} {v : V}
    (hv : Valid w (.assignN s n v)) : wp (exec (.assignN s n v)) w (Post w (abs σ) (.assignN s n v)) := by
  have := sim_assignVals h ho he (s := s) (vs := List.replicate n v) hv
  simp only [exec] at this ⊢
  rw [assignN_eq]
  refine wp_mono this ?_
  rintro r w' ⟨A', ⟨a, L, k, N, h1, h3, h4, h5, h6⟩, hrest⟩
  rw [List.length_replicate] at h3 h4
  refine ⟨A', ⟨a, L, k, N, h1, h3, h4, ?_, h6⟩, hrest⟩
  rw [List.take_replicate, Nat.min_eq_left h3] at h5
  exact h5

theorem sim_assignRange (h : Inv w σ) (ho : Own σ) (he : w.err = none) {f l : Ptr}
    (hv : Valid w (.assignRange s t f l)) :
    wp (exec (.assignRange s t f l)) w (Post w (abs σ) (.assignRange s t f l)) := by
  obtain ⟨ha, hb, has, X, M, Y, hc, rfl, rfl, hst⟩ := hv
  obtain ⟨ls, hs⟩ := (alive_iff h).1 ha
  obtain ⟨l2, ht⟩ := (alive_iff h).1 hb
  obtain ⟨X, MY, hX, rfl, hMY⟩ := view_split ((contents_iff h ht).1 hc).symm
  obtain ⟨M, Y, rfl, rfl, rfl⟩ := view_split hMY
  have key : ∀ (w' : W V) (k : Nat) (N : List (El V)), Adv w w' 0 → Added w w' (M.map El.v) k ls.alloc N →
      N.map El.v = (M.map El.v).take k → Inv w' (upd σ s (some ⟨ls.alloc, N⟩)) →
      Post w (abs σ) (.assignRange s t (posOf t (view M ++ view Y)) (posOf t (view Y))) .unit w' := by
    intro w' k N hadv hadd hN hinv
    refine Post.mk' hinv (ho.set hadd.own) hadv ?_ hadd.good
    refine ⟨_, _, l2.alloc, view X, view M, view Y, k, view N, abs_some hs, ?_, rfl, rfl, ?_, ?_, ?_, by rw [abs_upd]⟩
    · rw [abs_some ht, hX]; simp
    · have := hadd.le; simpa using this
    · have := failed_iff hadd; simpa using this
    · rw [view_snd]
      exact newElems h hinv hadd (b := ls.alloc) (A := []) (B := []) (by rw [upd_same]; simp) hN
  have e1 : posOf t (view M ++ view Y) = posE t (M ++ Y) := by rw [← view_append, posOf_view]
  unfold exec; simp only [wp_bind]
  rw [e1, posOf_view] at key ⊢
  by_cases hst2 : s = t
  · subst hst2
    rw [hs] at ht; cases ht
    have hY : Y ≠ [] := by intro h0; exact hst rfl (by rw [h0]; rfl)
    obtain ⟨y, Y, rfl⟩ := List.exists_cons_of_ne_nil hY
    refine wp_assignIt_self h hs (own_default h ho hs has) hX he ?_
    intro w' k N h1 h2 h3 h4; exact key w' k N h1 h2 h3 h4
  · refine wp_assignIt h hs (own_default h ho hs has) ht hst2 hX he ?_
    intro w' k N h1 h2 h3 h4; exact key w' k N h1 h2 h3 h4

theorem sim_copy (h : Inv w σ) (ho : Own σ) (he : w.err = none)
    (hv : Valid w (.copy s t)) : wp (exec (.copy s t)) w (Post w (abs σ) (.copy s t)) := by
  obtain ⟨ha, hb, has, hst⟩ := hv
  obtain ⟨ls, hs⟩ := (alive_iff h).1 ha
  obtain ⟨l2, ht⟩ := (alive_iff h).1 hb
  unfold exec; simp only [wp_bind]
  refine wp_copyNothrow h hs (own_default h ho hs has) ht hst he ?_
  intro w' k N hadv hadd hN hinv
  refine Post.mk' hinv (ho.set hadd.own) hadv ?_ hadd.good
  refine ⟨_, _, l2.alloc, view l2.els, k, view N, abs_some hs, abs_some ht, ?_, ?_, ?_, by rw [abs_upd]⟩
  · have := hadd.le; simpa using this
  · have := failed_iff hadd; simpa using this
  · rw [view_snd]
    exact newElems h hinv hadd (b := ls.alloc) (A := []) (B := []) (by rw [upd_same]; simp) hN

theorem sim_move (h : Inv w σ) (ho : Own σ) (he : w.err = none)
    (hv : Valid w (.move s)) : wp (exec (.move s)) w (Post w (abs σ) (.move s)) := by
  obtain ⟨ls, hs⟩ := (alive_iff h).1 hv
  unfold exec; simp only [wp_bind]
  refine wp_moveCtor h hs ?_
  intro w' hadv herr hsp hn hne hinv
  refine Post.mk' hinv ((ho.set (by simp)).set (ho s ls hs)) hadv ?_ (fun _ => herr.trans he)
  refine ⟨isSome_none (herr.trans he), _, ls.alloc, view ls.els, rfl, abs_none.2 hn, abs_some hs, ?_⟩
  rw [abs_upd, abs_upd]; rfl

theorem sim_swap (h : Inv w σ) (ho : Own σ) (he : w.err = none)
    (hv : Valid w (.swap s t)) : wp (exec (.swap s t)) w (Post w (abs σ) (.swap s t)) := by
  obtain ⟨ha, hb, hsa⟩ := hv
  obtain ⟨ls, hs⟩ := (alive_iff h).1 ha
  obtain ⟨l2, ht⟩ := (alive_iff h).1 hb
  have hal := same_alloc h hs ht hsa
  unfold exec; simp only [wp_bind]
  refine wp_swap h hs ht ?_
  intro w' hadv herr hsp hinv
  refine Post.mk' hinv ((ho.set ?_).set ?_) hadv ?_ (fun _ => herr.trans he)
  · rw [hal]; exact ho t l2 ht
  · rw [← hal]; exact ho s ls hs
  · refine ⟨isSome_none (herr.trans he), ls.alloc, view ls.els, view l2.els, abs_some hs, ?_, ?_⟩
    · rw [abs_some ht, hal]
    · rw [abs_upd, abs_upd, hal]

theorem sim_moveAssign (h : Inv w σ) (ho : Own σ) (he : w.err = none)
    (hv : Valid w (.moveAssign s t)) : wp (exec (.moveAssign s t)) w (Post w (abs σ) (.moveAssign s t)) := by
  obtain ⟨ha, hb, hsa⟩ := hv
  obtain ⟨ls, hs⟩ := (alive_iff h).1 ha
  obtain ⟨l2, ht⟩ := (alive_iff h).1 hb
  have hal := same_alloc h hs ht hsa
  unfold exec; simp only [wp_bind]
  refine wp_moveAssign h hs ht (ho s ls hs) ?_
  intro w' hadv herr hinv
  refine Post.mk' hinv ?_ hadv ?_ (fun _ => herr.trans he)
  · split
    · exact ho.set (by simp)
    · refine (ho.set ?_).set (by simp)
      rw [hal]; exact ho t l2 ht
  · refine ⟨isSome_none (herr.trans he), ls.alloc, view ls.els, view l2.els, abs_some hs, by rw [abs_some ht, hal], ?_⟩
    split
    · rw [abs_upd]; rfl
    · rw [abs_upd, abs_upd, hal]; rfl

theorem inOrder_view {lt : V → V → Bool} {l : List (El V)} : InOrder lt (view l) ↔ LL.Ord lt l := by
  unfold InOrder LL.Ord view; rw [List.pairwise_map]

theorem filter_view {lt : V → V → Bool} {l : List (El V)} (k : V) :
    (view l).filter (equivTo lt k) = view (l.filter (eqv lt k)) := by
  unfold view; rw [List.filter_map]; rfl

theorem stable_view {lt : V → V → Bool} {l m : List (El V)} (h : SEq lt m l) (ho : SWO lt → LL.Ord lt m) :
    StableSorted lt (view l) (view m) := by
  refine ⟨h.perm.map _, fun hs => ⟨inOrder_view.2 (ho hs), fun k => ?_⟩⟩
  rw [filter_view, filter_view, h.stable hs]

theorem sim_merge (h : Inv w σ) (ho : Own σ) (he : w.err = none) {lt : V → V → Bool}
    (hv : Valid w (.merge lt s t)) : wp (exec (.merge lt s t)) w (Post w (abs σ) (.merge lt s t)) := by
  obtain ⟨ha, hb, hsa, hst⟩ := hv
  obtain ⟨ls, hs⟩ := (alive_iff h).1 ha
  obtain ⟨l2, ht⟩ := (alive_iff h).1 hb
  have hal := same_alloc h hs ht hsa
  unfold exec; simp only [wp_bind]
  refine wp_merge lt h hs ht hst ?_
  intro w' hadv herr hsp hinv
  have hperm : (List.merge ls.els l2.els (leE lt)).Perm (ls.els ++ l2.els) := List.merge_perm_append _
  refine Post.mk' hinv ((ho.set ?_).set (by simp)) hadv ?_ (fun _ => herr.trans he)
  · intro e hm
    rw [hperm.mem_iff, List.mem_append] at hm
    rcases hm with h1 | h1
    · exact ho s ls hs e h1
    · rw [hal]; exact ho t l2 ht e h1
  · refine ⟨isSome_none (herr.trans he), ls.alloc, view ls.els, view l2.els, abs_some hs, ?_, hst,
      view (List.merge ls.els l2.els (leE lt)), ?_, ?_, ?_⟩
    · rw [abs_some ht, hal]
    · rw [← view_append]; exact hperm.map _
    · intro hswo h1 h2
      rw [← view_append]
      exact stable_view (SEq.merge fun _ => inOrder_view.1 h1)
        fun hs => LL.Ord.merge hs (inOrder_view.1 h1) (inOrder_view.1 h2)
    · rw [abs_upd, abs_upd, hal]; rfl

theorem sim_sort (h : Inv w σ) (ho : Own σ) (he : w.err = none) {lt : V → V → Bool}
    (hv : Valid w (.sort lt s)) : wp (exec (.sort lt s)) w (Post w (abs σ) (.sort lt s)) := by
  obtain ⟨ha, L, hc, hlen⟩ := hv
  obtain ⟨ls, hs⟩ := (alive_iff h).1 ha
  obtain rfl := (contents_iff h hs).1 hc
  unfold exec; simp only [wp_bind]
  refine wp_sort lt h hs (by simpa using hlen) ?_
  intro w' L hadv herr hseq hord hinv
  refine Post.mk' hinv (ho.set ?_) hadv ?_ (fun _ => herr.trans he)
  · intro e hm; rw [hseq.perm.mem_iff] at hm; exact ho s ls hs e hm
  · exact ⟨isSome_none (herr.trans he), ls.alloc, _, view L, abs_some hs, stable_view hseq hord, by rw [abs_upd]⟩

theorem sim_spliceAll (h : Inv w σ) (ho : Own σ) (he : w.err = none) {pos : Ptr}
    (hv : Valid w (.spliceAll s pos t)) : wp (exec (.spliceAll s pos t)) w (Post w (abs σ) (.spliceAll s pos t)) := by
  obtain ⟨ha, hb, hsa, hst, hp⟩ := hv
  obtain ⟨ls, hs⟩ := (alive_iff h).1 ha
  obtain ⟨l2, ht⟩ := (alive_iff h).1 hb
  have hal := same_alloc h hs ht hsa
  obtain ⟨A, B, hA, rfl⟩ := (isPos_iff h hs).1 hp
  unfold exec; simp only [wp_bind]
  refine wp_spliceAll h hs ht hst hA ?_
  intro w' hadv herr hsp hinv
  refine Post.mk' hinv ((ho.set (own_insert ho hs hA ?_)).set (by simp)) hadv ?_ (fun _ => herr.trans he)
  · rw [hal]; exact ho t l2 ht
  · refine ⟨isSome_none (herr.trans he), hst, ls.alloc, view A, view B, view l2.els, ?_, (posOf_view s B).symm, ?_, ?_⟩
    · rw [abs_some hs, hA]; simp
    · rw [abs_some ht, hal]
    · rw [abs_upd, abs_upd, hal]; simp

theorem own_perm (ho : Own σ) (hs : σ s = some ls) {l : List (El V)} (hp : l.Perm ls.els) :
    ∀ e ∈ l, e.own = ls.alloc := fun e he => ho s ls hs e (hp.mem_iff.1 he)

/-- Two splittings of a list without repetitions of the same position. -/
theorem pos_cases {A B C D : List (El V)} {m : El V} (h1 : ls.els = A ++ B)
    (h2 : ls.els = C ++ m :: D) : (∃ Z, B = Z ++ m :: D ∧ C = A ++ Z) ∨ (∃ Z, D = Z ++ B ∧ A = C ++ m :: Z) := by
  rw [h1] at h2
  rcases List.append_eq_append_iff.1 h2 with ⟨Z, hZ, hB⟩ | ⟨Z, hA, hD⟩
  · exact .inl ⟨Z, hB, hZ⟩
  · cases Z with
    | nil => left; refine ⟨[], by simpa using hD.symm, by simpa using hA.symm⟩
    | cons z Z => simp at hD; obtain ⟨rfl, rfl⟩ := hD; exact .inr ⟨Z, rfl, hA⟩

theorem sim_spliceOne (h : Inv w σ) (ho : Own σ) (he : w.err = none) {pos it : Ptr}
    (hv : Valid w (.spliceOne s pos t it)) :
    wp (exec (.spliceOne s pos t it)) w (Post w (abs σ) (.spliceOne s pos t it)) := by
  obtain ⟨ha, hb, hsa, hp, X, v, Y, hc⟩ := hv
  obtain ⟨ls, hs⟩ := (alive_iff h).1 ha
  obtain ⟨l2, ht⟩ := (alive_iff h).1 hb
  have hal := same_alloc h hs ht hsa
  obtain ⟨A, B, hA, rfl⟩ := (isPos_iff h hs).1 hp
  obtain ⟨C, D', hC, rfl, hD⟩ := view_split ((contents_iff h ht).1 hc).symm
  obtain ⟨m, D, rfl, hx, rfl⟩ := view_cons_inv hD
  cases hx
  unfold exec; simp only [wp_bind]
  by_cases hst : s = t
  · subst hst
    rw [hs] at ht; cases ht
    rcases pos_cases (ls := ls) hA hC with ⟨Z, rfl, rfl⟩ | ⟨Z, rfl, rfl⟩
    · -- to an earlier position
      have hspec : ∀ w' : W V, w'.err = w.err →
          Spec (abs σ) (.spliceOne s (posE s (Z ++ m :: D)) s m.p) .unit w'.err.isSome
            (upd (abs σ) s (some (ls.alloc, view A ++ (m.p, m.v) :: (view Z ++ view D)))) := by
        intro w' herr
        refine ⟨isSome_none (herr.trans he), ls.alloc, .inr (.inr ⟨rfl, view A, view Z, (m.p, m.v), view D, ?_, rfl, ?_, rfl⟩)⟩
        · rw [abs_some hs, hA]; simp
        · rw [← posOf_view]; simp
      cases Z with
      | nil =>
        refine wp_spliceOne_self h hs (by simpa using hC) ?_
        refine Post.mk' h ho (Adv.refl w 0) ?_ (fun _ => he)
        have := hspec w rfl
        rw [upd_self _ _ _ (by rw [abs_some hs, hA]; simp)] at this
        exact this
      | cons x Z =>
        refine wp_spliceOne_earlier h hs (A := A) (X := Z) (P := D) (m := m) (x := x) hA ?_
        intro w' hadv herr hsp hinv
        refine Post.mk' hinv (ho.set (own_perm ho hs ?_)) hadv ?_ (fun _ => herr.trans he)
        · rw [hA]; classical simp only [List.perm_iff_count, List.count_append, List.count_cons]; intro a; omega
        · rw [abs_upd]; simpa using hspec w' herr
    · -- to a later position
      have hspec : ∀ w' : W V, w'.err = w.err →
          Spec (abs σ) (.spliceOne s (posE s B) s m.p) .unit w'.err.isSome
            (upd (abs σ) s (some (ls.alloc, view C ++ (view Z ++ (m.p, m.v) :: view B)))) := by
        intro w' herr
        refine ⟨isSome_none (herr.trans he), ls.alloc, .inr (.inl ⟨rfl, view C, (m.p, m.v), view Z, view B, ?_, rfl, ?_, rfl⟩)⟩
        · rw [abs_some hs, hC]; simp
        · rw [← posOf_view]
      cases Z with
      | nil =>
        refine wp_spliceOne_next h hs (by simpa using hC) ?_
        refine Post.mk' h ho (Adv.refl w 0) ?_ (fun _ => he)
        have := hspec w rfl
        rw [upd_self _ _ _ (by rw [abs_some hs, hC]; simp)] at this
        exact this
      | cons y Z =>
        refine wp_spliceOne_later h hs (A := C) (Y := Z) (P := B) (m := m) (y := y) hC ?_
        intro w' hadv herr hsp hinv
        refine Post.mk' hinv (ho.set (own_perm ho hs ?_)) hadv ?_ (fun _ => herr.trans he)
        · rw [hC]; classical simp only [List.perm_iff_count, List.count_append, List.count_cons]; intro a; omega
        · rw [abs_upd]; simpa using hspec w' herr
  · refine wp_spliceOne2 h hs ht hst hA hC ?_
    intro w' hadv herr hsp hinv
    obtain ⟨o1, o2⟩ := own_remove ho ht (A := C) (N := [m]) (B := D) (by simpa using hC)
    refine Post.mk' hinv ((ho.set ?_).set o1) hadv ?_ (fun _ => herr.trans he)
    · have := own_insert ho hs hA (N := [m]) (by rw [hal]; exact o2)
      simpa using this
    · refine ⟨isSome_none (herr.trans he), ls.alloc, .inl ⟨hst, view A, view B, view C, (m.p, m.v), view D, ?_, ?_, ?_, rfl, ?_⟩⟩
      · rw [abs_some hs, hA]; simp
      · rw [posOf_view]
      · rw [abs_some ht, hC, hal]; simp
      · rw [abs_upd, abs_upd, hal]; simp

theorem sim_spliceRange (h : Inv w σ) (ho : Own σ) (he : w.err = none) {pos f l : Ptr}
    (hv : Valid w (.spliceRange s pos t f l)) :
    wp (exec (.spliceRange s pos t f l)) w (Post w (abs σ) (.spliceRange s pos t f l)) := by
  obtain ⟨ha, hb, hsa, hcases⟩ := hv
  obtain ⟨ls, hs⟩ := (alive_iff h).1 ha
  obtain ⟨l2, ht⟩ := (alive_iff h).1 hb
  have hal := same_alloc h hs ht hsa
  unfold exec; simp only [wp_bind]
  rcases hcases with ⟨hst, hp, X, M, Y, hc, rfl, rfl⟩ | ⟨rfl, X, M, Z, Y, hc, hcases⟩
  · obtain ⟨A, B, hA, rfl⟩ := (isPos_iff h hs).1 hp
    obtain ⟨C, MD, hC, rfl, hMD⟩ := view_split ((contents_iff h ht).1 hc).symm
    obtain ⟨M, D, rfl, rfl, rfl⟩ := view_split hMD
    rw [← view_append, posOf_view, posOf_view]
    refine wp_spliceRange2 h hs ht hst hA hC ?_
    intro w' hadv herr hsp hinv
    obtain ⟨o1, o2⟩ := own_remove ho ht hC
    refine Post.mk' hinv ((ho.set (own_insert ho hs hA (by rw [hal]; exact o2))).set o1) hadv ?_ (fun _ => herr.trans he)
    refine ⟨isSome_none (herr.trans he), ls.alloc, .inl ⟨hst, view A, view B, view C, view M, view D, ?_, ?_, ?_, ?_, ?_, ?_⟩⟩
    · rw [abs_some hs, hA]; simp
    · rw [posOf_view]
    · rw [abs_some ht, hC, hal]; simp
    · rw [← view_append, posOf_view]
    · rw [posOf_view]
    · rw [abs_upd, abs_upd, hal]; simp
  · obtain ⟨A, R, hA, rfl, hR⟩ := view_split ((contents_iff h hs).1 hc).symm
    obtain ⟨M, R2, rfl, rfl, hR2⟩ := view_split hR
    obtain ⟨Z, B, rfl, rfl, rfl⟩ := view_split hR2
    have hA' : abs σ s = some (ls.alloc, view A ++ (view M ++ (view Z ++ view B))) := by rw [abs_some hs, hA]; simp
    have e1 : posOf s (view M ++ (view Z ++ view B)) = posE s (M ++ (Z ++ B)) := by
      rw [← view_append, ← view_append, posOf_view]
    have e2 : posOf s (view Z ++ view B) = posE s (Z ++ B) := by rw [← view_append, posOf_view]
    have e3 : posOf s (view B) = posE s B := posOf_view s B
    have hperm : (A ++ (Z ++ (M ++ B))).Perm ls.els := by
      rw [hA]; classical simp only [List.perm_iff_count, List.count_append]; intro a; omega
    rcases hcases with ⟨rfl, rfl, rfl, hne⟩ | ⟨rfl, rfl, rfl, hne⟩
    · have hspec : ∀ w' : W V, w'.err = w.err →
          Spec (abs σ) (.spliceRange s (posOf s (view B)) s (posOf s (view M ++ (view Z ++ view B)))
            (posOf s (view Z ++ view B))) .unit w'.err.isSome
            (upd (abs σ) s (some (ls.alloc, view A ++ (view Z ++ (view M ++ view B))))) := by
        intro w' herr
        exact ⟨isSome_none (herr.trans he), ls.alloc, .inr (.inl ⟨rfl, _, _, _, _, hA', rfl, rfl, rfl, rfl⟩)⟩
      rw [e1, e2, e3] at *
      cases hM : M with
      | nil =>
        subst hM
        refine wp_spliceRange_nil h hs (A := A) (P := Z ++ B) (by simpa using hA) _ ?_
        refine Post.mk' h ho (Adv.refl w 0) ?_ (fun _ => he)
        have := hspec w rfl
        rw [upd_self _ _ _ (by rw [abs_some hs, hA]; simp)] at this
        exact this
      | cons x M' =>
        rw [← hM]
        have hZ : Z ≠ [] := by
          intro h0; exact hne (by rw [hM]; simp) (by rw [h0]; rfl)
        obtain ⟨y, Z, rfl⟩ := List.exists_cons_of_ne_nil hZ
        refine wp_spliceRange_later h hs (A := A) (M := M) (Y := Z) (P := B) (y := y) hA ?_
        intro w' hadv herr hsp hinv
        refine Post.mk' hinv (ho.set (own_perm ho hs hperm)) hadv ?_ (fun _ => herr.trans he)
        rw [abs_upd]; simpa using hspec w' herr
    · have hspec : ∀ w' : W V, w'.err = w.err →
          Spec (abs σ) (.spliceRange s (posOf s (view M ++ (view Z ++ view B))) s (posOf s (view Z ++ view B))
            (posOf s (view B))) .unit w'.err.isSome
            (upd (abs σ) s (some (ls.alloc, view A ++ (view Z ++ (view M ++ view B))))) := by
        intro w' herr
        exact ⟨isSome_none (herr.trans he), ls.alloc, .inr (.inr ⟨rfl, _, _, _, _, hA', rfl, rfl, rfl, rfl⟩)⟩
      rw [e1, e2, e3] at *
      cases hZ : Z with
      | nil =>
        subst hZ
        refine wp_spliceRange_nil h hs (A := A ++ M) (P := B) (by simpa using hA) _ ?_
        refine Post.mk' h ho (Adv.refl w 0) ?_ (fun _ => he)
        have := hspec w rfl
        rw [upd_self _ _ _ (by rw [abs_some hs, hA]; simp)] at this
        exact this
      | cons y Z' =>
        rw [← hZ]
        have hM : M ≠ [] := by
          intro h0; exact hne (by rw [hZ]; simp) (by rw [h0]; rfl)
        obtain ⟨x, M, rfl⟩ := List.exists_cons_of_ne_nil hM
        refine wp_spliceRange_earlier h hs (A := A) (X := M) (M := Z) (P := B) (x := x) hA ?_
        intro w' hadv herr hsp hinv
        refine Post.mk' hinv (ho.set (own_perm ho hs hperm)) hadv ?_ (fun _ => herr.trans he)
        rw [abs_upd]; simpa using hspec w' herr

theorem _root_.Nestl.LL.Inv.ready (h : Inv w σ) : Inv (LC.ready w) σ := ⟨h.st, h.sp⟩

/-- Every valid call terminates without undefined behaviour and does to the lists what the specification says. -/
theorem exec_sim (h : Inv w σ) (ho : Own σ) (he : w.err = none) {c : Call V} (hv : Valid w c) :
    wp (exec c) w (Post w (abs σ) c) := by
  cases c with
  | create a => exact sim_create h ho he a
  | insert s pos v => exact sim_insert h ho he hv
  | insertN s pos n v => exact sim_insertN h ho he hv
  | insertRange s pos vs => exact sim_insertRange h ho he hv
  | erase s pos => exact sim_erase h ho he hv
  | eraseRange s f l => exact sim_eraseRange h ho he hv
  | pushBack s v => exact sim_pushBack h ho he hv
  | pushFront s v => exact sim_pushFront h ho he hv
  | popBack s => exact sim_popBack h ho he hv
  | popFront s => exact sim_popFront h ho he hv
  | clear s => exact sim_clear h ho he hv
  | assignN s n v => exact sim_assignN h ho he hv
  | assignVals s vs => exact sim_assignVals h ho he hv
  | assignRange s t f l => exact sim_assignRange h ho he hv
  | copy d s => exact sim_copy h ho he hv
  | move s => exact sim_move h ho he hv
  | moveAssign s t => exact sim_moveAssign h ho he hv
  | swap s t => exact sim_swap h ho he hv
  | merge lt s t => exact sim_merge h ho he hv
  | spliceAll s pos t => exact sim_spliceAll h ho he hv
  | spliceOne s pos t it => exact sim_spliceOne h ho he hv
  | spliceRange s pos t f l => exact sim_spliceRange h ho he hv
  | sort lt s => exact sim_sort h ho he hv
  | destroy s => exact sim_destroy h ho he hv

end Nestl.LC
