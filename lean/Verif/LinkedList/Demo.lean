import Verif.LinkedList.PropLemmas
set_option autoImplicit false
/-
Concrete reachable states used by the examples beside the list theorems, and the two ways lists can go wrong.
-/
namespace Nestl.LC
open Nestl.LL

/-- An environment that never refuses anything. -/
def goodEnv : Env (LNode Nat) :=
  { addr := fun k => some k, ctor := fun _ => true, junk := fun _ => ⟨.null, .null, none, 0⟩ }

theorem good_start : Good (start goodEnv) :=
  ⟨fun k => ⟨k, rfl⟩, fun i j h => by simpa [start, goodEnv] using h, fun _ => rfl, fun a h => absurd rfl h⟩

/-- A reachable state with known lists. -/
structure Demo (w : W Nat) (A : AState Nat) : Prop where
  reach : Reach w
  good : Good w
  sim : Sim w A

theorem Demo.step {w : W Nat} {A : AState Nat} (h : Demo w A) {c : Call Nat} (hv : Valid w c) :
    ∃ r w' A', Demo w' A' ∧ Spec A c r false A' := by
  obtain ⟨r, w', hr, A', hsp, hsim, ⟨k, hadv⟩, hg⟩ := (h.sim.call hv).runs
  have hgood : Good (ready w) := ⟨h.good.some, h.good.inj, h.good.ctor, h.good.past⟩
  have he := hg hgood
  refine ⟨r, w', A', ⟨h.reach.next hv hr, hadv.good hgood, hsim⟩, ?_⟩
  rw [isSome_none he] at hsp; exact hsp

theorem Sim.alive {V : Type} {w : W V} {A : AState V} (h : Sim w A) {s : Ptr} : Alive w s ↔ A s ≠ none := by
  obtain ⟨σ, h1, _, rfl⟩ := h
  rw [alive_iff h1, Ne, abs_none]
  exact Option.ne_none_iff_exists'.symm

theorem Sim.contents {V : Type} {w : W V} {A : AState V} (h : Sim w A) {s : Ptr} {a : Nat} {L : List (Ptr × V)}
    (hs : A s = some (a, L)) : Contents w s L ∧ HasAlloc w s a ∧ Alive w s := by
  obtain ⟨σ, h1, _, rfl⟩ := h
  obtain ⟨l, hl, rfl⟩ := abs_inv hs
  exact ⟨(contents_iff h1 hl).2 rfl, (hasAlloc_iff h1 hl).2 rfl, (alive_iff h1).2 ⟨_, hl⟩⟩

theorem Demo.push {w : W Nat} {A : AState Nat} (h : Demo w A) {s : Ptr} {a : Nat} {L : List (Ptr × Nat)}
    (hs : A s = some (a, L)) (v : Nat) :
    ∃ w' n, Demo w' (upd A s (some (a, L ++ [(n, v)]))) := by
  obtain ⟨r, w', A', hd, hsp⟩ := h.step (c := .pushBack s v) (h.sim.contents hs).2.2
  obtain ⟨a', L', h1, n, _, rfl⟩ := hsp
  rw [hs] at h1; cases h1
  exact ⟨w', n, hd⟩

/-- Three lists: [3, 1, 2] and [2, 5] with the default allocator and [9] with another one. -/
theorem demo : ∃ (w : W Nat) (s t u p q r x y z : Ptr), Reach w ∧ Good w ∧ s ≠ t ∧ s ≠ u ∧ t ≠ u ∧
    Alive w s ∧ Alive w t ∧ Alive w u ∧
    Contents w s [(p, 3), (q, 1), (r, 2)] ∧ Contents w t [(x, 2), (y, 5)] ∧ Contents w u [(z, 9)] ∧
    HasAlloc w s defaultAlloc ∧ HasAlloc w t defaultAlloc ∧ HasAlloc w u 7 := by
  have d0 : Demo (start goodEnv) (fun _ => none) := by
    refine ⟨⟨_, _, Hist.start⟩, good_start, ?_⟩
    obtain ⟨A, h1, h2⟩ := (Hist.start (env := goodEnv)).sim
    cases h1; exact h2
  obtain ⟨_, w1, _, d1, -, s, -, -, rfl⟩ := d0.step (c := .create defaultAlloc) trivial
  obtain ⟨_, w2, _, d2, -, t, -, hst, rfl⟩ := d1.step (c := .create defaultAlloc) trivial
  obtain ⟨_, w3, _, d3, -, u, -, htu, rfl⟩ := d2.step (c := .create 7) trivial
  have h1 : s ≠ t := by rintro rfl; rw [upd_same] at hst; cases hst
  have h2 : s ≠ u := by rintro rfl; rw [upd_other _ _ h1, upd_same] at htu; cases htu
  have h3 : t ≠ u := by rintro rfl; rw [upd_same] at htu; cases htu
  obtain ⟨w4, p, d4⟩ := d3.push (s := s) (a := defaultAlloc) (L := []) (by simp [upd_apply, h1, h2]) 3
  obtain ⟨w5, q, d5⟩ := d4.push (s := s) (upd_same _ _ _) 1
  obtain ⟨w6, r, d6⟩ := d5.push (s := s) (upd_same _ _ _) 2
  obtain ⟨w7, x, d7⟩ := d6.push (s := t) (a := defaultAlloc) (L := []) (by simp [upd_apply, h1.symm, h3]) 2
  obtain ⟨w8, y, d8⟩ := d7.push (s := t) (upd_same _ _ _) 5
  obtain ⟨w9, z, d9⟩ := d8.push (s := u) (a := 7) (L := []) (by simp [upd_apply, h2.symm, h3.symm]) 9
  have cs := d9.sim.contents (s := s) (a := defaultAlloc) (L := [(p, 3), (q, 1), (r, 2)]) (by simp [upd_apply, h1, h2])
  have ct := d9.sim.contents (s := t) (a := defaultAlloc) (L := [(x, 2), (y, 5)]) (by simp [upd_apply, h3])
  have cu := d9.sim.contents (s := u) (a := 7) (L := [(z, 9)]) (by simp [upd_apply])
  exact ⟨w9, s, t, u, p, q, r, x, y, z, d9.reach, d9.good, h1, h2, h3, cs.2.2, ct.2.2, cu.2.2, cs.1, ct.1, cu.1, cs.2.1,
    ct.2.1, cu.2.1⟩

/-- Memory with a single block. -/
def oneBlockEnv : Env (LNode Nat) :=
  { addr := fun _ => some 0, ctor := fun _ => true, junk := fun _ => ⟨.null, .null, none, 0⟩ }

/-- A state in which a list holds [4] and memory is exhausted. -/
theorem demo_oneBlock : ∃ (w : W Nat) (h : List (Entry Nat)) (s p : Ptr), Hist oneBlockEnv h w ∧ Alive w s ∧
    Contents w s [(p, 4)] ∧ Refused w := by
  have r0 : Hist oneBlockEnv [] (start oneBlockEnv) := Hist.start
  obtain ⟨σ0, i0, o0⟩ := Reach.inv ⟨_, _, r0⟩
  obtain ⟨r1, w1, hr1, s, hadv, hinv⟩ : ∃ r1 w1, Runs (exec (.create 0)) (ready (start oneBlockEnv)) r1 w1 ∧
      ∃ s, Adv (ready (start oneBlockEnv)) w1 0 ∧ Inv w1 (upd σ0 s (some ⟨0, []⟩)) := by
    refine wp.runs ?_
    unfold exec; simp only [wp_bind]
    refine wp_newList i0.ready 0 ?_
    intro w' hadv _ _ hn hinv
    exact ⟨_, hadv, hinv⟩
  have hn1 : w1.nAlloc = 0 := by
    have : Quiet (exec (.create 0) : M (W Nat) Res) := .bind (Quiet.newList 0) fun _ => .pure _
    exact (this _ _ _ hr1).allocs
  have henv : w1.env = oneBlockEnv := hadv.env
  have hh : ∀ a, w1.heap (.dyn a) = none := by
    intro a
    apply Classical.byContradiction
    intro h
    rcases hadv.cells a h with h1 | ⟨_, k, a, _, hk1, hk2, _⟩
    · exact h1 rfl
    · omega
  have r1' := r0.call (c := .create 0) trivial hr1
  obtain ⟨r2, w2, hr2, p, h2⟩ : ∃ r2 w2, Runs (exec (.pushBack s 4)) (ready w1) r2 w2 ∧
      ∃ p, Adv (ready w1) w2 0 ∧ Inv w2 (upd (upd σ0 s (some ⟨0, []⟩)) s (some ⟨0, [⟨p, 4, 0⟩]⟩)) := by
    refine wp.runs ?_
    unfold exec; simp only [wp_bind]
    refine wp_pushBack hinv.ready (upd_same _ _ _) rfl ?_ ?_
    · intro w' _ _ _ hr _ _
      exfalso
      rcases hr with hr | hr
      · exact hr 0 (by show w1.env.addr _ = _; rw [henv]; rfl) (hh 0)
      · have : w1.env.ctor w1.nCtor = false := hr
        rw [henv] at this; cases this
    · intro w' n hadv _ _ _ _ hinv
      exact ⟨n, hadv, hinv⟩
  have hs2 : upd (upd σ0 s (some ⟨0, []⟩)) s (some ⟨0, [⟨p, 4, 0⟩]⟩) s = some ⟨0, [⟨p, 4, 0⟩]⟩ := upd_same _ _ _
  have ha1 : Alive w1 s := (alive_iff hinv).2 ⟨_, upd_same _ _ _⟩
  refine ⟨w2, _, s, p, r1'.call (c := .pushBack s 4) ha1 hr2, (alive_iff h2.2).2 ⟨_, hs2⟩, (contents_iff h2.2 hs2).2 rfl, ?_⟩
  have henv2 : w2.env = oneBlockEnv := h2.1.env.trans henv
  left
  intro a ha
  rw [henv2] at ha; cases ha
  obtain ⟨⟨b, hb⟩, _⟩ := h2.2.st.el _ _ hs2 ⟨p, 4, 0⟩ (by simp)
  have hp : w2.heap p ≠ none := h2.2.heap_el hs2 (e := ⟨p, 4, 0⟩) (by simp)
  change p = _ at hb
  subst hb
  rcases h2.1.cells b hp with h3 | ⟨_, k, c, hc, _, _, hk⟩
  · exact absurd (hh b) h3
  · cases hc
    have : (ready w1).env = oneBlockEnv := henv
    rw [this] at hk; cases hk; exact hp

theorem demo_refused : ∃ (w : W Nat) (s p : Ptr), Reach w ∧ Alive w s ∧ Contents w s [(p, 4)] ∧ Refused w := by
  obtain ⟨w, h, s, p, hh, h1⟩ := demo_oneBlock
  exact ⟨w, s, p, ⟨_, _, hh⟩, h1⟩

/-! ### Faults -/

variable {V : Type} {w : W V} {σ : Sg V} {s t : Ptr} {ls l2 : Lst V}

/-- Copying a list onto itself: the loop runs past the last element into the header of the temporary. -/
theorem faults_selfLoop {tmp : Ptr} {X Y : List (El V)} (h : Inv w σ) (hs : σ s = some ls) (ht : σ tmp = some l2)
    (hst : s ≠ tmp) (hX : l2.els = X ++ Y) (he : w.err = none) (hg : Good w) :
    Faults (assignItLoop s (posE tmp Y) s) w .rawRead := by
  induction Y generalizing w σ ls X with
  | nil =>
    rw [assignItLoop]
    refine wp.faults_bind (wp_itEq_false (h.on_pos ht hX) (h.st.on_hdr hs) hst.symm ?_)
    refine Faults.if_neg (by simp) ?_
    refine Faults.bind ?_
    have hon := h.st.on_hdr ht
    have hd := (h.st.hdr tmp l2 ht).2
    unfold deref
    refine wp.faults_bind (wp_checkNode hon ?_)
    unfold dat at hd
    cases hc : w.heap tmp with
    | none => simp [hc] at hd
    | some c =>
      refine wp.faults_bind ?_
      rw [show posE tmp ([] : List (El V)) = tmp from rfl, wp_rd hc (h.st.null_ne ht)]
      simp [hc] at hd
      rw [hd.1]; rfl
  | cons y Y ih =>
    rw [assignItLoop]
    have hym : y ∈ l2.els := by rw [hX]; simp
    refine wp.faults_bind (wp_itEq_false (h.on_pos ht hX) (h.st.on_hdr hs) (h.st.hdr_ne hs ht hym) ?_)
    refine Faults.if_neg (by simp) ?_
    refine wp.faults_bind (wp_deref h ht hym ?_)
    refine wp.faults_bind (wp_pushBack h hs he ?_ ?_)
    · intro w' _ _ _ hr _ _; exact absurd hr hg.not_refused
    · intro w' n hadv hsp herr _ hn hinv
      refine wp.faults_bind ?_
      simp only [wp_hasErr, herr]
      refine Faults.if_neg (by simp) ?_
      have ht' : upd σ s (some ⟨ls.alloc, ls.els ++ [⟨n, y.v, ls.alloc⟩]⟩) tmp = some l2 := by
        rw [upd_other _ _ hst.symm]; exact ht
      refine wp.faults_bind (wp_incr hinv ht' (A := X) (B := Y) (e := y) hX ?_)
      exact ih hinv (upd_same _ _ _) ht' (X := X ++ [y]) (by rw [hX]; simp) herr (hadv.good hg)

theorem faults_selfCopy (h : Inv w σ) (hs : σ s = some ls) (hne : ls.els ≠ []) (he : w.err = none) (hg : Good w) :
    Faults (copyNothrow s s) w .rawRead := by
  unfold copyNothrow
  refine wp.faults_bind (wp_begin h hs ?_)
  refine wp.faults_bind (wp_end h hs ?_)
  unfold assignIt
  refine wp.faults_bind (wp_newList h defaultAlloc ?_)
  intro w1 hadv1 herr1 _ hn1 hinv1
  have hst : s ≠ .stk w.sp := by rintro rfl; rw [hs] at hn1; cases hn1
  refine wp.faults_bind (wp_swap hinv1 (upd_same _ _ _) (by rw [upd_other _ _ hst]; exact hs) ?_)
  intro w2 hadv2 herr2 _ hinv2
  refine Faults.bind ?_
  obtain ⟨y, Y, hY⟩ := List.exists_cons_of_ne_nil hne
  have e1 : posE s ls.els = posE (.stk w.sp) ls.els := by rw [hY]; rfl
  rw [e1]
  refine faults_selfLoop hinv2 (s := s) (upd_same _ _ _) (tmp := .stk w.sp) (l2 := ⟨defaultAlloc, ls.els⟩)
    (by rw [upd_other _ _ hst.symm, upd_same]) hst (X := []) rfl (by rw [herr2, herr1, he]) (hadv2.good (hadv1.good hg))

/-- Returning a node to an allocator that did not provide it. -/
theorem faults_destroyContent {e : El V} {B : List (El V)} (h : Inv w σ) (hs : σ s = some ls) (hel : ls.els = e :: B)
    (ho : e.own ≠ ls.alloc) : Faults (destroyContent s) w .wrongAllocator := by
  have hem : e ∈ ls.els := by rw [hel]; simp
  unfold destroyContent
  refine wp.faults_bind ?_
  have hl := h.link hs (A := []) (B := ls.els) rfl
  rw [wp_getNext (a := e.p) (by rw [hel] at hl; exact hl.1)]
  rw [destroyLoop]
  refine Faults.if_pos (h.st.hdr_ne hs hs hem) ?_
  obtain ⟨q, hq⟩ : ∃ q, nxt w.heap e.p = some q := by
    have hon := h.st.on_el hs hem
    obtain ⟨x, y, _, hy⟩ := hon
    exact ⟨y, hy.1⟩
  refine wp.faults_bind ?_
  rw [wp_getNext hq]
  obtain ⟨⟨a, ha⟩, hd⟩ := h.st.el s ls hs e hem
  refine wp.faults_bind (wp_destroyVal (by rw [ha]; simp) hd ?_)
  intro H' _ _ hd' hother
  refine Faults.bind ?_
  obtain ⟨_, hds⟩ := h.st.hdr s ls hs
  have hss : dat H' s = some (none, ls.alloc) := by
    rw [hd', upd_other _ _ (h.st.hdr_ne hs hs hem).symm]; exact hds
  have hee : dat H' e.p = some (none, e.own) := by rw [hd', upd_same]
  unfold putNode dat at *
  cases hc : H' s with
  | none => simp [hc] at hss
  | some c =>
    refine wp.faults_bind ?_
    rw [wp_rd (by exact hc) (h.st.null_ne hs)]
    cases hc2 : H' e.p with
    | none => simp [hc2] at hee
    | some c2 =>
      simp [hc] at hss; simp [hc2] at hee
      rw [ha] at hc2 ⊢
      unfold Faults freeCell
      simp [hc2, hee, hss, ho]

theorem faults_destroyList {e : El V} {B : List (El V)} (h : Inv w σ) (hs : σ s = some ls) (hel : ls.els = e :: B)
    (ho : e.own ≠ ls.alloc) : Faults (destroyList s) w .wrongAllocator :=
  Faults.bind (faults_destroyContent h hs hel ho)

/-- Assigning to a non-empty list whose allocator is not the default one. -/
theorem faults_assignVals (h : Inv w σ) (ho : Own σ) (hs : σ s = some ls) (hne : ls.els ≠ [])
    (ha : ls.alloc ≠ defaultAlloc) (he : w.err = none) (vs : List V) :
    Faults (assignVals s vs) w .wrongAllocator := by
  unfold assignVals
  refine wp.faults_bind (wp_newList h defaultAlloc ?_)
  intro w1 hadv1 herr1 _ hn1 hinv1
  have hst : s ≠ .stk w.sp := by rintro rfl; rw [hs] at hn1; cases hn1
  refine wp.faults_bind (wp_swap hinv1 (upd_same _ _ _) (by rw [upd_other _ _ hst]; exact hs) ?_)
  intro w2 hadv2 herr2 _ hinv2
  refine wp.faults_bind (wp_assignValsLoop hinv2 (upd_same _ _ _) (by rw [herr2, herr1, he]) ?_)
  intro w3 k N _ _ _ _ hinv3
  obtain ⟨y, Y, hY⟩ := List.exists_cons_of_ne_nil hne
  refine faults_destroyList hinv3 (s := .stk w.sp) (ls := ⟨defaultAlloc, ls.els⟩) ?_ hY ?_
  · rw [upd_other _ _ hst.symm, upd_other _ _ hst.symm, upd_same]
  · rw [ho s ls hs y (by rw [hY]; simp)]; exact ha

/-- Splicing a range in front of its own end. -/
theorem faults_spliceRange (h : Inv w σ) (hs : σ s = some ls) {A M Y : List (El V)} (hA : ls.els = A ++ (M ++ Y))
    (hM : M ≠ []) : Faults (spliceRange (posE s Y) (posE s (M ++ Y)) (posE s Y)) w .assertFail := by
  have on1 := h.on_pos hs hA
  have on2 := h.on_pos hs (A := A ++ M) (B := Y) (by rw [hA]; simp)
  have hne : posE s (M ++ Y) ≠ posE s Y := by
    obtain ⟨m, M, rfl⟩ := List.exists_cons_of_ne_nil hM
    have hnd := h.st.ring_nodup hs
    rw [hA] at hnd
    show m.p ≠ _
    cases Y with
    | nil =>
      rintro (h0 : m.p = s)
      simp [h0] at hnd
    | cons y Y =>
      rintro (h0 : m.p = y.p)
      simp [h0] at hnd
      have := (List.nodup_append.1 hnd.2).2.1
      simp at this
  unfold spliceRange
  refine wp.faults_bind (wp_itEq_false on1 on2 hne ?_)
  refine Faults.if_neg (by simp) ?_
  unfold transfer
  refine wp.faults_bind (wp_checkNode on2 ?_)
  refine wp.faults_bind (wp_checkNode on1 ?_)
  refine wp.faults_bind (wp_checkNode on2 ?_)
  unfold transferNodes
  refine wp.faults_bind (wp_checkNode on2 ?_)
  refine wp.faults_bind (wp_checkNode on1 ?_)
  refine wp.faults_bind (wp_checkNode on2 ?_)
  refine Faults.bind (Faults.assertM (by simp))

end Nestl.LC
