import Verif.Multi.Client
import Verif.Set.Refine
import Verif.RBTree.HintAny
set_option autoImplicit false
/-
The effect of the calls on the tree with equivalent elements (helper lemmas).
-/
namespace Nestl.Multi
open Nestl.RB Nestl.Set
variable {K : Type}

section
variable {w w' : W K} {lt : K → K → Bool} {s pos : Ptr} {k : K} {o : Nat} {t t' : T K} {L : List (Ptr × K)}

theorem _root_.Nestl.SWO.asym (hs : SWO lt) : Asym lt := fun _ _ h => hs.asymm h

/-- Invariant of reachable states. -/
abbrev MInv (lt : K → K → Bool) (w : W K) : Prop := InvP (fun L => SWO lt → WSorted lt L) w

theorem WSorted.remove {A M B : List (Ptr × K)} (h : WSorted lt (A ++ (M ++ B))) : WSorted lt (A ++ B) := by
  simp only [WSorted, List.pairwise_append, List.mem_append] at h ⊢
  exact ⟨h.1, h.2.1.2.1, fun a ha b hb => h.2.2 a ha b (Or.inr hb)⟩

theorem WSorted.insert {A B : List (Ptr × K)} {p : Ptr} (h : WSorted lt (A ++ B)) (hc : WCut lt k A B) :
    WSorted lt (A ++ (p, k) :: B) := by
  simp only [WSorted, List.pairwise_append, List.pairwise_cons, List.mem_cons] at h ⊢
  refine ⟨h.1, ⟨fun b hb => hc.2 b hb, h.2.1⟩, ?_⟩
  rintro a ha b (rfl | hb)
  · exact hc.1 a ha
  · exact h.2.2 a ha b hb

theorem Closed.wsorted (lt : K → K → Bool) : Closed lt (fun L => SWO lt → WSorted lt L) := by
  refine ⟨fun _ => by simp [WSorted], ?_, fun A M B h hw => WSorted.remove (h hw), ?_⟩
  · intro A B p k h h2 hw
    exact WSorted.insert (h hw) ⟨fun a ha => hw.asymm ((h2 hw).1 a ha), fun b hb => hw.asymm ((h2 hw).2 b hb)⟩
  · intro L L' h h2 hw
    have key : ∀ L : List (Ptr × K), WSorted lt L ↔ (L.map Prod.snd).Pairwise (fun a b => lt b a = false) := by
      intro L; rw [WSorted, List.pairwise_map]
    rw [key, ← h, ← key]; exact h2 hw

theorem InvP.weakOf (hI : MInv lt w) : Weak lt w := fun _ _ _ ht hs => hI.prop ht hs

/-- The iterator argument and its index. -/
def IdxOk (w : W K) (c : MCall K) (n : Nat) : Prop :=
  match iterArg c with
  | none => True
  | some (s, it) => ∃ o t A0 B0, Tree w.heap s o t ∧ t.nodes = A0 ++ B0 ∧ it = firstP s B0 ∧ n = A0.length

/-- Where the new element goes. -/
def Place (lt : K → K → Bool) (m : Mode) (k : K) (n : Nat) (L A B : List (Ptr × K)) : Prop :=
  match m with
  | .upper => UCut lt k A B
  | .lower => LCut lt k A B
  | .hint _ => Near lt k (L.take n) (L.drop n) A B

/-- What one call does; facts about the order of the elements hold if `S` does. -/
inductive MEffectS (S : Prop) (lt : K → K → Bool) (w : W K) : MCall K → MRes K → W K → Prop
  | base {c r n w'} : EffectS S lt w c r w' → IdxOk w (.base c) n → MEffectS S lt w (.base c) ⟨r, n⟩ w'
  | fail {m s k n w' o t e} : Tree w.heap s o t → Refused w → Ext w w' → w'.heap = w.heap → w'.err = some e →
      w'.nCmp ≤ w.nCmp + t.height + 3 → MEffectS S lt w (.equal m s k) ⟨.pos s, n⟩ w'
  | new {m s k n w' o t t' A B a c} : Tree w.heap s o t → Tree w'.heap s o t' → t.nodes = A ++ B →
      t'.nodes = A ++ (.dyn a, k) :: B → (S → Place lt m k n t.nodes A B) → Change w w' s t t' → Fresh w w' (.dyn a) →
      w'.err = none → ¬ Refused w → IdxOk w (.equal m s k) n → w'.nCmp = w.nCmp + c → c ≤ t.height + 3 →
      (∀ pos, m = .hint pos → S → WCut lt k (t.nodes.take n) (t.nodes.drop n) → c ≤ 3) →
      MEffectS S lt w (.equal m s k) ⟨.pos (.dyn a), n⟩ w'

/-- What one call does if the elements of the tree are in order. -/
abbrev MEffect (lt : K → K → Bool) (w : W K) : MCall K → MRes K → W K → Prop := MEffectS (SWO lt) lt w

theorem Place.wcut {m : Mode} {n : Nat} {L A B : List (Ptr × K)} (hs : SWO lt) (h : Place lt m k n L A B) : WCut lt k A B := by
  cases m with
  | upper => exact h.weak hs
  | lower => exact h.weak hs
  | hint pos => exact h.1

theorem MEffect.inv {c : MCall K} {r : MRes K} (h : MEffect lt w c r w') (hI : MInv lt w) : MInv lt w' := by
  cases h with
  | base he => exact he.invP (Closed.wsorted lt) hI
  | fail _ _ he hh => exact hI.same he hh
  | new ht ht' hn hn' hp hc =>
    refine hc.inv hI ht ht' ?_
    intro hs
    rw [hn']
    have := hI.prop ht hs
    rw [hn] at this
    exact WSorted.insert this ((hp hs).wcut hs)

theorem wp_begin_ {Q : Ptr → W K → Prop} (h : Tree w.heap s o t) (hQ : Q (firstP s t.nodes) w) : wp (begin_ s) w Q := by
  unfold begin_
  simp only [wp_bind]
  rw [wp_rd h.cell h.hdr_ne]
  exact hQ

/-- Splitting the contents at an iterator. -/
theorem hint_split {L : List (Ptr × K)} (h : HintOf s pos L) : ∃ A B, L = A ++ B ∧ pos = firstP s B := by
  rcases h with rfl | ⟨k, hk⟩
  · exact ⟨L, [], by simp, by simp⟩
  · obtain ⟨A, B, e⟩ := List.append_of_mem hk
    exact ⟨A, (pos, k) :: B, e, by simp⟩

theorem MValid.idx {P : List (Ptr × K) → Prop} {c : MCall K} (hI : InvP P w) (hv : MValid lt w c) {Q : Nat → W K → Prop}
    (hQ : ∀ n, IdxOk w c n → Q n w) : wp (index c) w Q := by
  have key : ∀ {s it}, iterArg c = some (s, it) → (∃ o t A0 B0, Tree w.heap s o t ∧ t.nodes = A0 ++ B0 ∧ it = firstP s B0) →
      wp (index c) w Q := by
    rintro s it he ⟨o, t, A0, B0, ht, hn, hit⟩
    unfold index
    simp only [he, wp_bind]
    refine wp_begin_ ht ?_
    rw [hit, hn]
    refine wp_walkRange (A := []) ht hn ?_
    rw [wp_pure]
    refine hQ _ ?_
    unfold IdxOk
    simp only [he]
    exact ⟨o, t, A0, B0, ht, hn, hit, rfl⟩
  cases c with
  | base c =>
    cases c with
    | eraseAt s it =>
      obtain ⟨hv, L, k, hL, hz⟩ := hv
      obtain ⟨i, o, t, rfl, _, ht, -⟩ := hI.tree hv
      rw [contents_iff ht] at hL
      subst hL
      obtain ⟨A, B, e1, e2⟩ := hint_split (s := .stk i) (Or.inr ⟨k, hz⟩)
      exact key rfl ⟨o, t, A, B, ht, e1, e2⟩
    | eraseRange s f l =>
      obtain ⟨hv, A, M, B, hL, hf, rfl⟩ := hv
      obtain ⟨i, o, t, rfl, _, ht, -⟩ := hI.tree hv
      rw [contents_iff ht] at hL
      rw [posOf_eq] at hf
      exact key rfl ⟨o, t, A, M ++ B, ht, hL.symm, hf⟩
    | _ => exact hQ 0 trivial
  | equal m s k =>
    cases m with
    | hint pos =>
      obtain ⟨hv, -, L, hL, hh⟩ := hv
      obtain ⟨i, o, t, rfl, _, ht, -⟩ := hI.tree hv
      rw [contents_iff ht] at hL
      subst hL
      obtain ⟨A, B, e1, e2⟩ := hint_split hh
      exact key rfl ⟨o, t, A, B, ht, e1, e2⟩
    | _ => exact hQ 0 trivial

/-- The object in which a call compares keys. -/
def MCall.keyed : MCall K → Option Ptr
  | .base c => c.keyed
  | .equal _ s _ => some s

theorem mexec_effectS {S : Prop} {P : List (Ptr × K) → Prop} {c : MCall K} (hI : InvP P w) (hW : WeakInS S lt w c.keyed) (hv : MValid lt w c)
    (herr : w.err = none) : wp (mexec lt c) w (fun r w' => MEffectS S lt w c r w') := by
  unfold mexec
  rw [wp_bind]
  refine MValid.idx hI hv ?_
  intro n hidx
  rw [wp_bind]
  cases c with
  | base c =>
    obtain ⟨r, w', hr, he⟩ := (exec_effectS hI hW hv herr).runs
    exact wp_iff_runs.2 ⟨r, w', hr, .base he hidx⟩
  | equal m s k =>
    cases m with
    | upper =>
      obtain ⟨i, o, t, rfl, _, ht, -⟩ := hI.tree hv
      have hsort := hW _ _ _ rfl ht
      simp only [mrun, wp_bind]
      refine wp_emplaceEqual ht herr ⟨?_, ?_⟩
      · intro w' e h1 h2 h3 h4 h5
        exact .fail ht h1 h2 h3 h4 (by omega)
      · intro w' a t' A B c h1 h2 h3 h4 h5 h6 h7 h8 h9 h10 h11
        exact .new ht h7 h8 h9 (fun hs => h10 (hsort hs).1 (hsort hs).2) (Change.insert h2 h6 h8 h9 h11) h6 h5 h1 hidx h3 (by omega)
          (by intro pos e; cases e)
    | lower =>
      obtain ⟨i, o, t, rfl, _, ht, -⟩ := hI.tree hv
      have hsort := hW _ _ _ rfl ht
      simp only [mrun, wp_bind]
      refine wp_insertEqualLower ht herr ⟨?_, ?_⟩
      · intro w' e h1 h2 h3 h4 h5
        exact .fail ht h1 h2 h3 h4 (by omega)
      · intro w' a t' A B c h1 h2 h3 h4 h5 h6 h7 h8 h9 h10 h11
        exact .new ht h7 h8 h9 (fun hs => h10 (hsort hs).1 (hsort hs).2) (Change.insert h2 h6 h8 h9 h11) h6 h5 h1 hidx h3 (by omega)
          (by intro pos e; cases e)
    | hint pos =>
      obtain ⟨hv, has, L, hL, hL2⟩ := hv
      obtain ⟨o, t, A0, B0, ht, hn0, hpos, hn⟩ := id hidx
      by_cases hs : S
      case neg =>
        rw [contents_iff ht] at hL
        subst hL
        simp only [mrun, wp_bind]
        refine wp_emplaceHintEqual_any (fun a => has a k) ht hL2 herr ⟨?_, ?_⟩
        · intro w' e h1 h2 h3 h4 h5
          exact .fail ht h1 h2 h3 h4 (by omega)
        · intro w' a t' A B c h1 h2 h3 h4 h5 h6 h7 h8 h9 h10 h11
          exact .new ht h7 h8 h9 (fun h => absurd h hs) (Change.insert h2 h6 h8 h9 h11) h6 h5 h1 hidx h3 (by omega)
            (fun _ _ h => absurd h hs)
      obtain ⟨hs, hsort⟩ := hW _ _ _ rfl ht hs
      have e1 : t.nodes.take n = A0 := by rw [hn0, hn]; simp
      have e2 : t.nodes.drop n = B0 := by rw [hn0, hn]; simp
      simp only [mrun, wp_bind]
      refine wp_emplaceHintEqual hs ht hsort hn0 hpos herr ⟨?_, ?_⟩
      · intro w' e h1 h2 h3 h4 h5
        exact .fail ht h1 h2 h3 h4 (by omega)
      · intro w' a t' A B c h1 h2 h3 h4 h5 h6 h7 h8 h9 h10 h11
        refine .new ht h7 h8 h9 (fun _ => ?_) (Change.insert h2 h6 h8 h9 h11) h6 h5 h1 hidx h3 (by omega) ?_
        · show Near _ _ _ _ _ _
          rw [e1, e2]; exact h10.1
        · intro _ _ _; rw [e1, e2]; exact h10.2

theorem mexec_effect_in {P : List (Ptr × K) → Prop} {c : MCall K} (hI : InvP P w) (hW : WeakIn lt w c.keyed) (hv : MValid lt w c)
    (herr : w.err = none) : wp (mexec lt c) w (fun r w' => MEffect lt w c r w') := mexec_effectS hI hW.toS hv herr

theorem mexec_effect {c : MCall K} (hI : MInv lt w) (hv : MValid lt w c) (herr : w.err = none) :
    wp (mexec lt c) w (fun r w' => MEffect lt w c r w') := mexec_effect_in hI (InvP.weakOf hI).weakIn hv herr

theorem MValid.ready {P : List (Ptr × K) → Prop} {c : MCall K} (hI : InvP P w) (hv : MValid lt w c) : MValid lt (Set.ready w) c := by
  cases c with
  | base c => exact Valid.ready hI hv
  | equal m s k =>
    cases m with
    | hint pos =>
      obtain ⟨h1, h2, L, h3, h4⟩ := hv
      exact ⟨h1, h2, L, (contents_ready hI h1).2 h3, h4⟩
    | _ => exact hv

theorem MHist.inv {env : Env (TNode K)} {h : List (MEntry K)} (hh : MHist lt env h w) : MInv lt w := by
  induction hh with
  | start => exact InvP.start env
  | call _ hv hr ih =>
    exact MEffect.inv (Runs.wp (mexec_effect ih.ready (hv.ready ih) rfl) hr) ih.ready

theorem MReach.inv (h : MReach lt w) : MInv lt w := by
  obtain ⟨env, h, hh⟩ := h; exact hh.inv

theorem MReach.step {c : MCall K} (h : MReach lt w) (hv : MValid lt w c) :
    ∃ r w', Runs (mexec lt c) (ready w) r w' ∧ MReach lt w' ∧ MEffect lt (ready w) c r w' := by
  have hI := h.inv
  obtain ⟨env, hh, h⟩ := h
  obtain ⟨r, w', hr, he⟩ := wp.runs (mexec_effect hI.ready (hv.ready hI) rfl)
  exact ⟨r, w', hr, ⟨env, _, .call h hv hr⟩, he⟩

theorem MReach.effect {c : MCall K} {r : MRes K} (h : MReach lt w) (hv : MValid lt w c) (hr : Runs (mexec lt c) (ready w) r w') :
    MReach lt w' ∧ MEffect lt (ready w) c r w' := by
  obtain ⟨r', w'', h1, h2, h3⟩ := h.step hv
  obtain ⟨rfl, rfl⟩ := Nestl.Runs.det hr h1
  exact ⟨h2, h3⟩

theorem MReach.contents (h : MReach lt w) (ha : Alive w s) : ∃ L, Contents w s L := by
  obtain ⟨i, o, t, rfl, _, ht, _⟩ := h.inv.tree ha
  exact ⟨_, (contents_iff ht).2 rfl⟩

theorem MReach.tree (h : MReach lt w) (ha : Alive w s) (hc : Contents w s L) : ∃ o t, Tree w.heap s o t ∧ L = t.nodes := by
  obtain ⟨i, o, t, rfl, _, ht, _⟩ := h.inv.tree ha
  exact ⟨o, t, ht, (contents_iff ht).1 hc⟩

/-! ### Refinement -/

/-- The sequences describe all the trees in memory. -/
def KAbs (w : W K) (A : Ptr → List K) : Prop := ∀ s o t, Tree w.heap s o t → t.nodes.map Prod.snd = A s

theorem KAbs.same {A : Ptr → List K} (hA : KAbs w A) (hh : w'.heap = w.heap) : KAbs w' A := by
  intro s o t h; rw [hh] at h; exact hA s o t h

theorem Change.kabs {P : List (Ptr × K) → Prop} {hdr : Ptr} {o' : Nat} (hc : Change w w' hdr t t') (hI : InvP P w)
    (ht : Tree w.heap hdr o t) (ht' : Tree w'.heap hdr o' t') {A : Ptr → List K} (hA : KAbs w A) {M : List K}
    (hP : t'.nodes.map Prod.snd = M) : KAbs w' (put A hdr M) := by
  intro s o2 t2 h
  by_cases e : s = hdr
  · subst e
    obtain ⟨-, rfl⟩ := Tree.unique h ht'
    rw [put_same]; exact hP
  · rw [put_other _ _ e]
    obtain ⟨i, rfl⟩ := h.ok.hdr
    exact hA _ _ _ (hc.other_inv hI ht e h ht')

theorem filter_all {α : Type} {p : α → Bool} {L : List α} (h : ∀ x ∈ L, p x = true) : L.filter p = L :=
  List.filter_eq_self.2 h

theorem filter_none {α : Type} {p : α → Bool} {L : List α} (h : ∀ x ∈ L, p x = false) : L.filter p = [] :=
  List.filter_eq_nil_iff.2 (fun x hx => by simp [h x hx])

theorem UCut.addUpper {A B : List (Ptr × K)} (h : UCut lt k A B) :
    A.map Prod.snd ++ k :: B.map Prod.snd = addUpper lt k ((A ++ B).map Prod.snd) := by
  unfold Multi.addUpper
  rw [List.map_append, List.filter_append, List.filter_append,
    filter_all (L := A.map Prod.snd) (p := fun x => !lt k x), filter_none (L := B.map Prod.snd) (p := fun x => !lt k x),
    filter_none (L := A.map Prod.snd) (p := fun x => lt k x), filter_all (L := B.map Prod.snd) (p := fun x => lt k x)]
  · simp
  all_goals
    intro x hx
    obtain ⟨y, hy, rfl⟩ := List.mem_map.1 hx
  · exact h.2 y hy
  · exact h.1 y hy
  · simp [h.2 y hy]
  · simp [h.1 y hy]

theorem LCut.addLower {A B : List (Ptr × K)} (h : LCut lt k A B) :
    A.map Prod.snd ++ k :: B.map Prod.snd = addLower lt k ((A ++ B).map Prod.snd) := by
  unfold Multi.addLower
  rw [List.map_append, List.filter_append, List.filter_append,
    filter_all (L := A.map Prod.snd) (p := fun x => lt x k), filter_none (L := B.map Prod.snd) (p := fun x => lt x k),
    filter_none (L := A.map Prod.snd) (p := fun x => !lt x k), filter_all (L := B.map Prod.snd) (p := fun x => !lt x k)]
  · simp
  all_goals
    intro x hx
    obtain ⟨y, hy, rfl⟩ := List.mem_map.1 hx
  · simp [h.2 y hy]
  · simp [h.1 y hy]
  · exact h.2 y hy
  · exact h.1 y hy

theorem Near.addNear {A B A0 B0 : List (Ptr × K)} (h : Near lt k A0 B0 A B) (e : A0 ++ B0 = A ++ B) :
    A.map Prod.snd ++ k :: B.map Prod.snd = addNear lt k (A0.map Prod.snd) (B0.map Prod.snd) := by
  unfold Multi.addNear
  by_cases h1 : ∃ a ∈ A0, lt k a.2 = true
  · rw [if_pos (by simpa using h1), UCut.addUpper (h.2.2.1 h1), ← e, List.map_append]
  · rw [if_neg (by simpa using h1)]
    by_cases h2 : ∃ b ∈ B0, lt b.2 k = true
    · rw [if_pos (by simpa using h2), LCut.addLower (h.2.2.2 h2), ← e, List.map_append]
    · rw [if_neg (by simpa using h2)]
      obtain ⟨rfl, rfl⟩ := h.2.1 ⟨fun a ha => by simpa using fun hh => h1 ⟨a, ha, hh⟩, fun b hb => by simpa using fun hh => h2 ⟨b, hb, hh⟩⟩
      rfl

theorem MEffect.kabs {P : List (Ptr × K) → Prop} {c : MCall K} {r : MRes K} (h : MEffect lt w c r w') (hI : InvP P w) (hs : SWO lt) {A : Ptr → List K}
    (hA : KAbs w A) : KAbs w' (seqStep lt A ⟨c, r, w'.err.isSome⟩) := by
  cases h with
  | fail ht hr he hh herr =>
    rename_i m s k n o t e _
    cases m <;> simp only [seqStep, herr, Option.isSome_some, if_true] <;> exact hA.same hh
  | new ht ht' hn hn' hp hc hf herr hr hidx =>
    rename_i m s k n o t t' A0 B0 a c _ _ _
    have hp := hp hs
    have hAs := hA _ _ _ ht
    cases m with
    | upper =>
      simp only [seqStep, herr, Option.isSome_none, Bool.false_eq_true, if_false]
      refine Change.kabs hc hI ht ht' hA ?_
      rw [hn', ← hAs, hn, ← UCut.addUpper hp]
      simp
    | lower =>
      simp only [seqStep, herr, Option.isSome_none, Bool.false_eq_true, if_false]
      refine Change.kabs hc hI ht ht' hA ?_
      rw [hn', ← hAs, hn, ← LCut.addLower hp]
      simp
    | hint pos =>
      simp only [seqStep, herr, Option.isSome_none, Bool.false_eq_true, if_false]
      refine Change.kabs hc hI ht ht' hA ?_
      rw [hn', ← hAs, ← List.map_take, ← List.map_drop, ← Near.addNear hp (by rw [List.take_append_drop, hn])]
      simp
  | base he hidx =>
    rename_i c r n
    cases he with
    | create hc he =>
      intro s o2 t2 h
      simp only [seqStep]
      by_cases e : s = .stk w.sp
      · subst e
        obtain ⟨-, rfl⟩ := Tree.unique h hc.tree
        simp [put_same, T.nodes]
      · rw [put_other _ _ e]
        obtain ⟨i, rfl⟩ := h.ok.hdr
        exact hA _ _ _ (hc.other_inv hI h (by simpa using e))
    | insertOld ht hn h1 h2 hh he herr _ _ _ =>
      rename_i s k o t A0 p k' B _ _ _
      have hAs := hA _ _ _ ht
      have : (A s).any (fun x => !lt x k && !lt k x) = true := by
        rw [← hAs, hn]
        simp [h1, h2 hs]
      simp only [seqStep, this, or_true, if_true]
      exact hA.same hh
    | insertFail ht hn hcut hh he herr _ _ =>
      simp only [seqStep, herr, Option.isSome_some, true_or, if_true]
      exact hA.same hh
    | insertNew ht ht' hn hn' hcut hc hf herr _ _ =>
      rename_i s k o t t' A0 B a _ _
      have hAs := hA _ _ _ ht
      have hcut := hcut hs
      have : (A s).any (fun x => !lt x k && !lt k x) = false := by
        rw [← hAs, hn]
        simp only [List.any_eq_false, List.mem_map, List.mem_append]
        rintro x ⟨y, hy, rfl⟩
        rcases hy with hy | hy
        · simp [hcut.1 y hy]
        · simp [hcut.2 y hy]
      simp only [seqStep, herr, Option.isSome_none, this, Bool.false_eq_true, or_self, if_false]
      refine Change.kabs hc hI ht ht' hA ?_
      rw [hn', ← hAs, hn, ← UCut.addUpper ⟨fun a ha => hs.asymm (hcut.1 a ha), hcut.2⟩]
      simp
    | eraseKey ht ht' hn hn' hcut hc _ _ _ =>
      rename_i s k o t t' A0 M B _ _ _
      have hAs := hA _ _ _ ht
      have hcut := hcut hs
      simp only [seqStep]
      refine Change.kabs hc hI ht ht' hA ?_
      rw [hn', ← hAs, hn]
      simp only [List.map_append, List.filter_append]
      rw [filter_all (L := A0.map Prod.snd), filter_all (L := B.map Prod.snd), filter_none (L := M.map Prod.snd)]
      · simp
      all_goals
        intro x hx
        obtain ⟨y, hy, rfl⟩ := List.mem_map.1 hx
      · simp [hcut.2.1 y hy]
      · simp [hcut.2.2 y hy]
      · simp [hcut.1 y hy]
    | eraseAt ht ht' hn hn' hc _ _ _ =>
      rename_i s z k o t t' A0 B _ _ _
      have hAs := hA _ _ _ ht
      simp only [seqStep]
      refine Change.kabs hc hI ht ht' hA ?_
      obtain ⟨o2, t2, A1, B1, ht2, hn2, hz, rfl⟩ := hidx
      obtain ⟨-, e2⟩ := Tree.unique ht2 ht
      rw [e2] at hn2
      have hlen : A1 = A0 ∧ B1 = (z, k) :: B := by
        have hnd := ht.nodup
        cases B1 with
        | nil =>
          exact absurd hz (ht.node_ne_hdr (by rw [T.ptrs, hn]; simp))
        | cons b B1 =>
          obtain ⟨b, kb⟩ := b
          simp only [firstP_cons] at hz
          subst hz
          have e := hn2.symm.trans hn
          rw [hn2] at hnd
          obtain ⟨e1, e3, e4⟩ := nodup_split hnd e
          exact ⟨e1, by rw [e3, e4]⟩
      obtain ⟨rfl, -⟩ := hlen
      rw [hn', ← hAs, hn, ← List.map_take, ← List.map_drop, ← List.map_append]
      congr 1
      simp
    | eraseRange ht ht' hn hn' hc _ _ =>
      rename_i s o t t' A0 M B _ _
      have hAs := hA _ _ _ ht
      simp only [seqStep]
      refine Change.kabs hc hI ht ht' hA ?_
      obtain ⟨o2, t2, A1, B1, ht2, hn2, hz, rfl⟩ := hidx
      obtain ⟨-, e2⟩ := Tree.unique ht2 ht
      rw [e2] at hn2
      have e0 := hn2.symm.trans hn
      have hlen : A1 = A0 := by
        have hnd := ht.nodup
        cases B1 with
        | nil =>
          cases hMB : M ++ B with
          | nil => rw [hMB] at e0; simpa using e0
          | cons x L =>
            rw [hMB, firstP_nil, firstP_cons] at hz
            refine absurd hz (ht.node_ne_hdr ?_)
            rw [T.ptrs, hn, hMB]; simp
        | cons b B1 =>
          obtain ⟨b, kb⟩ := b
          cases hMB : M ++ B with
          | nil =>
            rw [hMB, firstP_nil, firstP_cons] at hz
            refine absurd hz.symm (ht.node_ne_hdr ?_)
            rw [T.ptrs, hn2]; simp
          | cons x L =>
            obtain ⟨x, kx⟩ := x
            rw [hMB, firstP_cons, firstP_cons] at hz
            subst hz
            rw [hMB] at e0
            rw [hn2] at hnd
            exact (nodup_split hnd e0).1
      subst hlen
      rw [hn', ← hAs, hn, ← List.map_take, ← List.map_drop, ← List.map_append]
      congr 1
      simp
    | clear ht ht' hc =>
      simp only [seqStep]
      exact Change.kabs hc hI ht ht' hA (by simp [T.nodes])
    | findNone _ _ _ _ hh => simp only [seqStep]; exact hA.same hh
    | findSome _ _ _ _ hh => simp only [seqStep]; exact hA.same hh
    | copySelf he => subst he; simp only [seqStep, if_true]; exact hA
    | copyFail hne ht hs' ht' hc herr =>
      simp only [seqStep, hne, if_false, herr, Option.isSome_some, if_true]
      exact Change.kabs hc hI ht ht' hA (by simp [T.nodes])
    | copyOk hne ht hs' ht' hl hc herr =>
      simp only [seqStep, hne, if_false, herr, Option.isSome_none, Bool.false_eq_true]
      refine Change.kabs hc hI ht ht' hA ?_
      rw [hl.keys, hA _ _ _ hs']
    | move ht hc =>
      rename_i s o t _ _
      simp only [seqStep]
      intro s' o2 t2 h
      by_cases e : s' = s
      · subst e
        obtain ⟨-, rfl⟩ := Tree.unique h hc.srcTree
        simp [put_same, T.nodes]
      · rw [put_other _ _ e]
        by_cases e2 : s' = .stk w.sp
        · subst e2
          obtain ⟨-, rfl⟩ := Tree.unique h hc.tree
          rw [put_same]
          exact hA _ _ _ ht
        · rw [put_other _ _ e2]
          obtain ⟨i, rfl⟩ := h.ok.hdr
          exact hA _ _ _ (hc.other_inv hI ht h e (by simpa using e2))
    | destroy ht hc =>
      simp only [seqStep]
      intro s' o2 t2 h
      obtain ⟨i, rfl⟩ := h.ok.hdr
      exact hA _ _ _ (hc.other_inv hI ht h).2

theorem MHist.kabs {env : Env (TNode K)} {h : List (MEntry K)} (hh : MHist lt env h w) (hs : SWO lt) : KAbs w (seqRun lt h) := by
  induction hh with
  | start => intro s o t h; exact absurd rfl h.ne_none
  | call hp hv hr ih =>
    have hI := hp.inv
    exact MEffect.kabs (Runs.wp (mexec_effect hI.ready (hv.ready hI) rfl) hr) hI.ready hs (ih.same rfl)

end
end Nestl.Multi
