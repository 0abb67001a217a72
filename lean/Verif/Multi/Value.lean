import Verif.Multi.Props
set_option autoImplicit false
/-
C120: insertion of values and of ranges of values next to equivalent elements (`m_insert_equal`, `m_insert_equal_at` and
`m_insert_equal(first, last)` of `rb_tree`).  The programs are in `Verif/RBTree/ModelEqual.lean`; as written in the library they do
not compile because the error argument is missing, see there.
-/
namespace Nestl.Multi
open Nestl.RB Nestl.Set
variable {K : Type}

/-! ### The client -/

/-- Calls of a client: those of `MCall` and the three insertions of values. -/
inductive VCall (K : Type)
  | multi (c : MCall K)
  | value (s : Ptr) (k : K)              -- `t.m_insert_equal(err, k)`
  | valueAt (s pos : Ptr) (k : K)        -- `t.m_insert_equal_at(err, pos, k)`
  | range (s : Ptr) (ks : List K)        -- `t.m_insert_equal(err, first, last)`

/-- The program executed by a call.  For a hinted insertion the client records the number of elements before the hint, for the
insertion of a range by how much the size has grown. -/
def vexec (lt : K → K → Bool) : VCall K → M (W K) (MRes K)
  | .multi c => mexec lt c
  | .value s k => do pure ⟨.pos (← insertEqual lt s k), 0⟩
  | .valueAt s pos k => do
      let n ← index (.equal (.hint pos) s k)
      let p ← insertEqualAt lt s pos k
      pure ⟨.pos p, n⟩
  | .range s ks => do
      let m ← size s
      insertEqualRange lt s ks
      let n ← size s
      pure ⟨.unit, n - m⟩

/-- Preconditions.  Insertions with a hint require an asymmetric comparator. -/
def VValid (lt : K → K → Bool) (w : W K) : VCall K → Prop
  | .multi c => MValid lt w c
  | .value s _ => Alive w s
  | .valueAt s pos _ => Alive w s ∧ Asym lt ∧ ∃ L, Contents w s L ∧ HintOf s pos L
  | .range s _ => Alive w s ∧ Asym lt

/-- One entry of a history. -/
structure VEntry (K : Type) where
  call : VCall K
  res : MRes K
  failed : Bool

/-- `VHist lt env h w`: `w` is reached from the start by the calls of `h` (latest first). -/
inductive VHist (lt : K → K → Bool) (env : Env (TNode K)) : List (VEntry K) → W K → Prop
  | start : VHist lt env [] (start env)
  | call {h : List (VEntry K)} {w w' : W K} {c : VCall K} {r : MRes K} : VHist lt env h w → VValid lt w c →
      Runs (vexec lt c) (ready w) r w' → VHist lt env (⟨c, r, w'.err.isSome⟩ :: h) w'

/-- Reachable program states. -/
def VReach (lt : K → K → Bool) (w : W K) : Prop := ∃ env h, VHist lt env h w

/-- Insert all the keys of a list one after the other, each after the elements that are not greater. -/
def addUppers (lt : K → K → Bool) (ks L : List K) : List K := ks.foldl (fun L k => addUpper lt k L) L

/-- Effect of a call on a family of sequences of keys. -/
def vseqStep (lt : K → K → Bool) (A : Ptr → List K) (e : VEntry K) : Ptr → List K :=
  match e.call with
  | .multi c => seqStep lt A ⟨c, e.res, e.failed⟩
  | .value s k => if e.failed then A else put A s (addUpper lt k (A s))
  | .valueAt s _ k =>
      if e.failed then A else put A s (addNear lt k ((A s).take e.res.idx) ((A s).drop e.res.idx))
  | .range s ks => put A s (addUppers lt (ks.take (if e.failed then e.res.idx else ks.length)) (A s))

/-- The sequences of keys after a history. -/
def vseqRun (lt : K → K → Bool) : List (VEntry K) → Ptr → List K
  | [] => fun _ => []
  | e :: h => vseqStep lt (vseqRun lt h) e

/-! ### The programs -/

section
variable {w w' : W K} {lt : K → K → Bool} {s pos hdr x : Ptr} {k : K} {o : Nat} {t t' : T K} {L A0 B0 : List (Ptr × K)} {ctx : Ctx K}

/-- Linking a new node at a hole that was found with `n` comparisons. -/
theorem wp_insert_hole {Q : Ptr → W K → Prop} {n b : Nat} {C : List (Ptr × K) → List (Ptr × K) → Nat → Prop}
    (h : Tree w.heap hdr o t) (herr : w.err = none) (hpl : plug ctx .nil = t) (hside : HoleSide lt k ctx x) (hn : n + 1 ≤ b)
    (hC : ∀ m, m ≤ 1 → C (pre ctx) (post ctx) (n + m)) (hQ : Inserts w hdr o t k b C Q) :
    wp (insert_ lt hdr x (par hdr ctx) k) (w.addCmp n) Q := by
  refine wp_insert_side (w := w.addCmp n) (o := o) (by rw [hpl]; exact h) hside ?_
  intro m hm
  rw [World.addCmp_addCmp, finish_eq]
  refine wp_withNode (w := w.addCmp (n + m)) (b := 0) (C := fun A B _ => A = pre ctx ∧ B = post ctx) (t := t) (o := o) h herr ?_ ⟨?_, ?_⟩
  · intro w1 a c hT hz hv Q hk
    exact hk ctx 0 hpl (by omega) ⟨rfl, rfl⟩
  · intro w' e h1 h2 h3 h4 h5
    exact hQ.fail w' e h1 ((Ext.addCmp w _).trans h2) h3 h4 (by simp at h5; omega)
  · rintro w' a t' A B m' h1 h2 h3 h4 h5 h6 h7 h8 h9 ⟨rfl, rfl⟩ h11
    exact hQ.ok w' a t' _ _ (n + m) h1 ((Ext.addCmp w _).trans h2) (by simp at h3; omega) (by omega) h5 ⟨h6.none, h6.req⟩ h7 h8 h9
      (hC m hm) h11

theorem wp_insertEqual {Q : Ptr → W K → Prop} (h : Tree w.heap hdr o t) (herr : w.err = none)
    (hQ : Inserts w hdr o t k (t.height + 1) (fun A B _ => SWO lt → WSorted lt t.nodes → UCut lt k A B) Q) :
    wp (insertEqual lt hdr k) w Q := by
  unfold insertEqual
  rw [wp_bind]
  refine wp_getInsertEqualPos h ?_
  intro ctx n hpl hside hcut hn
  exact wp_insert_hole h herr hpl hside (by omega) (fun _ _ => hcut) hQ

/-- An insertion after `n` more comparisons. -/
theorem _root_.Nestl.RB.Inserts.after {Q : Ptr → W K → Prop} {n b b' : Nat} {C C' : List (Ptr × K) → List (Ptr × K) → Nat → Prop}
    (hQ : Inserts w hdr o t k b' C' Q) (hb : n + b ≤ b')
    (hC : ∀ A B m, t.nodes = A ++ B → C A B m → C' A B (n + m)) : Inserts (w.addCmp n) hdr o t k b C Q := by
  refine ⟨?_, ?_⟩
  · intro w' e h1 h2 h3 h4 h5
    exact hQ.fail w' e h1 ((Ext.addCmp w _).trans h2) h3 h4 (by simp at h5; omega)
  · intro w' a t' A B m h1 h2 h3 h4 h5 h6 h7 h8 h9 h10 h11
    exact hQ.ok w' a t' A B (n + m) h1 ((Ext.addCmp w _).trans h2) (by simp at h3; omega) (by omega) h5 ⟨h6.none, h6.req⟩ h7 h8 h9
      (hC _ _ _ h8 h10) h11

theorem wp_insertEqualAt {Q : Ptr → W K → Prop} (hs : SWO lt) (h : Tree w.heap hdr o t) (hsort : WSorted lt t.nodes)
    (hn0 : t.nodes = A0 ++ B0) (hpos : pos = firstP hdr B0) (herr : w.err = none)
    (hQ : Inserts w hdr o t k (t.height + 3) (fun A B n => Near lt k A0 B0 A B ∧ (WCut lt k A0 B0 → n ≤ 3)) Q) :
    wp (insertEqualAt lt hdr pos k) w Q := by
  unfold insertEqualAt
  rw [wp_bind]
  refine wp_hintEqual_spec hs h hsort hn0 hpos ?_ ?_
  · intro ctx x n hpl hside hnear hn hg hpn
    simp only [ne_eq, hpn, not_false_eq_true, if_true]
    refine wp_insert_hole h herr hpl hside (by omega) ?_ hQ
    intro m hm
    refine ⟨hnear, fun hw => ?_⟩
    rcases hg hw with h1 | h1
    · omega
    · have : t.height = 0 := by
        cases t with
        | nil => rfl
        | node p c l k r => simp [T.nodes] at h1
      omega
  · intro hex hnear
    simp only [ne_eq, not_true, if_false]
    refine wp_insertEqualLower (w := w.addCmp 2) h herr (hQ.after (by omega) ?_)
    intro A B m e hcut
    refine ⟨hnear _ _ e (hcut hs hsort), ?_⟩
    intro hw
    obtain ⟨b, hb, hbk⟩ := hex
    rw [hw.2 b hb] at hbk; cases hbk

theorem wp_insertEqualAt_any {Q : Ptr → W K → Prop} (has : ∀ a, lt a k = true → lt k a = false) (h : Tree w.heap hdr o t)
    (hpos : HintOk hdr pos t.nodes) (herr : w.err = none)
    (hQ : Inserts w hdr o t k (t.height + 3) (fun _ _ _ => True) Q) :
    wp (insertEqualAt lt hdr pos k) w Q := by
  unfold insertEqualAt
  rw [wp_bind]
  refine wp_hintEqual_any has h hpos ?_ ?_
  · intro ctx x n hpl hside hn
    simp only [ne_eq, h.par_ne_null hpl, not_false_eq_true, if_true]
    exact wp_insert_hole h herr hpl hside (by omega) (fun _ _ => trivial) hQ
  · simp only [ne_eq, not_true, if_false]
    exact wp_insertEqualLower (w := w.addCmp 2) h herr (hQ.after (by omega) (fun _ _ _ _ _ => trivial))

/-! ### One call: the effect is that of `m_emplace_equal` or `m_emplace_hint_equal` -/

theorem insertEqual_effect (hI : MInv lt w) (ha : Alive w s) (herr : w.err = none) :
    wp (insertEqual lt s k) w (fun p w' => MEffect lt w (.equal .upper s k) ⟨.pos p, 0⟩ w') := by
  obtain ⟨i, o, t, rfl, _, ht, hP⟩ := hI.tree ha
  refine wp_insertEqual ht herr ⟨?_, ?_⟩
  · intro w' e h1 h2 h3 h4 h5
    exact .fail ht h1 h2 h3 h4 (by omega)
  · intro w' a t' A B c h1 h2 h3 h4 h5 h6 h7 h8 h9 h10 h11
    exact .new ht h7 h8 h9 (fun hs => h10 hs (hP hs)) (Change.insert h2 h6 h8 h9 h11) h6 h5 h1 trivial h3 (by omega)
      (by intro pos e; cases e)

theorem insertEqualAt_effect {n : Nat} (hI : MInv lt w) (has : Asym lt) (hidx : IdxOk w (.equal (.hint pos) s k) n) (herr : w.err = none) :
    wp (insertEqualAt lt s pos k) w (fun p w' => MEffect lt w (.equal (.hint pos) s k) ⟨.pos p, n⟩ w') := by
  obtain ⟨o, t, A0, B0, ht, hn0, hpos, hn⟩ := id hidx
  by_cases hs : SWO lt
  case neg =>
    have hL2 : HintOk s pos t.nodes := by
      cases B0 with
      | nil => exact Or.inl hpos
      | cons b B0 => exact Or.inr ⟨b.2, by rw [hn0, hpos]; simp⟩
    refine wp_insertEqualAt_any (fun a => has a k) ht hL2 herr ⟨?_, ?_⟩
    · intro w' e h1 h2 h3 h4 h5
      exact .fail ht h1 h2 h3 h4 (by omega)
    · intro w' a t' A B c h1 h2 h3 h4 h5 h6 h7 h8 h9 h10 h11
      exact .new ht h7 h8 h9 (fun h => absurd h hs) (Change.insert h2 h6 h8 h9 h11) h6 h5 h1 hidx h3 (by omega)
        (fun _ _ h => absurd h hs)
  have hsort := hI.prop ht hs
  have e1 : t.nodes.take n = A0 := by rw [hn0, hn]; simp
  have e2 : t.nodes.drop n = B0 := by rw [hn0, hn]; simp
  refine wp_insertEqualAt hs ht hsort hn0 hpos herr ⟨?_, ?_⟩
  · intro w' e h1 h2 h3 h4 h5
    exact .fail ht h1 h2 h3 h4 (by omega)
  · intro w' a t' A B c h1 h2 h3 h4 h5 h6 h7 h8 h9 h10 h11
    refine .new ht h7 h8 h9 (fun _ => ?_) (Change.insert h2 h6 h8 h9 h11) h6 h5 h1 hidx h3 (by omega) ?_
    · show Near _ _ _ _ _ _
      rw [e1, e2]; exact h10.1
    · intro _ _ _; rw [e1, e2]; exact h10.2

/-! ### Ranges -/

/-- Insertions at `end()` that succeeded, one after the other. -/
inductive Chain (lt : K → K → Bool) (s : Ptr) : W K → List K → W K → Prop
  | nil {w : W K} : Chain lt s w [] w
  | cons {w w1 w2 : W K} {k : K} {ks : List K} {p : Ptr} {n : Nat} : MEffect lt w (.equal (.hint s) s k) ⟨.pos p, n⟩ w1 →
      w1.err = none → Chain lt s w1 ks w2 → Chain lt s w (k :: ks) w2

/-- What the insertion of a range does: some of the values are inserted, and the next one fails unless there is none. -/
structure RangeEff (lt : K → K → Bool) (s : Ptr) (w : W K) (ks : List K) (w' : W K) : Prop where
  ex : ∃ done w1, Chain lt s w done w1 ∧ ((ks = done ∧ w' = w1 ∧ w'.err = none) ∨
    ∃ k rest p n, ks = done ++ k :: rest ∧ w1.err = none ∧ MEffect lt w1 (.equal (.hint s) s k) ⟨.pos p, n⟩ w' ∧ w'.err ≠ none)

theorem effect_alive {m : Mode} {r : MRes K} (h : MEffect lt w (.equal m s k) r w') (ha : Alive w s) : Alive w' s := by
  obtain ⟨i, rfl, hi⟩ := ha
  cases h with
  | fail ht hR he hh => exact ⟨i, rfl, by rw [hh]; exact hi⟩
  | new ht ht' => exact ⟨i, rfl, ht'.ne_none⟩

theorem insertEqualRange_effect (has : Asym lt) (ks : List K) (hI : MInv lt w) (ha : Alive w s) (herr : w.err = none) :
    wp (insertEqualRange lt s ks) w (fun _ w' => RangeEff lt s w ks w') := by
  induction ks generalizing w with
  | nil =>
    simp only [insertEqualRange, wp_pure]
    exact ⟨[], w, .nil, Or.inl ⟨rfl, rfl, herr⟩⟩
  | cons k ks ih =>
    obtain ⟨i, o, t, rfl, _, ht, _⟩ := hI.tree ha
    have hidx : IdxOk w (.equal (.hint (.stk i)) (.stk i) k) t.nodes.length := ⟨o, t, t.nodes, [], ht, by simp, by simp, rfl⟩
    simp only [insertEqualRange]
    rw [wp_bind]
    obtain ⟨p, w1, h1, h2⟩ := (insertEqualAt_effect hI has hidx herr).runs
    refine wp_iff_runs.2 ⟨p, w1, h1, ?_⟩
    rw [wp_bind, wp_hasErr]
    cases he : w1.err with
    | some e =>
      simp only [Option.isSome_some, if_true, wp_pure]
      exact ⟨[], w, .nil, Or.inr ⟨k, ks, p, _, rfl, herr, h2, by rw [he]; simp⟩⟩
    | none =>
      simp only [Option.isSome_none, Bool.false_eq_true, if_false]
      obtain ⟨u, w2, h3, h4⟩ := (ih (h2.inv hI) (effect_alive h2 ha) he).runs
      refine wp_iff_runs.2 ⟨u, w2, h3, ?_⟩
      obtain ⟨done, w3, h5, h6⟩ := h4.ex
      refine ⟨k :: done, w3, .cons h2 he h5, ?_⟩
      rcases h6 with ⟨rfl, h6⟩ | ⟨k', rest, q, n, rfl, h6⟩
      · exact Or.inl ⟨rfl, h6⟩
      · exact Or.inr ⟨k', rest, q, n, rfl, h6⟩

theorem Chain.inv {ks : List K} (h : Chain lt s w ks w') (hI : MInv lt w) : MInv lt w' := by
  induction h with
  | nil => exact hI
  | cons h1 _ _ ih => exact ih (h1.inv hI)

theorem RangeEff.inv {ks : List K} (h : RangeEff lt s w ks w') (hI : MInv lt w) : MInv lt w' := by
  obtain ⟨done, w1, h1, h2⟩ := h.ex
  rcases h2 with ⟨_, rfl, _⟩ | ⟨k, rest, p, n, _, _, h3, _⟩
  · exact h1.inv hI
  · exact h3.inv (h1.inv hI)

/-- The elements of one insertion. -/
theorem effect_grow {m : Mode} {r : MRes K} (h : MEffect lt w (.equal m s k) r w') (ht : Tree w.heap s o t) :
    ∃ t', Tree w'.heap s o t' ∧ t.nodes.Sublist t'.nodes ∧
      ((w'.err ≠ none ∧ w'.heap = w.heap ∧ t' = t) ∨ (w'.err = none ∧ t'.nodes.length = t.nodes.length + 1)) := by
  cases h with
  | fail ht0 hR he hh herr =>
    refine ⟨t, by rw [hh]; exact ht, List.Sublist.refl _, Or.inl ⟨by rw [herr]; simp, hh, rfl⟩⟩
  | new ht0 ht' hn hn' hp hc hf herr =>
    obtain ⟨rfl, rfl⟩ := Tree.unique (by exact ht0) ht
    refine ⟨_, ht', ?_, Or.inr ⟨herr, by rw [hn, hn']; simp; omega⟩⟩
    rw [hn, hn']
    exact List.Sublist.append (List.Sublist.refl _) (List.sublist_cons_self _ _)

theorem Chain.grow {ks : List K} (h : Chain lt s w ks w') (ht : Tree w.heap s o t) :
    ∃ t', Tree w'.heap s o t' ∧ t.nodes.Sublist t'.nodes ∧ t'.nodes.length = t.nodes.length + ks.length := by
  induction h generalizing t with
  | nil => exact ⟨t, ht, List.Sublist.refl _, rfl⟩
  | cons h1 he _ ih =>
    obtain ⟨t1, ht1, hs1, h2 | ⟨_, h2⟩⟩ := effect_grow h1 ht
    · exact absurd he h2.1
    · obtain ⟨t2, ht2, hs2, h3⟩ := ih ht1
      exact ⟨t2, ht2, hs1.trans hs2, by simp only [List.length_cons]; omega⟩

theorem RangeEff.grow {ks : List K} (h : RangeEff lt s w ks w') (ht : Tree w.heap s o t) :
    ∃ t' n, Tree w'.heap s o t' ∧ t.nodes.Sublist t'.nodes ∧ t'.nodes.length = t.nodes.length + n ∧ n ≤ ks.length ∧
      (w'.err = none ↔ n = ks.length) := by
  obtain ⟨done, w1, h1, h2⟩ := h.ex
  obtain ⟨t1, ht1, hs1, h3⟩ := h1.grow ht
  rcases h2 with ⟨rfl, rfl, he⟩ | ⟨k, rest, p, n, rfl, _, h4, he⟩
  · exact ⟨t1, _, ht1, hs1, h3, Nat.le_refl _, fun _ => rfl, fun _ => he⟩
  · obtain ⟨t2, ht2, hs2, ⟨_, hh, rfl⟩ | ⟨h5, _⟩⟩ := effect_grow h4 ht1
    · refine ⟨_, done.length, ht2, hs1, h3, by simp, fun h => absurd h he, fun h => ?_⟩
      simp at h
    · exact absurd h5 he

/-- Adding at the end of a sorted sequence. -/
theorem addNear_end {L : List K} : addNear lt k L [] = addUpper lt k L := by
  unfold addNear
  by_cases h : L.any (fun x => lt k x)
  · simp only [h, if_true, List.append_nil]
  · simp only [h, Bool.false_eq_true, if_false, List.any_nil]
    have h' : ∀ x ∈ L, lt k x = false := by
      intro x hx
      cases e : lt k x with
      | false => rfl
      | true => exact absurd (List.any_eq_true.2 ⟨x, hx, e⟩) h
    unfold addUpper
    rw [filter_all (fun x hx => by simp [h' x hx]), filter_none (fun x hx => by simp [h' x hx])]

theorem effect_end {p : Ptr} {n : Nat} (h : MEffect lt w (.equal (.hint s) s k) ⟨.pos p, n⟩ w') (hI : MInv lt w) (hs : SWO lt)
    {A : Ptr → List K} (hA : KAbs w A) :
    KAbs w' (if w'.err.isSome then A else put A s (addUpper lt k (A s))) := by
  have h0 := h.kabs hI hs hA
  simp only [seqStep] at h0
  cases h with
  | fail ht hR he hh herr =>
    rw [herr]; simp only [Option.isSome_some, if_true]
    exact hA.same hh
  | new ht ht' hn hn' hp hc hf herr hR hidx =>
    rw [herr] at h0 ⊢
    simp only [Option.isSome_none, Bool.false_eq_true, if_false] at h0 ⊢
    obtain ⟨o2, t2, A0, B0, ht2, hn2, hz, rfl⟩ := hidx
    obtain ⟨-, rfl⟩ := Tree.unique (by exact ht2) ht
    obtain ⟨rfl, rfl⟩ := split_unique ht hn2 (A1 := t2.nodes) (B1 := []) (by simp) (by rw [← hz]; simp)
    have e := hA _ _ _ ht
    have el : (A s).length ≤ t2.nodes.length := by rw [← e]; simp
    rw [List.take_of_length_le el, List.drop_eq_nil_of_le el, addNear_end] at h0
    exact h0

theorem Chain.kabs {ks : List K} (h : Chain lt s w ks w') (hI : MInv lt w) (hs : SWO lt) {A : Ptr → List K} (hA : KAbs w A) :
    KAbs w' (put A s (addUppers lt ks (A s))) := by
  induction h generalizing A with
  | nil =>
    intro s' o t ht
    have := hA s' o t ht
    unfold put
    split
    · next e => subst e; exact this
    · exact this
  | cons h1 he _ ih =>
    have h2 := effect_end h1 hI hs hA
    rw [he] at h2
    simp only [Option.isSome_none, Bool.false_eq_true, if_false] at h2
    have h3 := ih (h1.inv hI) h2
    intro s' o t ht
    have := h3 s' o t ht
    rw [this]
    unfold put addUppers
    by_cases e : s' = s
    · subst e; simp
    · simp [e]

theorem RangeEff.kabs {ks : List K} (h : RangeEff lt s w ks w') (hI : MInv lt w) (hs : SWO lt) (ht : Tree w.heap s o t)
    {A : Ptr → List K} (hA : KAbs w A) :
    ∃ t' n, Tree w'.heap s o t' ∧ t.nodes.Sublist t'.nodes ∧ t'.nodes.length = t.nodes.length + n ∧ n ≤ ks.length ∧
      (w'.err = none ↔ n = ks.length) ∧ KAbs w' (put A s (addUppers lt (ks.take n) (A s))) := by
  obtain ⟨done, w1, h1, h2⟩ := h.ex
  obtain ⟨t1, ht1, hs1, h3⟩ := h1.grow ht
  have hk := h1.kabs hI hs hA
  rcases h2 with ⟨rfl, rfl, he⟩ | ⟨k, rest, p, n, rfl, _, h4, he⟩
  · exact ⟨t1, _, ht1, hs1, h3, Nat.le_refl _, ⟨fun _ => rfl, fun _ => he⟩, by rw [List.take_length]; exact hk⟩
  · obtain ⟨t2, ht2, hs2, ⟨_, hh, rfl⟩ | ⟨h5, _⟩⟩ := effect_grow h4 ht1
    · refine ⟨_, done.length, ht2, hs1, h3, by simp, ⟨fun h => absurd h he, fun h => by simp at h⟩, ?_⟩
      rw [List.take_left']
      · exact hk.same hh
      · rfl
    · exact absurd h5 he

/-! ### One call -/

theorem wp_size {Q : Nat → W K → Prop} (h : Tree w.heap s o t) (hQ : Q t.nodes.length w) : wp (size s) w Q := by
  unfold RB.size
  rw [wp_bind, wp_rd h.cell h.hdr_ne]
  exact hQ

/-- What a call does. -/
def VEffect (lt : K → K → Bool) (w : W K) : VCall K → MRes K → W K → Prop
  | .multi c, r, w' => MEffect lt w c r w'
  | .value s k, r, w' => MEffect lt w (.equal .upper s k) r w'
  | .valueAt s pos k, r, w' => MEffect lt w (.equal (.hint pos) s k) r w'
  | .range s ks, r, w' => RangeEff lt s w ks w' ∧
      ∀ o t t', Tree w.heap s o t → Tree w'.heap s o t' → t'.nodes.length = t.nodes.length + r.idx

theorem vexec_effect {c : VCall K} (hI : MInv lt w) (hv : VValid lt w c) (herr : w.err = none) :
    wp (vexec lt c) w (fun r w' => VEffect lt w c r w') := by
  cases c with
  | multi c => exact mexec_effect hI hv herr
  | value s k =>
    simp only [vexec, wp_bind]
    exact wp_mono (insertEqual_effect hI hv herr) fun p w' h => h
  | valueAt s pos k =>
    simp only [vexec, wp_bind]
    refine MValid.idx (c := .equal (.hint pos) s k) hI hv ?_
    intro n hidx
    exact wp_mono (insertEqualAt_effect hI hv.2.1 hidx herr) fun p w' h => h
  | range s ks =>
    obtain ⟨ha, has⟩ := hv
    obtain ⟨i, o, t, rfl, _, ht, _⟩ := hI.tree ha
    simp only [vexec, wp_bind]
    refine wp_size ht ?_
    refine wp_mono (insertEqualRange_effect has ks hI ha herr) fun _ w' h => ?_
    obtain ⟨t', n, ht', _, hn, _⟩ := h.grow ht
    refine wp_size ht' ?_
    rw [wp_pure]
    refine ⟨h, ?_⟩
    intro o1 t1 t1' h1 h1'
    obtain ⟨-, rfl⟩ := Tree.unique ht h1
    obtain ⟨-, rfl⟩ := Tree.unique ht' h1'
    show _ = _ + (t'.nodes.length - t.nodes.length)
    omega

theorem VEffect.inv {c : VCall K} {r : MRes K} (h : VEffect lt w c r w') (hI : MInv lt w) : MInv lt w' := by
  cases c with
  | range s ks => exact h.1.inv hI
  | _ => exact MEffect.inv h hI

theorem VValid.ready {c : VCall K} (hI : MInv lt w) (hv : VValid lt w c) : VValid lt (Set.ready w) c := by
  cases c with
  | multi c => exact MValid.ready hI hv
  | valueAt s pos k => exact MValid.ready (c := .equal (.hint pos) s k) hI hv
  | _ => exact hv

theorem VHist.inv {env : Env (TNode K)} {h : List (VEntry K)} (hh : VHist lt env h w) : MInv lt w := by
  induction hh with
  | start => exact InvP.start env
  | call _ hv hr ih => exact (Runs.wp (vexec_effect ih.ready (hv.ready ih) rfl) hr).inv ih.ready

theorem VReach.inv (h : VReach lt w) : MInv lt w := by
  obtain ⟨env, h, hh⟩ := h; exact hh.inv

theorem VReach.step {c : VCall K} (h : VReach lt w) (hv : VValid lt w c) :
    ∃ r w', Runs (vexec lt c) (Set.ready w) r w' ∧ VReach lt w' ∧ VEffect lt (Set.ready w) c r w' := by
  have hI := h.inv
  obtain ⟨env, hh, h⟩ := h
  obtain ⟨r, w', hr, he⟩ := wp.runs (vexec_effect hI.ready (hv.ready hI) rfl)
  exact ⟨r, w', hr, ⟨env, _, .call h hv hr⟩, he⟩

theorem VReach.tree (h : VReach lt w) (ha : Alive w s) (hc : Contents w s L) : ∃ o t, Tree w.heap s o t ∧ L = t.nodes := by
  obtain ⟨i, o, t, rfl, _, ht, _⟩ := h.inv.tree ha
  exact ⟨o, t, ht, (contents_iff ht).1 hc⟩

theorem VEffect.kabs {c : VCall K} {r : MRes K} (h : VEffect lt w c r w') (hI : MInv lt w) (hv : VValid lt w c) (hs : SWO lt)
    {A : Ptr → List K} (hA : KAbs w A) : KAbs w' (vseqStep lt A ⟨c, r, w'.err.isSome⟩) := by
  cases c with
  | multi c => exact MEffect.kabs h hI hs hA
  | value s k => exact MEffect.kabs (c := .equal .upper s k) h hI hs hA
  | valueAt s pos k => exact MEffect.kabs (c := .equal (.hint pos) s k) h hI hs hA
  | range s ks =>
    obtain ⟨i, o, t, rfl, _, ht, _⟩ := hI.tree hv.1
    obtain ⟨h1, h2⟩ := h
    obtain ⟨t', n, ht', _, hn, hle, hiff, hk⟩ := h1.kabs hI hs ht hA
    have := h2 _ _ _ ht ht'
    have e : r.idx = n := by omega
    simp only [vseqStep, e]
    cases he : w'.err with
    | none =>
      have := hiff.1 he
      simp only [Option.isSome_none, Bool.false_eq_true, if_false]
      rw [← this]; exact hk
    | some x => simpa using hk

theorem VHist.kabs {env : Env (TNode K)} {h : List (VEntry K)} (hh : VHist lt env h w) (hs : SWO lt) : KAbs w (vseqRun lt h) := by
  induction hh with
  | start => intro s o t h; exact absurd rfl h.ne_none
  | call hp hv hr ih =>
    have hI := hp.inv
    exact (Runs.wp (vexec_effect hI.ready (hv.ready hI) rfl) hr).kabs hI.ready (hv.ready hI) hs (ih.same rfl)

/-- Other objects after one insertion. -/
theorem effect_other {m : Mode} {r : MRes K} {x : Ptr} {Lx : List (Ptr × K)} (h : MEffect lt w (.equal m s k) r w') (hI : MInv lt w)
    (hx : Alive w x) (hne : x ≠ s) (hc : Contents w x Lx) : Alive w' x ∧ Contents w' x Lx := by
  obtain ⟨j, o2, t2, rfl, _, h4, _⟩ := hI.tree hx
  obtain rfl := (contents_iff h4).1 hc
  cases h with
  | fail ht hR he hh herr =>
    have h5 : Tree w'.heap (.stk j) o2 t2 := by rw [hh]; exact h4
    exact ⟨⟨j, rfl, h5.ne_none⟩, (contents_iff h5).2 rfl⟩
  | new ht ht' hn hn' hp hch =>
    have h5 := hch.other hI ht hne h4 ht'
    exact ⟨⟨j, rfl, h5.ne_none⟩, (contents_iff h5).2 rfl⟩

theorem Chain.other {ks : List K} {x : Ptr} {Lx : List (Ptr × K)} (h : Chain lt s w ks w') (hI : MInv lt w)
    (hx : Alive w x) (hne : x ≠ s) (hc : Contents w x Lx) : Alive w' x ∧ Contents w' x Lx := by
  induction h with
  | nil => exact ⟨hx, hc⟩
  | cons h1 _ _ ih =>
    obtain ⟨h2, h3⟩ := effect_other h1 hI hx hne hc
    exact ih (h1.inv hI) h2 h3

theorem RangeEff.other {ks : List K} {x : Ptr} {Lx : List (Ptr × K)} (h : RangeEff lt s w ks w') (hI : MInv lt w)
    (hx : Alive w x) (hne : x ≠ s) (hc : Contents w x Lx) : Contents w' x Lx := by
  obtain ⟨done, w1, h1, h2⟩ := h.ex
  obtain ⟨h3, h4⟩ := h1.other hI hx hne hc
  rcases h2 with ⟨_, rfl, _⟩ | ⟨k, rest, p, n, _, _, h5, _⟩
  · exact h4
  · exact (effect_other h5 (h1.inv hI) h3 hne h4).2

/-- One insertion on a state that meets the invariant. -/
theorem effect_insert {m : Mode} {n : Nat} {r : Res K} (h : MEffect lt w (.equal m s k) ⟨r, n⟩ w') (hs : SWO lt)
    (ht0 : Tree w.heap s o t) :
    (Refused w ∧ r = .pos s ∧ w'.err ≠ none ∧ w'.heap = w.heap ∧ Contents w' s t.nodes) ∨
    (¬ Refused w ∧ w'.err = none ∧ ∃ A B p, t.nodes = A ++ B ∧ r = .pos p ∧ p ∉ t.nodes.map Prod.fst ∧ w.heap p = none ∧
      Contents w' s (A ++ (p, k) :: B) ∧ Where lt m k s A B) := by
  cases h with
  | fail ht hR he hh herr =>
    refine Or.inl ⟨hR, rfl, by rw [herr]; simp, hh, ?_⟩
    exact (contents_iff (w := w') (o := o) (t := t) (by rw [hh]; exact ht0)).2 rfl
  | new ht ht' hn hn' hp hch hf herr hR hidx =>
    rename_i o1 t1 t1' A B a c _ _ _
    obtain ⟨-, rfl⟩ := Tree.unique ht ht0
    refine Or.inr ⟨hR, herr, A, B, .dyn a, hn, rfl, ?_, hf.none, (contents_iff ht').2 hn'.symm, ?_⟩
    · intro hm
      obtain ⟨c', hc', -⟩ := Rep_alloc ht.rep _ hm
      rw [hf.none] at hc'; cases hc'
    · have hp := hp hs
      cases m with
      | upper => simp only [Where]; exact hp
      | lower => simp only [Where]; exact hp
      | hint pos =>
        obtain ⟨o2, t2, A0, B0, ht2, hn2, hz, rfl⟩ := hidx
        obtain ⟨-, rfl⟩ := Tree.unique ht2 ht
        have hp : Near lt k _ _ A B := hp
        rw [show t2.nodes.take A0.length = A0 by rw [hn2]; simp, show t2.nodes.drop A0.length = B0 by rw [hn2]; simp] at hp
        simp only [Where]
        intro A1 B1 e1 e2
        rw [posOf_eq] at e2
        obtain ⟨rfl, rfl⟩ := split_unique ht hn2 (hn.trans e1) (hz.symm.trans e2)
        exact ⟨hp.2.2.1, hp.2.2.2, fun a b => (hp.2.1 ⟨a, b⟩).1⟩

/-- A history of `MCall`s is a history of `VCall`s. -/
theorem MHist.toV {env : Env (TNode K)} {h : List (MEntry K)} (hh : MHist lt env h w) : VReach lt w ∧ ∃ h', VHist lt env h' w := by
  induction hh with
  | start => exact ⟨⟨env, [], .start⟩, [], .start⟩
  | call _ hv hr ih =>
    obtain ⟨-, h', ih⟩ := ih
    have := VHist.call (c := .multi _) ih hv hr
    exact ⟨⟨_, _, this⟩, _, this⟩

end

/-! ### C120 -/

section
variable {lt : K → K → Bool} {w w' : W K} {s pos : Ptr} {k : K} {L : List (Ptr × K)}

/-- C120: every valid call, among them the insertions of values and ranges, on every reachable state terminates without any
fault, for every comparator (with a hint: every asymmetric comparator), and every block that is then allocated is an element of a
live object. -/
theorem multiset_value_memory_safe {c : VCall K} (hr : VReach lt w) (hv : VValid lt w c) :
    ∃ r w', Runs (vexec lt c) (ready w) r w' ∧ VReach lt w' ∧
      ∀ a, w'.heap (.dyn a) ≠ none → ∃ s L k, Alive w' s ∧ Contents w' s L ∧ (.dyn a, k) ∈ L := by
  obtain ⟨r, w', h1, h2, _⟩ := hr.step hv
  refine ⟨r, w', h1, h2, fun a hm => ?_⟩
  obtain ⟨i, o, t, ht, hin⟩ := h2.inv.cover a hm
  obtain ⟨k, hk⟩ := mem_ptrs_iff.1 hin
  exact ⟨.stk i, t.nodes, k, ⟨i, rfl, ht.ne_none⟩, (contents_iff ht).2 rfl, hk⟩

/-- C120: after any history of calls iterating over a live object yields exactly the sequence of keys that the history describes;
an insertion of a range inserts the values one after another, each behind the elements that are not greater, up to the first one
that cannot be inserted. -/
theorem multiset_value_refinement {env : Env (TNode K)} {h : List (VEntry K)} (hh : VHist lt env h w) (hs : SWO lt)
    (ha : Alive w s) :
    ∃ L, Contents w s L ∧ L.map Prod.snd = vseqRun lt h s ∧ (L.map Prod.snd).Pairwise (fun a b => lt b a = false) := by
  obtain ⟨i, o, t, rfl, _, ht, hsort⟩ := hh.inv.tree ha
  refine ⟨t.nodes, (contents_iff ht).2 rfl, hh.kabs hs _ _ _ ht, ?_⟩
  rw [List.pairwise_map]
  exact hsort hs

/-- C120: one insertion of a value, without (`m_insert_equal`) or with a hint (`m_insert_equal_at`).  If the node cannot be created,
an error is reported, `end()` is returned and nothing is changed; otherwise exactly one element is added, its iterator is returned,
all the other elements keep their positions and nodes, and the new element stands behind all elements that are not greater,
respectively as close to the hint as the order allows. -/
theorem multiset_value_insert (hr : VReach lt w) (hs : SWO lt) (ha : Alive w s) (hc : Contents w s L) :
    (∀ prog m, (prog = insertEqual lt s k ∧ m = .upper) ∨ (prog = insertEqualAt lt s pos k ∧ m = .hint pos ∧ HintOf s pos L) →
      ∃ p w', Runs prog (ready w) p w' ∧
        ((Refused w ∧ p = s ∧ w'.err ≠ none ∧ w'.heap = w.heap ∧ Contents w' s L) ∨
         (¬ Refused w ∧ w'.err = none ∧ ∃ A B, L = A ++ B ∧ p ∉ L.map Prod.fst ∧ w.heap p = none ∧
            Contents w' s (A ++ (p, k) :: B) ∧ Where lt m k s A B)) ∧
        ∀ x Lx, Alive w x → x ≠ s → Contents w x Lx → Contents w' x Lx) := by
  obtain ⟨o, t, ht, rfl⟩ := hr.tree ha hc
  have hI := hr.inv.ready
  have key : ∀ prog m n, wp prog (ready w) (fun p w' => MEffect lt (ready w) (.equal m s k) ⟨.pos p, n⟩ w') →
      ∃ p w', Runs prog (ready w) p w' ∧
        ((Refused w ∧ p = s ∧ w'.err ≠ none ∧ w'.heap = w.heap ∧ Contents w' s t.nodes) ∨
         (¬ Refused w ∧ w'.err = none ∧ ∃ A B, t.nodes = A ++ B ∧ p ∉ t.nodes.map Prod.fst ∧ w.heap p = none ∧
            Contents w' s (A ++ (p, k) :: B) ∧ Where lt m k s A B)) ∧
        ∀ x Lx, Alive w x → x ≠ s → Contents w x Lx → Contents w' x Lx := by
    intro prog m n h
    obtain ⟨p, w', h1, h2⟩ := h.runs
    refine ⟨p, w', h1, ?_, ?_⟩
    · rcases effect_insert h2 hs (by exact ht) with ⟨a1, a2, a3⟩ | ⟨a1, a2, A, B, q, a3, a4, a5⟩
      · cases a2; exact Or.inl ⟨a1, rfl, a3⟩
      · cases a4; exact Or.inr ⟨a1, a2, A, B, a3, a5⟩
    · intro x Lx hx hne hcx
      exact (effect_other h2 hI hx hne ((contents_ready hr.inv hx).2 hcx)).2
  rintro prog m (⟨rfl, rfl⟩ | ⟨rfl, rfl, hh⟩)
  · exact key _ _ 0 (insertEqual_effect hI ha rfl)
  · obtain ⟨A0, B0, e1, e2⟩ := hint_split hh
    exact key _ _ A0.length (insertEqualAt_effect hI hs.asym ⟨o, t, A0, B0, ht, e1, e2, rfl⟩ rfl)

/-- C120: insertion of a range.  The first `n` values are inserted, each behind all the elements that are not greater, and an error
is reported iff these are not all the values; the old elements keep their nodes and their order, and no other object changes. -/
theorem multiset_value_range (hr : VReach lt w) (hs : SWO lt) (ha : Alive w s) (hc : Contents w s L) (ks : List K) :
    ∃ w' L' n, Runs (insertEqualRange lt s ks) (ready w) () w' ∧ Contents w' s L' ∧ L.Sublist L' ∧ n ≤ ks.length ∧
      L'.length = L.length + n ∧ (w'.err = none ↔ n = ks.length) ∧
      L'.map Prod.snd = addUppers lt (ks.take n) (L.map Prod.snd) ∧
      ∀ x Lx, Alive w x → x ≠ s → Contents w x Lx → Contents w' x Lx := by
  obtain ⟨o, t, ht, rfl⟩ := hr.tree ha hc
  have hI := hr.inv.ready
  obtain ⟨u, w', h1, h2⟩ := (insertEqualRange_effect hs.asym ks hI ha rfl).runs
  obtain ⟨env, h, hh⟩ := hr
  obtain ⟨t', n, ht', e1, e2, e3, e4, e5⟩ := h2.kabs hI hs (by exact ht) (hh.kabs hs |>.same rfl)
  refine ⟨w', t'.nodes, n, h1, (contents_iff ht').2 rfl, e1, e3, e2, e4, ?_, ?_⟩
  · rw [e5 _ _ _ ht']
    simp only [put, if_true]
    rw [← hh.kabs hs _ _ _ ht]
  · intro x Lx hx hne hcx
    exact h2.other hI hx hne ((contents_ready hh.inv hx).2 hcx)

end

/-! ### Examples -/

-- a reachable state with equivalent elements, on which the calls are valid, and nothing is refused
theorem vdemo : ∃ h w p q r z, VHist pairLt pairEnv h w ∧ Good w ∧ Alive w (.stk 0) ∧
    Contents w (.stk 0) [(p, (1, 0)), (q, (2, 0)), (r, (2, 1)), (z, (3, 0))] := by
  obtain ⟨h, w, p, q, r, z, h0, hg, ha, hc⟩ := mdemo
  obtain ⟨-, h', h1⟩ := h0.toV
  exact ⟨h', w, p, q, r, z, h1, hg, ha, hc⟩

example : ∃ w, VReach pairLt w ∧ VValid pairLt w (.value (.stk 0) (2, 7)) ∧ VValid pairLt w (.range (.stk 0) [(3, 5), (1, 6), (2, 7)]) ∧
    ∃ p, VValid pairLt w (.valueAt (.stk 0) p (2, 7)) ∧ p ≠ .stk 0 := by
  obtain ⟨h, w, p, q, r, z, h0, hg, ha, hc⟩ := vdemo
  refine ⟨w, ⟨_, _, h0⟩, ha, ⟨ha, pairLt_swo.asym⟩, r, ⟨ha, pairLt_swo.asym, _, hc, Or.inr ⟨(2, 1), by simp⟩⟩, ?_⟩
  obtain ⟨o, t, ht, hL⟩ := VReach.tree ⟨_, _, h0⟩ ha hc
  refine ht.node_ne_hdr ?_
  rw [T.ptrs, ← hL]; simp

-- the range is inserted in full, each value behind its equivalents
example : ∃ w L, VReach pairLt w ∧ SWO pairLt ∧ Alive w (.stk 0) ∧ Contents w (.stk 0) L ∧ HintOf (.stk 0) (.stk 0) L ∧
    addUppers pairLt [(3, 5), (1, 6), (2, 7)] (L.map Prod.snd) =
      [(1, 0), (1, 6), (2, 0), (2, 1), (2, 7), (3, 0), (3, 5)] := by
  obtain ⟨h, w, p, q, r, z, h0, hg, ha, hc⟩ := vdemo
  exact ⟨w, _, ⟨_, _, h0⟩, pairLt_swo, ha, hc, Or.inl rfl, by simp [addUppers, addUpper, pairLt]⟩

-- a history that ends with the insertion of a range
example : ∃ h w, VHist pairLt pairEnv h w ∧ Alive w (.stk 0) ∧ ∃ r b h', h = ⟨.range (.stk 0) [(3, 5), (2, 7)], r, b⟩ :: h' := by
  obtain ⟨h, w, p, q, r, z, h0, hg, ha, hc⟩ := vdemo
  have hv : VValid pairLt w (.range (.stk 0) [(3, 5), (2, 7)]) := ⟨ha, pairLt_swo.asym⟩
  obtain ⟨o, t, ht, -⟩ := VReach.tree ⟨_, _, h0⟩ ha hc
  obtain ⟨r, w', h1, h2⟩ := (vexec_effect h0.inv.ready (hv.ready h0.inv) rfl).runs
  obtain ⟨t', n, ht', -⟩ := h2.1.grow (by exact ht)
  exact ⟨_, w', .call h0 hv h1, ⟨0, rfl, ht'.ne_none⟩, _, _, _, rfl⟩

end Nestl.Multi
