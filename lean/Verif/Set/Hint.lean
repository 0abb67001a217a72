import Verif.Set.Props
import Verif.RBTree.HintOps
set_option autoImplicit false
/-
Insertion with a hint, emplacement and insertion of a range (C16, C65-C67).  `set` does not expose these functions of its
tree (`m_insert_unique_at`, `m_emplace_unique`, `m_emplace_hint_unique`, `m_insert_unique(first, last)`); they are called
here on the tree of a set.
-/
namespace Nestl.Set
open Nestl.RB
variable {K : Type} {lt : K → K → Bool} {w w' : W K} {s pos : Ptr} {k v : K} {L : List (Ptr × K)}

/-- A hint is `end()` or an iterator to an element. -/
def IsHint (s pos : Ptr) (L : List (Ptr × K)) : Prop := pos = s ∨ ∃ k, (pos, k) ∈ L

/-- The states differ at most in the number of comparator calls made so far. -/
def SameButCmp (w w' : W K) : Prop := w' = { w with nCmp := w'.nCmp }

theorem SameButCmp.setCmp (w : W K) (n : Nat) : SameButCmp w (w.setCmp n) := rfl

theorem SameButCmp.contents {w1 w2 : W K} {o : Nat} {t : T K} (h : SameButCmp w1 w2) (ht : Tree w1.heap s o t) :
    Contents w1 s L ↔ Contents w2 s L := by
  have hh : w2.heap = w1.heap := by rw [h]
  rw [contents_iff ht, contents_iff (o := o) (t := t) (by rw [hh]; exact ht)]

theorem _root_.Nestl.RB.firstP_posOf (e : Ptr) (L : List (Ptr × K)) : firstP e L = posOf e L := by cases L <;> rfl

/-- C16: for every hint (right or wrong), inserting with the hint returns the same iterator and leaves the same state as
plain insertion: the same memory, the same contents of every set, the same error report. -/
theorem set_insert_hint (hr : Reach lt w) (hs : SWO lt) (ha : Alive w s) (hc : Contents w s L) (hp : IsHint s pos L) :
    ∃ p b w1 w2, Runs (exec lt (.insert s v)) (ready w) (.ins p b) w1 ∧
      Runs (insertUniqueAt lt s pos v) (ready w) p w2 ∧ SameButCmp w1 w2 ∧
      ∀ x L', Alive w1 x → (Contents w1 x L' ↔ Contents w2 x L') := by
  obtain ⟨o, t, ht, rfl⟩ := hr.tree ha hc
  have hsort := hr.inv.sorted ht hs
  obtain ⟨p, b, w1, n, h1, h2, -⟩ := insert_same (w := ready w) (k := v) (search_hint (pos := pos) hs hsort hp) hs ht hsort rfl
  have h1' : Runs (exec lt (.insert s v)) (ready w) (.ins p b) w1 := runs_seq h1 rfl
  refine ⟨p, b, w1, w1.setCmp n, h1', h2, .setCmp _ _, ?_⟩
  intro x L' hx
  obtain ⟨hr1, -⟩ := hr.effect (c := .insert s v) ha h1'
  obtain ⟨L1, hc1⟩ := hr1.contents hx
  obtain ⟨o1, t1, ht1, -⟩ := hr1.tree hx hc1
  exact (SameButCmp.setCmp w1 n).contents ht1

-- a wrong hint: 5 belongs at the end, the hint is the first element; a right one: the end
example : ∃ w L p, Reach natLt w ∧ SWO natLt ∧ Alive w (.stk 0) ∧ Contents w (.stk 0) L ∧ L.length = 3 ∧
    IsHint (.stk 0) p L ∧ p ≠ .stk 0 ∧ IsHint (.stk 0) (.stk 0) L ∧ ∀ x ∈ L, ¬ Equiv natLt x.2 5 := by
  obtain ⟨w, p, q, r, h0, hg, h1, h2, h3, h5⟩ := demo3
  obtain ⟨o, t, ht, e⟩ := h0.tree h1 h3
  refine ⟨w, _, p, h0, natLt_swo, h1, h3, rfl, Or.inr ⟨1, by simp⟩, ?_, Or.inl rfl, by simp [Equiv, natLt]⟩
  exact ht.node_ne_hdr (by rw [T.ptrs, ← e]; simp)

/-- The hint is right: `v` belongs just before or just after it, or it is equivalent to `v`. -/
def RightHint (lt : K → K → Bool) (v : K) (s pos : Ptr) (L : List (Ptr × K)) : Prop :=
  (∃ A B, L = A ++ B ∧ (∀ a ∈ A, lt a.2 v = true) ∧ (∀ b ∈ B, lt v b.2 = true) ∧
    (pos = posOf s B ∨ ∃ A' kp, A = A' ++ [(pos, kp)])) ∨
  ∃ kp, (pos, kp) ∈ L ∧ Equiv lt kp v

/-- C65: insertion with a right hint calls the comparator at most four times, whatever the size of the set; with a wrong
hint at most `2 log2(n+1) + 5` times. -/
theorem set_insert_hint_comparisons {p : Ptr} (hr : Reach lt w) (hs : SWO lt) (ha : Alive w s) (hc : Contents w s L)
    (hp : IsHint s pos L) (hrun : Runs (insertUniqueAt lt s pos v) (ready w) p w') :
    w'.nCmp ≤ w.nCmp + 2 * Nat.log2 (L.length + 1) + 5 ∧ (RightHint lt v s pos L → w'.nCmp ≤ w.nCmp + 4) := by
  obtain ⟨o, t, ht, rfl⟩ := hr.tree ha hc
  have hsort := hr.inv.sorted ht hs
  have e0 : (ready w).nCmp = w.nCmp := rfl
  constructor
  · obtain ⟨q, b, w1, n, h1, h2, h3⟩ := insert_same (w := ready w) (k := v) (search_hint (pos := pos) hs hsort hp) hs ht hsort rfl
    obtain ⟨-, rfl⟩ := Nestl.Runs.det (insertUniqueAt_eq lt s pos v ▸ hrun) h2
    have := ht.height_le
    show n ≤ _
    omega
  · intro hg
    have hg' : GoodHint lt v s pos t.nodes := by
      rcases hg with ⟨A, B, e1, e2, e3, e4⟩ | hg
      · exact Or.inl ⟨A, B, e1, ⟨e2, e3⟩, by rw [firstP_posOf]; exact e4⟩
      · exact Or.inr hg
    obtain ⟨q, b, w1, n, h1, h2, h3⟩ :=
      insert_same (w := ready w) (k := v) (search_good_hint (pos := pos) hs hsort hp hg') hs ht hsort rfl
    obtain ⟨-, rfl⟩ := Nestl.Runs.det (insertUniqueAt_eq lt s pos v ▸ hrun) h2
    show n ≤ _
    omega

example : ∃ w L p w', Reach natLt w ∧ SWO natLt ∧ Alive w (.stk 0) ∧ Contents w (.stk 0) L ∧ L.length = 3 ∧
    IsHint (.stk 0) (.stk 0) L ∧ RightHint natLt 5 (.stk 0) (.stk 0) L ∧
    Runs (insertUniqueAt natLt (.stk 0) (.stk 0) 5) (ready w) p w' := by
  obtain ⟨w, p, q, r, h0, hg, h1, h2, h3, h5⟩ := demo3
  obtain ⟨p', b, w1, w2, _, hrun, _⟩ := set_insert_hint (v := 5) h0 natLt_swo h1 h3 (Or.inl rfl)
  refine ⟨w, _, p', w2, h0, natLt_swo, h1, h3, rfl, Or.inl rfl, Or.inl ⟨_, [], (List.append_nil _).symm, ?_, by simp, Or.inl rfl⟩, hrun⟩
  simp [natLt]

/-- C66 (new key): emplacing a key that is not present, with or without a hint, leaves the same state as plain insertion
and returns the same iterator; `m_emplace_unique` returns `true` exactly if the key was inserted. -/
theorem set_emplace_absent (hr : Reach lt w) (hs : SWO lt) (ha : Alive w s) (hc : Contents w s L) (hp : IsHint s pos L)
    (hk : ∀ x ∈ L, ¬ Equiv lt x.2 v) :
    ∃ p w1 w2 w3, Runs (exec lt (.insert s v)) (ready w) (.ins p true) w1 ∧
      Runs (emplaceUnique lt s v) (ready w) (p, w1.err.isNone) w2 ∧ SameButCmp w1 w2 ∧
      Runs (emplaceHintUnique lt s pos v) (ready w) p w3 ∧ SameButCmp w1 w3 := by
  obtain ⟨o, t, ht, rfl⟩ := hr.tree ha hc
  have hsort := hr.inv.sorted ht hs
  obtain ⟨p, w1, n, h1, h2, -⟩ := emplace_new (w := ready w) (S := getInsertUniquePos lt s) (search_unique hs hsort) hs ht
    hsort rfl hk
  obtain ⟨p', w1', n', h1', h2', -⟩ := emplace_new (w := ready w) (S := getInsertHintUniquePos lt s pos)
    (search_hint (pos := pos) hs hsort hp) hs ht hsort rfl hk
  obtain ⟨e1, rfl⟩ := Nestl.Runs.det h1' h1
  obtain ⟨rfl, -⟩ := Prod.mk.inj e1
  exact ⟨p', w1', _, _, runs_seq h1 rfl, h2, .setCmp _ n, emplaceHintUnique_eq lt s pos v h2', .setCmp _ n'⟩

example : ∃ w L, Reach natLt w ∧ SWO natLt ∧ Alive w (.stk 0) ∧ Contents w (.stk 0) L ∧ L.length = 3 ∧
    (∃ p, IsHint (.stk 0) p L ∧ p ≠ .stk 0) ∧ ∀ x ∈ L, ¬ Equiv natLt x.2 5 := by
  obtain ⟨w, p, q, r, h0, hg, h1, h2, h3, h5⟩ := demo3
  obtain ⟨o, t, ht, e⟩ := h0.tree h1 h3
  refine ⟨w, _, h0, natLt_swo, h1, h3, rfl, ⟨p, Or.inr ⟨1, by simp⟩, ?_⟩, by simp [Equiv, natLt]⟩
  exact ht.node_ne_hdr (by rw [T.ptrs, ← e]; simp)

/-- C66 (key present): the temporary node is destroyed and deallocated again, the memory is as before, and the iterator of
the element that was found is returned; if the temporary node cannot be created, an error is reported and `end()` is
returned, although no insertion was needed. -/
theorem set_emplace_present {q : Ptr} {k' : K} (hr : Reach lt w) (hs : SWO lt) (ha : Alive w s) (hc : Contents w s L)
    (hp : IsHint s pos L) (hq : (q, k') ∈ L) (hk : Equiv lt k' v) :
    ∃ p w2 w3, Runs (emplaceUnique lt s v) (ready w) (p, false) w2 ∧ w2.heap = w.heap ∧
      Runs (emplaceHintUnique lt s pos v) (ready w) p w3 ∧ w3.heap = w.heap ∧
      ((Refused w ∧ p = s ∧ w2.err ≠ none ∧ w3.err ≠ none) ∨ (¬ Refused w ∧ p = q ∧ w2.err = none ∧ w3.err = none)) := by
  obtain ⟨o, t, ht, rfl⟩ := hr.tree ha hc
  have hsort := hr.inv.sorted ht hs
  obtain ⟨A, B, hn⟩ := List.append_of_mem hq
  obtain ⟨p, w2, h1, h2, -, h3, -⟩ := emplace_old (w := ready w) (S := getInsertUniquePos lt s) (search_unique hs hsort) hs ht
    hsort rfl hn hk.1 hk.2
  obtain ⟨p', w3, h1', h2', -, h3', -⟩ := emplace_old (w := ready w) (S := getInsertHintUniquePos lt s pos)
    (search_hint (pos := pos) hs hsort hp) hs ht hsort rfl hn hk.1 hk.2
  refine ⟨p, w2, w3, h1, h2, ?_, h2', ?_⟩
  · have : p' = p := by
      rcases h3 with ⟨a, b, _⟩ | ⟨a, b, _⟩ <;> rcases h3' with ⟨a', b', _⟩ | ⟨a', b', _⟩
      · rw [b, b']
      · exact absurd a a'
      · exact absurd a' a
      · rw [b, b']
    rw [← this]
    exact emplaceHintUnique_eq lt s pos v h1'
  · rcases h3 with ⟨a, b, c⟩ | ⟨a, b, c⟩ <;> rcases h3' with ⟨a', b', c'⟩ | ⟨a', b', c'⟩
    · exact Or.inl ⟨a, b, c, c'⟩
    · exact absurd a a'
    · exact absurd a' a
    · exact Or.inr ⟨a, b, c, c'⟩

example : ∃ w L q, Reach natLt w ∧ SWO natLt ∧ Alive w (.stk 0) ∧ Contents w (.stk 0) L ∧ L.length = 3 ∧ (q, 2) ∈ L ∧
    Equiv natLt 2 2 ∧ ¬ Refused w := by
  obtain ⟨w, p, q, r, h0, hg, h1, h2, h3, h5⟩ := demo3
  exact ⟨w, _, q, h0, natLt_swo, h1, h3, rfl, by simp, by simp [Equiv, natLt], hg.not_refused⟩

example : ∃ w L q, Reach natLt w ∧ SWO natLt ∧ Alive w (.stk 0) ∧ Contents w (.stk 0) L ∧ (q, 2) ∈ L ∧
    Equiv natLt 2 2 ∧ Refused w := by
  obtain ⟨w, p, h0, h1, h2, h3, _⟩ := demo_refused
  exact ⟨w, _, p, h0, natLt_swo, h1, h2, by simp, by simp [Equiv, natLt], h3⟩

/-- The mathematical set after the keys `vs` have been inserted one after the other. -/
def addAll (lt : K → K → Bool) (A : K → Prop) : List K → K → Prop
  | [] => A
  | v :: vs => addAll lt (fun x => A x ∨ (x = v ∧ ∀ y, A y → ¬ Equiv lt y v)) vs

theorem addAll_congr {A A' : K → Prop} (h : ∀ x, A x ↔ A' x) (vs : List K) (x : K) : addAll lt A vs x ↔ addAll lt A' vs x := by
  have : A = A' := funext fun x => propext (h x)
  rw [this]

theorem InvP.setCmp {P : List (Ptr × K) → Prop} (hI : InvP P w) (n : Nat) : InvP P (w.setCmp n) := ⟨hI.alive, hI.disj, hI.cover, hI.past⟩

/-- One step of the insertion of a range. -/
theorem insert_end_step {o : Nat} {t : T K} (hs : SWO lt) (hI : Inv lt w) (herr : w.err = none) (ht : Tree w.heap s o t) (v : K) :
    ∃ p w' t', Runs (insertUniqueAt lt s s v) w p w' ∧ Inv lt w' ∧ Tree w'.heap s o t' ∧
      (∀ {j : Nat} {o2 : Nat} {t2 : T K}, Ptr.stk j ≠ s → Tree w.heap (.stk j) o2 t2 → Tree w'.heap (.stk j) o2 t2) ∧
      (∀ x ∈ t.nodes, x ∈ t'.nodes) ∧
      ((w'.err = none ∧ ∀ x, x ∈ t'.nodes.map Prod.snd ↔
          (x ∈ t.nodes.map Prod.snd ∨ (x = v ∧ ∀ y, y ∈ t.nodes.map Prod.snd → ¬ Equiv lt y v))) ∨
        (w'.err ≠ none ∧ Refused w ∧ w'.heap = w.heap ∧ t' = t)) := by
  have hsort := hI.sorted ht hs
  obtain ⟨p, b, w1, n, h1, h2, -⟩ := insert_same (w := w) (k := v) (search_hint (pos := s) hs hsort (Or.inl rfl)) hs ht hsort herr
  have h1' : Runs (exec lt (.insert s v)) w (.ins p b) w1 := runs_seq h1 rfl
  obtain ⟨i, rfl⟩ := ht.ok.hdr
  obtain ⟨r, w1', h3, h4⟩ := (exec_effect (c := .insert (.stk i) v) hI (Inv.weak hI) ⟨i, rfl, ht.ne_none⟩ herr).runs
  obtain ⟨rfl, rfl⟩ := Nestl.Runs.det h3 h1'
  have no : ∀ {A B : List (Ptr × K)}, t.nodes = A ++ B → (∀ a ∈ A, lt a.2 v = true) ∧ (∀ b ∈ B, lt v b.2 = true) →
      ∀ y, y ∈ t.nodes.map Prod.snd → ¬ Equiv lt y v := by
    intro A B hn hcut y hy
    exact equiv_of_cut hcut.1 hcut.2 y (by rw [← hn]; exact hy)
  refine ⟨p, w1'.setCmp n, ?_⟩
  cases h4 with
  | insertOld ht0 hn e1 e2 hh he herr' _ _ _ =>
    obtain ⟨-, e0⟩ := Tree.unique ht0 ht
    rw [e0] at hn
    refine ⟨t, h2, ?_, ?_, ?_, fun x hx => hx, Or.inl ⟨herr', ?_⟩⟩
    · exact (hI.same he hh).setCmp n
    · show Tree w1'.heap _ _ _; rw [hh]; exact ht
    · intro j o2 t2 _ h; show Tree w1'.heap _ _ _; rw [hh]; exact h
    · intro x
      constructor
      · exact Or.inl
      · rintro (h | ⟨rfl, h⟩)
        · exact h
        · refine absurd ⟨e1, e2 hs⟩ (h _ ?_)
          rw [hn]; simp
  | insertFail ht0 hn hcut hh he herr' href _ =>
    refine ⟨t, h2, ?_, ?_, ?_, fun x hx => hx, Or.inr ⟨by show w1'.err ≠ none; rw [herr']; simp, href, hh, rfl⟩⟩
    · exact (hI.same he hh).setCmp n
    · show Tree w1'.heap _ _ _; rw [hh]; exact ht
    · intro j o2 t2 _ h; show Tree w1'.heap _ _ _; rw [hh]; exact h
  | insertNew ht0 ht' hn hn' hcut hch hf herr' _ _ =>
    obtain ⟨e0, e1⟩ := Tree.unique ht0 ht
    subst e0 e1

    have hcut' := hcut hs
    refine ⟨_, h2, ?_, ht', ?_, ?_, Or.inl ⟨herr', ?_⟩⟩
    · refine (hch.inv hI ht ht' ?_).setCmp n
      intro _
      rw [hn]at hsort
      rw [hn']
      simp only [Sorted, List.pairwise_append, List.pairwise_cons, List.mem_cons] at hsort ⊢
      refine ⟨hsort.1, ⟨fun b hb => hcut'.2 b hb, hsort.2.1⟩, ?_⟩
      intro a ha b hb
      rcases hb with rfl | hb
      · exact hcut'.1 a ha
      · exact hsort.2.2 a ha b hb
    · intro j o2 t2 hj h; exact hch.other hI ht hj h ht'
    · intro x hx; rw [hn] at hx; rw [hn']; simp at hx ⊢; grind
    · intro x
      have hno := no hn hcut'
      rw [hn'] 
      rw [hn] at hno ⊢
      simp only [List.map_append, List.map_cons, List.mem_append, List.mem_cons] at hno ⊢
      constructor
      · rintro (h | h | h)
        · exact Or.inl (Or.inl h)
        · exact Or.inr ⟨h, hno⟩
        · exact Or.inl (Or.inr h)
      · rintro ((h | h) | ⟨h, -⟩)
        · exact Or.inl h
        · exact Or.inr (Or.inr h)
        · exact Or.inr (Or.inl h)

theorem insert_range_aux (hs : SWO lt) (vs : List K) : ∀ {w : W K} {o : Nat} {t : T K}, Inv lt w → w.err = none →
    Tree w.heap s o t → ∃ w' us rest t', vs = us ++ rest ∧ Runs (insertUniqueRange lt s vs) w () w' ∧ Inv lt w' ∧
      Tree w'.heap s o t' ∧
      (∀ {j : Nat} {o2 : Nat} {t2 : T K}, Ptr.stk j ≠ s → Tree w.heap (.stk j) o2 t2 → Tree w'.heap (.stk j) o2 t2) ∧
      (∀ x ∈ t.nodes, x ∈ t'.nodes) ∧
      (∀ x, x ∈ t'.nodes.map Prod.snd ↔ addAll lt (fun y => y ∈ t.nodes.map Prod.snd) us x) ∧
      ((w'.err = none ∧ rest = []) ∨ (w'.err ≠ none ∧ rest ≠ [])) := by
  induction vs with
  | nil =>
    intro w o t hI herr ht
    exact ⟨w, [], [], t, rfl, rfl, hI, ht, fun _ h => h, fun _ h => h, fun _ => Iff.rfl, Or.inl ⟨herr, rfl⟩⟩
  | cons v vs ih =>
    intro w o t hI herr ht
    obtain ⟨p, w1, t1, h1, hI1, ht1, hoth, hsub, hout⟩ := insert_end_step hs hI herr ht v
    rcases hout with ⟨he, hkeys⟩ | ⟨he, -, hh, rfl⟩
    · obtain ⟨w', us, rest, t', e1, h2, hI2, ht2, hoth2, hsub2, hk2, ho2⟩ := ih hI1 he ht1
      refine ⟨w', v :: us, rest, t', by rw [e1]; rfl, ?_, hI2, ht2, fun hj h => hoth2 hj (hoth hj h),
        fun x hx => hsub2 x (hsub x hx), ?_, ho2⟩
      · refine runs_seq h1 (runs_seq (a := false) (s1 := w1) ?_ ?_)
        · show some _ = _; simp [he]
        · simpa using h2
      · intro x
        rw [hk2 x]
        simp only [addAll]
        exact addAll_congr (fun y => hkeys y) us x
    · refine ⟨w1, [], v :: vs, t1, rfl, ?_, hI1, ht1, hoth, fun x hx => hx, fun _ => Iff.rfl, Or.inr ⟨he, by simp⟩⟩
      refine runs_seq h1 (runs_seq (a := true) (s1 := w1) ?_ ?_)
      · show some _ = _
        cases h0 : w1.err with
        | none => exact absurd h0 he
        | some e => rfl
      · simp; rfl

/-- C67: inserting a range of values inserts them one after the other until the first failure.  There is a prefix `us` of
the range such that the set now holds exactly the old keys and the keys of `us` (of equivalent keys the first one);
everything was inserted unless an error is reported.  The old elements stay where they are, the set is sorted, and the
other sets are unchanged. -/
theorem set_insert_range (hr : Reach lt w) (hs : SWO lt) (ha : Alive w s) (hc : Contents w s L) (vs : List K) :
    ∃ w' us rest L', vs = us ++ rest ∧ Runs (insertUniqueRange lt s vs) (ready w) () w' ∧ Contents w' s L' ∧
      (L'.map Prod.snd).Pairwise (fun a b => lt a b = true) ∧
      (∀ x, x ∈ L'.map Prod.snd ↔ addAll lt (fun y => y ∈ L.map Prod.snd) us x) ∧ (∀ x ∈ L, x ∈ L') ∧
      ((w'.err = none ∧ rest = []) ∨ (w'.err ≠ none ∧ rest ≠ [])) ∧
      ∀ x Lx, Alive w x → x ≠ s → Contents w x Lx → Contents w' x Lx := by
  obtain ⟨o, t, ht, rfl⟩ := hr.tree ha hc
  obtain ⟨w', us, rest, t', e1, h2, hI2, ht2, hoth, hsub, hk, ho⟩ := insert_range_aux hs vs hr.inv.ready rfl ht.ready
  refine ⟨w', us, rest, t'.nodes, e1, h2, (contents_iff ht2).2 rfl, ?_, hk, hsub, ho, ?_⟩
  · rw [List.pairwise_map]
    exact hI2.sorted ht2 hs
  · intro x Lx hx hne hcx
    obtain ⟨o2, t2, h3, rfl⟩ := hr.tree hx hcx
    obtain ⟨j, rfl, _⟩ := hx
    exact (contents_iff (hoth hne h3)).2 rfl

example : ∃ w L, Reach natLt w ∧ SWO natLt ∧ Alive w (.stk 0) ∧ Contents w (.stk 0) L ∧ L.map Prod.snd = [1, 2, 3] ∧
    ∀ x, addAll natLt (fun y => y ∈ L.map Prod.snd) [5, 2, 5, 4] x ↔ x ∈ [1, 2, 3, 4, 5] := by
  obtain ⟨w, p, q, r, h0, hg, h1, h2, h3, h5⟩ := demo3
  refine ⟨w, _, h0, natLt_swo, h1, h3, rfl, fun x => ?_⟩
  simp only [addAll, List.map_cons, List.map_nil, List.mem_cons, List.not_mem_nil, or_false, Equiv, natLt, decide_eq_false_iff_not]
  constructor
  · intro h
    omega
  · intro h
    rcases h with h | h | h | h | h
    · simp [h]
    · simp [h]
    · simp [h]
    · right
      refine ⟨h, ?_⟩
      intro y hy
      omega
    · left; left; left; right
      exact ⟨h, by intro y hy; omega⟩

end Nestl.Set
