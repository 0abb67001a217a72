import Verif.Full.Props
import Verif.RBTree.HintBad
set_option autoImplicit false
/-
Property theorems of the insertions that take a hint, and what they need from the comparator (C84).  The vocabulary is defined
in `Verif/Full/Client.lean`, `Verif/Multi/Client.lean` and `Verif/Set/Client.lean`; the programs are in
`Verif/RBTree/ModelExtra.lean`.
-/
namespace Nestl.Full
open Nestl.RB Nestl.Set Nestl.Multi
variable {K : Type} {lt : K → K → Bool} {w w' : W K} {s t d : Ptr} {L M : List (Ptr × K)} {m : UMode} {k : K}

theorem FReach.contents (h : FReach lt w) (ha : Alive w s) : ∃ L, Contents w s L := by
  obtain ⟨i, o, t, rfl, _, ht, _⟩ := h.inv.tree ha
  exact ⟨_, (contents_iff ht).2 rfl⟩

theorem contents_alive (hc : Contents w' s L) (ha : Alive w s) : Alive w' s := by
  obtain ⟨i, rfl, -⟩ := ha
  refine ⟨i, rfl, fun e => ?_⟩
  obtain ⟨x, w1, h1, -⟩ := runs_seq_inv (show Runs (begin_ (.stk i) >>= fun a => end_ (.stk i) >>= fun b => walkFrom a b) w' L w' from hc)
  obtain ⟨y, w2, h2, -⟩ := runs_seq_inv (show Runs (rd (.stk i) >>= fun a => pure a.left) w' x w1 from h1)
  simp [Runs, rd, e] at h2
  cases h2

/-! ### A concrete state for a comparator that is asymmetric but not an order -/

/-- Rock, paper, scissors: each of three kinds of numbers is before the next kind. -/
def rps (a b : Nat) : Bool := decide ((a + 1) % 3 = b % 3)

theorem rps_asym : Asym rps := by
  intro a b h
  simp only [rps, decide_eq_true_eq, decide_eq_false_iff_not] at *
  omega

theorem rps_not_swo : ¬ SWO rps := by
  intro h
  have := h.trans (a := 0) (b := 1) (c := 2) (by decide) (by decide)
  simp [rps] at this

/-- Memory never runs out and constructors never fail. -/
def fineEnv (K : Type) : Env (TNode K) :=
  { addr := fun k => some k, ctor := fun _ => true, junk := fun _ => ⟨.red, .null, .null, .null, none, 0, 0⟩ }

theorem fine_good : Good (ready (start (fineEnv K))) :=
  ⟨fun k => ⟨k, rfl⟩, fun _ _ h => by simpa [start, fineEnv, ready] using h, fun _ => rfl, fun _ h => absurd rfl h⟩

/-- Whatever the comparator is, an object with one given element can be reached. -/
theorem one_reach (lt : K → K → Bool) (m : K) : ∃ w p, FReach lt w ∧ Good w ∧ Alive w (.stk 0) ∧ Contents w (.stk 0) [(p, m)] := by
  have hI0 := InvP.start (P := fun L => SWO lt → WSorted lt L) (fineEnv K)
  obtain ⟨r1, w1, hr1, he1⟩ := wp.runs (mexec_effect (lt := lt) (c := .base (.create 7)) hI0.ready trivial rfl)
  obtain ⟨z1, g1⟩ := he1.good hI0.ready fine_good
  have m1 := MHist.call (lt := lt) (env := fineEnv K) MHist.start (c := .base (.create 7)) trivial hr1
  have t1 : Tree w1.heap (.stk 0) 7 .nil := by
    cases he1 with
    | base he _ =>
      cases he with
      | create hc _ => exact hc.tree
  have hI1 := m1.inv
  have a1 : Alive w1 (.stk 0) := ⟨0, rfl, t1.ne_none⟩
  obtain ⟨r2, w2, hr2, he2⟩ := wp.runs (mexec_effect (lt := lt) (c := .equal .upper (.stk 0) m) hI1.ready (MValid.ready hI1 a1) rfl)
  obtain ⟨z2, g2⟩ := he2.good hI1.ready ⟨g1.some, g1.inj, g1.ctor, g1.past⟩
  have m2 := MHist.call m1 (c := .equal .upper (.stk 0) m) a1 hr2
  obtain ⟨h', hf, -⟩ := FHist.ofMulti m2
  cases he2 with
  | fail _ _ _ _ he => rw [he] at z2; simp at z2
  | @new _ _ _ _ _ o t t' A B a _ ht ht' hn hn' hp hc =>
    obtain ⟨-, rfl⟩ := Tree.unique ht t1
    have : A = [] ∧ B = [] := by simpa [T.nodes] using hn
    obtain ⟨rfl, rfl⟩ := this
    exact ⟨w2, .dyn a, ⟨_, _, hf⟩, g2, ⟨0, rfl, ht'.ne_none⟩, (contents_iff ht').2 (by rw [hn']; rfl)⟩

/-! ### C84: hinted insertion -/

/-- C84: the insertion of a key that may be present, in all its forms (with a hint, by emplacement, or both; the hint may be
any iterator of the object), with any comparator that is asymmetric if a hint is given: the call terminates without undefined
behaviour.  Either it reports an error, returns `end()` and leaves memory as it was, and this only if the allocator or a
constructor refused; or it returns an element that is not before the key and leaves memory as it was; or the key becomes one
new element, all old elements keep their nodes and their order, and the iterator of the new element is returned.  All other
objects keep their contents in all cases, and the number of comparisons is at most logarithmic. -/
theorem unique_insert_any (hr : FReach lt w) (ha : Alive w s) (hL : Contents w s L) (hv : UValid lt w s m) (k : K) :
    ∃ r w', Runs (fexec lt (.unique m s k)) (ready w) r w' ∧ FReach lt w' ∧
      ((w'.err ≠ none ∧ r = uresult m s false ∧ w'.heap = w.heap ∧ Refused w) ∨
        (w'.err = none ∧ w'.heap = w.heap ∧ ∃ p k', (p, k') ∈ L ∧ lt k' k = false ∧ r = uresult m p false) ∨
        (w'.err = none ∧ ¬ Refused w ∧ ∃ p A B, L = A ++ B ∧ Contents w' s (A ++ (p, k) :: B) ∧ w.heap p = none ∧ r = uresult m p true)) ∧
      (∀ x N, Alive w x → x ≠ s → Contents w x N → Contents w' x N) ∧
      w'.nCmp ≤ w.nCmp + 2 * Nat.log2 (L.length + 1) + 5 := by
  have hI := hr.inv
  obtain ⟨o, u, hu, rfl⟩ := hr.tree ha hL
  obtain ⟨r, w', h1, h2, h3⟩ := hr.step (c := .unique m s k) ⟨ha, hv⟩
  have hht := hu.height_le
  have e0 : (ready w).nCmp = w.nCmp := rfl
  have same : w'.heap = w.heap → ∀ x N, Alive w x → x ≠ s → Contents w x N → Contents w' x N := by
    intro e x N hx _ hN
    obtain ⟨o', v, hv', rfl⟩ := hr.tree hx hN
    exact (contents_iff (by rw [e]; exact hv')).2 rfl
  refine ⟨r, w', h1, h2, ?_⟩
  cases h3 with
  | uniqueOld ht hn h5 _ hh he hz hc =>
    obtain ⟨-, rfl⟩ := Tree.unique (by exact ht) hu
    exact ⟨Or.inr (Or.inl ⟨hz, hh, _, _, by rw [hn]; simp, h5, rfl⟩), same hh, by omega⟩
  | uniqueFail ht hh he hz hrf hc =>
    obtain ⟨-, rfl⟩ := Tree.unique (by exact ht) hu
    exact ⟨Or.inl ⟨by rw [hz]; simp, rfl, hh, hrf⟩, same hh, by omega⟩
  | uniqueNew ht ht' hn hn' _ hch hf hz hc hno =>
    obtain ⟨-, rfl⟩ := Tree.unique (by exact ht) hu
    refine ⟨Or.inr (Or.inr ⟨hz, hno, _, _, _, hn, (contents_iff ht').2 hn'.symm, hf.none, rfl⟩), ?_, by omega⟩
    intro x N hx hne hN
    obtain ⟨j, rfl, hj⟩ := hx
    obtain ⟨o', v, hv', rfl⟩ := hr.tree ⟨j, rfl, hj⟩ hN
    exact (contents_iff (hch.other hI.ready ht hne hv' ht')).2 rfl

-- a hinted insertion that succeeds, with a comparator that is not an order
example : ∃ (w : W Nat) (p : Ptr), FReach rps w ∧ Good w ∧ Alive w (.stk 0) ∧ Contents w (.stk 0) [(p, 4)] ∧ ¬ SWO rps ∧
    UValid rps w (.stk 0) (.at p) ∧ UValid rps w (.stk 0) (.emplaceAt (.stk 0)) ∧ UValid rps w (.stk 0) .emplace := by
  obtain ⟨w, p, h1, h2, h3, h4⟩ := one_reach rps 4
  exact ⟨w, p, h1, h2, h3, h4, rps_not_swo, ⟨rps_asym, _, h4, Or.inr ⟨4, by simp⟩⟩, ⟨rps_asym, _, h4, Or.inl rfl⟩, trivial⟩

theorem _root_.Nestl.SWO.cut_filter {A B : List (Ptr × K)} (hs : SWO lt) (h : Cut lt k A B) :
    (A ++ B).filter (fun x => lt x.2 k) = A ∧ (A ++ B).filter (fun x => lt k x.2) = B := by
  obtain ⟨c1, c2⟩ := h
  have f1 : A.filter (fun x => lt x.2 k) = A := List.filter_eq_self.2 (fun a ha => c1 a ha)
  have f2 : B.filter (fun x => lt x.2 k) = [] := List.filter_eq_nil_iff.2 (fun b hb => by simp [hs.asymm (c2 b hb)])
  have f3 : A.filter (fun x => lt k x.2) = [] := List.filter_eq_nil_iff.2 (fun b hb => by simp [hs.asymm (c1 b hb)])
  have f4 : B.filter (fun x => lt k x.2) = B := List.filter_eq_self.2 (fun a ha => c2 a ha)
  rw [List.filter_append, List.filter_append, f1, f2, f3, f4]
  simp

/-- C84: with a strict weak order the hint is only a hint: whatever iterator it is, and also if the object holds equivalent
elements, the key is inserted if and only if no equivalent element is present (unless an error is reported), it is inserted
after all elements that are before it and before all elements that are after it, and otherwise an equivalent element is
returned. -/
theorem unique_insert_order (hr : FReach lt w) (hs : SWO lt) (ha : Alive w s) (hL : Contents w s L) (hv : UValid lt w s m) (k : K) :
    ∃ r w', Runs (fexec lt (.unique m s k)) (ready w) r w' ∧
      (w'.err = none → (∃ x ∈ L, lt x.2 k = false ∧ lt k x.2 = false) →
        ∃ x ∈ L, lt x.2 k = false ∧ lt k x.2 = false ∧ r = uresult m x.1 false ∧ w'.heap = w.heap) ∧
      (w'.err = none → (∀ x ∈ L, lt x.2 k = true ∨ lt k x.2 = true) →
        ∃ p, r = uresult m p true ∧ w.heap p = none ∧
          Contents w' s (L.filter (fun x => lt x.2 k) ++ (p, k) :: L.filter (fun x => lt k x.2))) := by
  obtain ⟨o, u, hu, rfl⟩ := hr.tree ha hL
  obtain ⟨r, w', h1, h2, h3⟩ := hr.step (c := .unique m s k) ⟨ha, hv⟩
  refine ⟨r, w', h1, ?_⟩
  cases h3 with
  | uniqueOld ht hn h5 h6 hh he hz hc =>
    obtain ⟨-, rfl⟩ := Tree.unique (by exact ht) hu
    refine ⟨fun _ _ => ⟨_, by rw [hn]; exact List.mem_append_right _ (List.mem_cons_self ..), h5, h6 hs, rfl, hh⟩, ?_⟩
    intro _ hno
    have := hno _ (by rw [hn]; exact List.mem_append_right _ (List.mem_cons_self ..))
    simp only [h5, h6 hs] at this
    simp at this
  | uniqueFail ht hh he hz => exact ⟨fun h => (by rw [hz] at h; cases h), fun h => (by rw [hz] at h; cases h)⟩
  | uniqueNew ht ht' hn hn' hcut hch hf hz hc hno =>
    obtain ⟨-, rfl⟩ := Tree.unique (by exact ht) hu
    obtain ⟨c1, c2⟩ := hcut hs
    rw [hn]
    refine ⟨?_, ?_⟩
    · rintro _ ⟨x, hx, e1, e2⟩
      rcases List.mem_append.1 hx with h | h
      · rw [c1 x h] at e1; cases e1
      · rw [c2 x h] at e2; cases e2
    · intro _ _
      refine ⟨_, rfl, hf.none, ?_⟩
      rw [contents_iff ht', hn', List.filter_append, List.filter_append]
      have f := hs.cut_filter ⟨c1, c2⟩
      rw [List.filter_append, List.filter_append] at f
      rw [f.1, f.2]

-- hints in the middle of equivalent elements
example : ∃ w L M, FReach pairLt w ∧ Good w ∧ SWO pairLt ∧ Alive w (.stk 0) ∧ Contents w (.stk 0) (L ++ M) ∧ 2 ≤ L.length ∧
    2 ≤ M.length ∧ UValid pairLt w (.stk 0) (.at (posOf (.stk 0) M)) := by
  obtain ⟨w, L, M, h1, h2, h3, h4, h5, -, h7, -⟩ := fdemo 7
  obtain ⟨a, b, c, d, rfl⟩ : ∃ a b c d, L = [a, b, c, d] := by
    have hl := congrArg List.length h7
    match L, hl with
    | [a, b, c, d], _ => exact ⟨a, b, c, d, rfl⟩
  exact ⟨w, [a, b], [c, d], h1, h2, pairLt_swo, h3, h5, by simp, by simp, pairLt_swo.asym, _, h5, Or.inr ⟨c.2, by simp [posOf]⟩⟩

/-- C84: inserting a range of keys (each with the hint `end()`) with any asymmetric comparator terminates without undefined
behaviour in a state from which the program can go on; the old elements keep their nodes and their order, every new element is
one of the keys, and if no error is reported every key has an element that is not before it. -/
theorem range_insert_any (hr : FReach lt w) (ha : Alive w s) (has : Asym lt) (hL : Contents w s L) (vs : List K) :
    ∃ w' L', Runs (insertUniqueRange lt s vs) (ready w) () w' ∧ (vs = [] ∨ FReach lt w') ∧ Contents w' s L' ∧ L.Sublist L' ∧
      (∀ x ∈ L', x ∈ L ∨ x.2 ∈ vs) ∧ (w'.err = none → ∀ v ∈ vs, ∃ x ∈ L', lt x.2 v = false) ∧
      ∀ x N, Alive w x → x ≠ s → Contents w x N → Contents w' x N := by
  induction vs generalizing w L with
  | nil =>
    obtain ⟨o, u, hu, rfl⟩ := hr.tree ha hL
    refine ⟨ready w, u.nodes, rfl, Or.inl rfl, (contents_iff (w := ready w) hu).2 rfl, List.Sublist.refl _, fun x hx => Or.inl hx, by simp, ?_⟩
    intro x N hx _ hN
    obtain ⟨o', v, hv, rfl⟩ := hr.tree hx hN
    exact (contents_iff (w := ready w) hv).2 rfl
  | cons v vs ih =>
    obtain ⟨r, w1, h1, h2, h3, h4, -⟩ := unique_insert_any (m := .at s) hr ha hL ⟨has, L, hL, Or.inl rfl⟩ v
    obtain ⟨p, w2, h1', e⟩ := runs_seq_inv h1
    have ew : w1 = w2 := (Runs.det e (show Runs (pure (FRes.pos p) : M (W K) (FRes K)) w2 _ w2 from rfl)).2
    subst ew
    obtain ⟨L1, hL1, hsub, hmem, hnew⟩ : ∃ L1, Contents w1 s L1 ∧ L.Sublist L1 ∧ (∀ x ∈ L1, x ∈ L ∨ x.2 = v) ∧
        (w1.err = none → ∃ x ∈ L1, lt x.2 v = false) := by
      rcases h3 with ⟨h, -, hh, -⟩ | ⟨h, hh, q, k', hq, hlt, -⟩ | ⟨h, -, q, A, B, rfl, hc, -, -⟩
      · obtain ⟨o, u, hu, rfl⟩ := hr.tree ha hL
        exact ⟨_, (contents_iff (by rw [hh]; exact hu)).2 rfl, List.Sublist.refl _, fun x hx => Or.inl hx, fun e => absurd e h⟩
      · obtain ⟨o, u, hu, rfl⟩ := hr.tree ha hL
        exact ⟨_, (contents_iff (by rw [hh]; exact hu)).2 rfl, List.Sublist.refl _, fun x hx => Or.inl hx, fun _ => ⟨_, hq, hlt⟩⟩
      · refine ⟨_, hc, ?_, ?_, fun _ => ⟨(q, v), by simp, ?_⟩⟩
        · exact List.Sublist.append (List.Sublist.refl _) (List.sublist_cons_self ..)
        · intro x hx
          simp only [List.mem_append, List.mem_cons] at hx ⊢
          rcases hx with hx | rfl | hx
          · exact Or.inl (Or.inl hx)
          · exact Or.inr rfl
          · exact Or.inl (Or.inr hx)
        · cases hvv : lt v v with
          | false => rfl
          | true => exact absurd hvv (by rw [has v v hvv]; simp)
    by_cases herr : w1.err = none
    · obtain ⟨w', L', k1, k2, k3, k4, k5, k6, k7⟩ := ih h2 (contents_alive hL1 ha) hL1
      have er : ready w1 = w1 := by cases w1; simp only [ready]; simp only at herr; rw [herr]
      rw [er] at k1
      refine ⟨w', L', ?_, Or.inr ?_, k3, hsub.trans k4, ?_, ?_, ?_⟩
      · refine runs_seq h1' (runs_seq (show Runs hasErr w1 false w1 from ?_) (by simpa using k1))
        simp [Runs, hasErr, herr]
      · rcases k2 with rfl | k2
        · obtain ⟨-, rfl⟩ := Runs.det k1 (show Runs (pure () : M (W K) Unit) w1 _ w1 from rfl)
          exact h2
        · exact k2
      · intro x hx
        rcases k5 x hx with h | h
        · rcases hmem x h with h | h
          · exact Or.inl h
          · exact Or.inr (by rw [h]; simp)
        · exact Or.inr (List.mem_cons_of_mem _ h)
      · intro he x hx
        rcases List.mem_cons.1 hx with rfl | hx
        · obtain ⟨y, hy, hlt⟩ := hnew herr
          exact ⟨y, k4.subset hy, hlt⟩
        · exact k6 he x hx
      · intro x N hx hne hN
        exact k7 x N (contents_alive (h4 x N hx hne hN) hx) hne (h4 x N hx hne hN)
    · refine ⟨w1, L1, ?_, Or.inr h2, hL1, hsub, ?_, fun h => absurd h herr, h4⟩
      · refine runs_seq h1' (runs_seq (show Runs hasErr w1 true w1 from ?_) rfl)
        cases hz : w1.err with
        | none => exact absurd hz herr
        | some e => simp [Runs, hasErr, hz]
      · intro x hx
        rcases hmem x hx with h | h
        · exact Or.inl h
        · exact Or.inr (by rw [h]; simp)

example : ∃ (w : W Nat) (p : Ptr), FReach rps w ∧ Alive w (.stk 0) ∧ Asym rps ∧ Contents w (.stk 0) [(p, 4)] := by
  obtain ⟨w, p, h1, h2, h3, h4⟩ := one_reach rps 4
  exact ⟨w, p, h1, h3, rps_asym, h4⟩

/-! ### C84: the comparator must be asymmetric -/

/-- The tree of one node. -/
theorem one_tree {H : Ptr → Option (TNode K)} {o : Nat} {u : T K} {p : Ptr} {m : K} (h : Tree H s o u) (hn : u.nodes = [(p, m)]) :
    u = .node p .black .nil m .nil := by
  cases u with
  | nil => simp [T.nodes] at hn
  | node q c l x r =>
    simp only [T.nodes] at hn
    have hl : l.nodes = [] := by
      cases hl : l.nodes with
      | nil => rfl
      | cons a b => rw [hl] at hn; simp at hn
    have hr : r.nodes = [] := by
      rw [hl] at hn
      simpa using (List.cons.inj hn).2
    rw [hl, hr] at hn
    have e0 : ∀ t : T K, t.nodes = [] → t = .nil := by
      intro t ht
      cases t with
      | nil => rfl
      | node => simp [T.nodes] at ht
    have hb := h.black
    simp only [T.color] at hb
    simp only [List.nil_append, List.cons.injEq, Prod.mk.injEq] at hn
    rw [e0 l hl, e0 r hr, hb, hn.1.1, hn.1.2]

/-- Iterating over a tree of two nodes does not look at the left child of the root. -/
theorem two_walk {hc pc qc : TNode K} {p q : Ptr} {m k : K} (hh : w.heap s = some hc) (hp : w.heap p = some pc) (hq : w.heap q = some qc)
    (h0 : s ≠ .null) (p0 : p ≠ .null) (q0 : q ≠ .null) (hps : p ≠ s) (hqs : q ≠ s) (hpq : q ≠ p)
    (a1 : hc.left = q) (a2 : hc.right = p) (a3 : hc.parent = p) (b1 : pc.right = .null) (b2 : pc.parent = s) (b3 : pc.val = some m)
    (c1 : qc.right = .null) (c2 : qc.parent = p) (c3 : qc.val = some k) : Contents w s [(q, k), (p, m)] := by
  have key : wp (walk s) w (fun r w' => r = [(q, k), (p, m)] ∧ w' = w) := by
    unfold walk begin_ end_
    simp only [wp_bind]
    rw [wp_rd hh h0, wp_pure, wp_pure, a1]
    unfold walkFrom
    simp only [hqs, if_false, wp_bind]
    rw [wp_keyOf hq q0 c3]
    unfold increment
    simp only [wp_bind]
    rw [wp_rd hq q0, if_neg (by simp [c1])]
    simp only [wp_bind]
    rw [c2]
    unfold incClimb
    simp only [wp_bind]
    rw [wp_rd hp p0, if_neg (by rw [b1]; exact q0), wp_pure]
    simp only
    rw [wp_rd hq q0, if_pos (by rw [c1]; exact p0.symm), wp_pure]
    unfold walkFrom
    simp only [hps, if_false, wp_bind]
    rw [wp_keyOf hp p0 b3]
    unfold increment
    simp only [wp_bind]
    rw [wp_rd hp p0, if_neg (by simp [b1])]
    simp only [wp_bind]
    rw [b2]
    unfold incClimb
    simp only [wp_bind]
    rw [wp_rd hh h0, if_pos a2.symm, a3]
    unfold incClimb
    simp only [wp_bind]
    rw [wp_rd hp p0, if_neg (by rw [b1]; exact h0), wp_pure]
    simp only
    rw [wp_rd hh h0, if_neg (by simp [a2]), wp_pure]
    unfold walkFrom
    simp
  obtain ⟨r, w2, h, rfl, rfl⟩ := key.runs
  exact h

/-- C84: asymmetry cannot be dropped.  For every comparator that says of two keys `m` and `k` both that `m` is before `k` and
that `k` is before `m`, there is an object, reached without any error, that holds `k` and `m`, such that the insertion of `k`
with the hint `end()` reports no error but loses the node of `k`: afterwards the size is three but iterating finds only the
two old elements and never the returned one, and after the destruction of the object the old node of `k` is still allocated. -/
theorem hinted_insert_needs_asymmetry {m k : K} (hmk : lt m k = true) (hkm : lt k m = true) :
    ∃ (w w' w'' : W K) (p q r : Ptr), FReach lt w ∧ Good w ∧ Alive w (.stk 0) ∧ Contents w (.stk 0) [(q, k), (p, m)] ∧
      Runs (insertUniqueAt lt (.stk 0) (.stk 0) k) (ready w) r w' ∧ w'.err = none ∧ Runs (size (.stk 0)) w' 3 w' ∧
      Contents w' (.stk 0) [(q, k), (p, m)] ∧ r ≠ q ∧ r ≠ p ∧ Runs (destroyTree (.stk 0)) w' () w'' ∧ w''.heap q ≠ none ∧
      w''.heap p = none ∧ w''.heap r = none := by
  obtain ⟨w0, p, hr0, hg0, ha0, hc0⟩ := one_reach lt m
  obtain ⟨o, u, hu, hn⟩ := hr0.tree ha0 hc0
  have hu' := one_tree hu hn.symm
  subst hu'
  have hp0 := hu.rep.1
  have pd : ∃ i, p = .dyn i := hu.ok.dyn p (by simp [T.ptrs, T.nodes])
  have hh0 := hu.cell
  have pn : p ≠ .null := by obtain ⟨i, rfl⟩ := pd; simp
  have ph : p ≠ .stk 0 := by obtain ⟨i, rfl⟩ := pd; simp
  -- the second element
  obtain ⟨r1, w1, hrun1, q, c1, rfl, qd, f1, x1, e1, hh1, hp1, hq1, y1, y2, y3, y4, y5, y6, y7, oth1⟩ := wp.runs
    (insertUnique_one (lt := lt) (k := k) (m := m) (w := ready w0) (hdr := .stk 0) (p := p) (Q := fun r w' => ∃ q c, r = (q, true) ∧
      (∃ i, q = .dyn i) ∧ Fresh (ready w0) w' q ∧ Ext (ready w0) w' ∧ w'.err = none ∧
      w'.heap (.stk 0) = some (hdCell ⟨q, p, o, 2⟩ p) ∧ w'.heap p = some (cellS .L .black (.stk 0) q .null m o) ∧
      w'.heap q = some c ∧ c.parent = p ∧ c.left = .null ∧ c.right = .null ∧ c.color = .red ∧ c.val = some k ∧ c.owner = o ∧ c.count = 0 ∧
      (∀ x, x ≠ .stk 0 → x ≠ p → x ≠ q → w'.heap x = w0.heap x))
      hh0 hp0 (by simp) pn rfl rfl rfl rfl hkm (by
        refine wp_insert_left_root (w := (ready w0).addCmp 1) (m := m) hh0 hp0 ⟨0, rfl⟩ pn ph rfl ?_ rfl rfl rfl hkm ?_
        · exact fun h => hg0.not_refused h
        · intro a c H' w' g1 g2 g3 g4 g5 g6 g7 g8 g9 g10 g11 g12 g13 g14 g15
          subst g4
          refine ⟨.dyn a, c, rfl, ⟨a, rfl⟩, ⟨g1.none, g1.req⟩, (Ext.addCmp _ _).trans g2, g3, ?_, g6, g7, g8, g9, g10, g11, g12, g13, g14, g15⟩
          rw [g5]
          simp [hdCell, T.nodes, firstP, lastP, T.ptr]))
  have e10 : w1.heap q ≠ none := by rw [hq1]; simp
  have qp : q ≠ p := by rintro rfl; exact absurd f1.none (by show w0.heap _ ≠ none; rw [hp0]; simp)
  have cq : c1 = cellS .L .red p .null .null k o := by
    cases c1
    simp only at y1 y2 y3 y4 y5 y6 y7
    subst y1 y2 y3 y4 y5 y6 y7
    rfl
  have hu1 : Tree w1.heap (.stk 0) o (.node p .black (.node q .red .nil k .nil) m .nil) := by
    refine ⟨by rw [hh1]; rfl, ⟨hp1, ⟨by rw [hq1, cq]; rfl, trivial, trivial⟩, trivial⟩, ⟨?_, ?_, ⟨0, rfl⟩⟩, ?_, rfl⟩
    · simp [T.ptrs, T.nodes, qp]
    · intro x hx
      simp only [T.ptrs, T.nodes, List.nil_append, List.cons_append, List.map_cons, List.map_nil, List.mem_cons, List.not_mem_nil, or_false] at hx
      rcases hx with rfl | rfl
      · exact qd
      · exact pd
    · refine ⟨1, ?_⟩
      simp [RB, T.color]
  have hr1 : FReach lt w1 := by
    obtain ⟨env, h, hh⟩ := hr0
    refine ⟨env, _, .call (c := .multi (.base (.insert (.stk 0) k))) (r := .multi ⟨.ins q true, 0⟩) hh ha0 ?_⟩
    exact runs_seq (runs_seq (rfl : Runs (pure 0 : M (W K) Nat) (ready w0) 0 (ready w0)) (runs_seq (runs_seq hrun1 rfl) rfl)) rfl
  have hg1 : Good w1 := by
    have e : w1.env = w0.env := x1.env
    exact ⟨by rw [e]; exact hg0.some, by rw [e]; exact hg0.inj, by rw [e]; exact hg0.ctor, hr1.inv.past⟩
  have q0 : q ≠ .null := by obtain ⟨i, rfl⟩ := qd; simp
  have qh : q ≠ .stk 0 := by obtain ⟨i, rfl⟩ := qd; simp
  -- the hinted insertion
  obtain ⟨r, w2, hrun2, c2, rd2, f2, x2, e2, hh2, hp2, hr2, z1, z2, z3, z4, z5, z6, z7, oth2⟩ := wp.runs
    (insertUniqueAt_end (lt := lt) (k := k) (m := m) (w := ready w1) (hdr := .stk 0) (p := p) (Q := fun r w' => ∃ c,
      (∃ i, r = .dyn i) ∧ Fresh (ready w1) w' r ∧ Ext (ready w1) w' ∧ w'.err = none ∧
      w'.heap (.stk 0) = some (hdCell ⟨q, p, o, 3⟩ p) ∧ w'.heap p = some (cellS .L .black (.stk 0) r .null m o) ∧
      w'.heap r = some c ∧ c.parent = p ∧ c.left = .null ∧ c.right = .null ∧ c.color = .red ∧ c.val = some k ∧ c.owner = o ∧ c.count = 0 ∧
      (∀ x, x ≠ .stk 0 → x ≠ p → x ≠ r → w'.heap x = w1.heap x))
      hh1 hp1 (by simp) pn rfl (by simp [hdCell]) rfl hmk (by
        refine wp_insert_left_root (w := (ready w1).addCmp 1) (m := m) hh1 hp1 ⟨0, rfl⟩ pn ph rfl ?_ rfl rfl rfl hkm ?_
        · exact fun h => hg1.not_refused h
        · intro a c H' w' g1 g2 g3 g4 g5 g6 g7 g8 g9 g10 g11 g12 g13 g14 g15
          subst g4
          refine ⟨c, ⟨a, rfl⟩, ⟨g1.none, g1.req⟩, (Ext.addCmp _ _).trans g2, g3, ?_, g6, g7, g8, g9, g10, g11, g12, g13, g14, g15⟩
          rw [g5]
          simp [hdCell, Ne.symm qp]))
  have rp : r ≠ p := by rintro rfl; exact absurd f2.none (by show w1.heap _ ≠ none; rw [hp1]; simp)
  have rq : r ≠ q := by rintro rfl; exact absurd f2.none (by show w1.heap _ ≠ none; rw [hq1]; simp)
  have cr : c2 = cellS .L .red p .null .null k o := by
    cases c2
    simp only at z1 z2 z3 z4 z5 z6 z7
    subst z1 z2 z3 z4 z5 z6 z7
    rfl
  have hq2 : w2.heap q = some c1 := by rw [oth2 q qh qp rq.symm]; exact hq1
  have hr2' : ∃ w3, Runs (destroyTree (.stk 0)) w2 () w3 ∧ w3.heap q ≠ none ∧ w3.heap p = none ∧ w3.heap r = none := by
    have : wp (destroyTree (.stk 0)) w2 (fun _ w3 => w3.heap q ≠ none ∧ w3.heap p = none ∧ w3.heap r = none) := by
      unfold destroyTree
      simp only [wp_bind]
      rw [wp_rd hh2 (by simp)]
      refine wp_mErase (par := .stk 0) (o := o) (t := .node p .black (.node r .red .nil k .nil) m .nil) (hn := hdCell ⟨q, p, o, 3⟩ p)
        ⟨hp2, ⟨by rw [hr2, cr]; rfl, trivial, trivial⟩, trivial⟩ ⟨?_, ?_, ⟨0, rfl⟩⟩ hh2 rfl ?_
      · simp [T.ptrs, T.nodes, rp]
      · intro x hx
        simp only [T.ptrs, T.nodes, List.nil_append, List.cons_append, List.map_cons, List.map_nil, List.mem_cons, List.not_mem_nil, or_false] at hx
        rcases hx with rfl | rfl
        · exact rd2
        · exact pd
      · intro H' k1 k2
        have m1 : H' (.stk 0) = some (hdCell ⟨q, p, o, 3⟩ p) := by
          rw [k2 _ (by obtain ⟨i, rfl⟩ := pd; obtain ⟨j, rfl⟩ := rd2; simp [T.ptrs, T.nodes]), hh2]
        have m2 : H' q ≠ none := by
          rw [k2 _ (by simp [T.ptrs, T.nodes, qp, rq.symm]), hq2]; simp
        have m3 : H' p = none := k1 _ (by simp [T.ptrs, T.nodes])
        have m4 : H' r = none := k1 _ (by simp [T.ptrs, T.nodes])
        rw [wp_dropObj (by exact m1)]
        simp only [World.setHeap_heap, World.setHeap_setHeap]
        refine ⟨?_, ?_, ?_⟩
        · rw [upd_other _ _ qh]; exact m2
        · rw [upd_other _ _ ph]; exact m3
        · rw [upd_other _ _ (by obtain ⟨i, rfl⟩ := rd2; simp)]; exact m4
    obtain ⟨u3, w3, h1, h2⟩ := this.runs
    exact ⟨w3, h1, h2⟩
  obtain ⟨w3, d1, d2, d3, d4⟩ := hr2'
  refine ⟨w1, w2, w3, p, q, r, hr1, hg1, ⟨0, rfl, hu1.ne_none⟩, (contents_iff hu1).2 rfl, hrun2, e2, ?_, ?_, rq, rp, d1, d2, d3, d4⟩
  · exact runs_seq (a := hdCell ⟨q, p, o, 3⟩ p) (s1 := w2) (by simp [Runs, rd, hh2]) rfl
  · exact two_walk hh2 hp2 hq2 (by simp) pn q0 ph qh qp rfl rfl rfl rfl rfl rfl y3 y1 y5

-- `<=` is such a comparator
example : ∃ m k : Nat, decide (m ≤ k) = true ∧ decide (k ≤ m) = true := ⟨2, 2, by decide, by decide⟩

end Nestl.Full
