import Verif.Multi.Steps
import Verif.Set.PropLemmas
set_option autoImplicit false
/-
Property theorems of the tree with equivalent elements (C68-C71).  The vocabulary is defined in `Verif/Multi/Client.lean` and
`Verif/Set/Client.lean`; the programs are in `Verif/RBTree/Model.lean`, `ModelExtra.lean` and `ModelEqual.lean`.
-/
namespace Nestl.Multi
open Nestl.RB Nestl.Set
variable {K : Type} {lt : K → K → Bool} {w w' : W K} {s pos : Ptr} {k : K} {L : List (Ptr × K)}

/-! ### A concrete state: equivalent elements that can be told apart -/

theorem MEffect.good {c : MCall K} {r : MRes K} (h : MEffect lt w c r w') (hI : MInv lt w) (hg : Good w) :
    w'.err = none ∧ Good w' := by
  have hI' := h.inv hI
  have key : w'.env = w.env → Good w' := fun e =>
    ⟨by rw [e]; exact hg.some, by rw [e]; exact hg.inj, by rw [e]; exact hg.ctor, by rw [e]; exact e ▸ hI'.past⟩
  cases h with
  | fail _ hr => exact absurd hr hg.not_refused
  | new _ _ _ _ _ hc _ he => exact ⟨he, key hc.ext.env⟩
  | base h _ =>
    cases h with
    | create hc he => exact ⟨he, key hc.env⟩
    | insertOld _ _ _ _ _ he herr => exact ⟨herr, key he.env⟩
    | insertFail _ _ _ _ _ _ hr => exact absurd hr hg.not_refused
    | insertNew _ _ _ _ _ hc _ he => exact ⟨he, key hc.ext.env⟩
    | eraseKey _ _ _ _ _ hc he => exact ⟨he, key hc.ext.env⟩
    | eraseAt _ _ _ _ hc he => exact ⟨he, key hc.ext.env⟩
    | eraseRange _ _ _ _ hc he => exact ⟨he, key hc.ext.env⟩
    | clear _ _ hc he => exact ⟨he, key hc.ext.env⟩
    | findNone _ _ _ _ _ he herr => exact ⟨herr, key he.env⟩
    | findSome _ _ _ _ _ he herr => exact ⟨herr, key he.env⟩
    | copySelf he herr => subst he; exact ⟨herr, hg⟩
    | copyFail _ _ _ _ _ _ hn => exact absurd hg hn
    | copyOk _ _ _ _ _ hc he => exact ⟨he, key hc.ext.env⟩
    | move _ hc he => exact ⟨he, key hc.env⟩
    | destroy _ hc he => exact ⟨he, key hc.ext.env⟩

/-- Pairs ordered by their first components. -/
def pairLt (a b : Nat × Nat) : Bool := decide (a.1 < b.1)

theorem pairLt_swo : SWO pairLt :=
  ⟨by simp [pairLt], by simp only [pairLt, decide_eq_true_eq]; omega, by simp only [pairLt, decide_eq_true_eq]; omega⟩

/-- Memory never runs out and constructors never fail. -/
def pairEnv : Env (TNode (Nat × Nat)) :=
  { addr := fun k => some k, ctor := fun _ => true, junk := fun _ => ⟨.red, .null, .null, .null, none, 0, 0⟩ }

/-- A sequence of equal insertions into the object 0. -/
theorem demo_ins {h : List (MEntry (Nat × Nat))} {w : W (Nat × Nat)} (hh : MHist pairLt pairEnv h w) (hg : Good w)
    (ha : Alive w (.stk 0)) (k : Nat × Nat) : ∃ r w', MHist pairLt pairEnv (⟨.equal .upper (.stk 0) k, r, false⟩ :: h) w' ∧ Good w' ∧
      Alive w' (.stk 0) := by
  have hI := hh.inv
  obtain ⟨r, w', hr, he⟩ := wp.runs (mexec_effect (c := .equal .upper (.stk 0) k) hI.ready (MValid.ready hI ha) rfl)
  obtain ⟨h1, h2⟩ := he.good hI.ready ⟨hg.some, hg.inj, hg.ctor, hg.past⟩
  have := MHist.call hh (c := .equal .upper (.stk 0) k) ha hr
  rw [h1] at this
  refine ⟨r, w', this, h2, 0, rfl, ?_⟩
  cases he with
  | fail _ _ _ hh => rw [hh]; obtain ⟨i, _, h⟩ := ha; exact h
  | new _ ht' => exact ht'.ne_none

/-- A state in which the keys of object 0 are (1,0), (2,0), (2,1), (3,0). -/
theorem mdemo : ∃ h w p q r z, MHist pairLt pairEnv h w ∧ Good w ∧ Alive w (.stk 0) ∧
    Contents w (.stk 0) [(p, (1, 0)), (q, (2, 0)), (r, (2, 1)), (z, (3, 0))] := by
  have hI := InvP.start (P := fun L => SWO pairLt → WSorted pairLt L) pairEnv
  obtain ⟨r, w1, hr, he⟩ := wp.runs (mexec_effect (lt := pairLt) (c := .base (.create 7)) hI.ready trivial rfl)
  have hg : Good (ready (start pairEnv)) :=
    ⟨fun k => ⟨k, rfl⟩, fun _ _ h => by simpa [start, pairEnv, ready] using h, fun _ => rfl, fun _ h => absurd rfl h⟩
  obtain ⟨h1, h2⟩ := he.good hI.ready hg
  have h0 := MHist.call (lt := pairLt) (env := pairEnv) MHist.start (c := .base (.create 7)) trivial hr
  rw [h1] at h0
  obtain ⟨ha, hres⟩ : Alive w1 (.stk 0) ∧ r.res = .obj (.stk 0) := by
    cases he with
    | base he _ =>
      cases he with
      | create hc _ => exact ⟨⟨0, rfl, hc.tree.ne_none⟩, rfl⟩
  obtain ⟨r2, w2, g2, k2, a2⟩ := demo_ins h0 h2 ha (2, 0)
  obtain ⟨r3, w3, g3, k3, a3⟩ := demo_ins g2 k2 a2 (1, 0)
  obtain ⟨r4, w4, g4, k4, a4⟩ := demo_ins g3 k3 a3 (2, 1)
  obtain ⟨r5, w5, g5, k5, a5⟩ := demo_ins g4 k4 a4 (3, 0)
  obtain ⟨o, t, ht⟩ : ∃ o t, Tree w5.heap (.stk 0) o t := by
    obtain ⟨i, o, t, hi, _, ht, _⟩ := g5.inv.tree a5
    exact ⟨o, t, hi ▸ ht⟩
  have hk := g5.kabs pairLt_swo _ _ _ ht
  have : seqRun pairLt [⟨.equal .upper (.stk 0) (3, 0), r5, false⟩, ⟨.equal .upper (.stk 0) (2, 1), r4, false⟩,
      ⟨.equal .upper (.stk 0) (1, 0), r3, false⟩, ⟨.equal .upper (.stk 0) (2, 0), r2, false⟩, ⟨.base (.create 7), r, false⟩]
      (.stk 0) = [(1, 0), (2, 0), (2, 1), (3, 0)] := by
    simp [seqRun, seqStep, put, hres, addUpper, pairLt]
  have hk := hk.trans this
  have hc := (contents_iff ht).2 rfl
  match hn : t.nodes, hk with
  | [(p, _), (q, _), (r, _), (z, _)], hk =>
    simp at hk
    obtain ⟨rfl, rfl, rfl, rfl⟩ := hk
    rw [hn] at hc
    exact ⟨_, w5, p, q, r, z, g5, k5, a5, hc⟩

/-! ### C68 -/

/-- C68: after any history of calls (in any environment), iterating over a live object yields exactly the sequence of keys
that the history describes: every insertion next to equivalent elements adds one element, after all equivalent elements
(`m_emplace_equal`), before all of them (`m_insert_equal_lower`) or next to the hint (`m_emplace_hint_equal`); the sequence
never decreases. -/
theorem multiset_history_refinement {env : Env (TNode K)} {h : List (MEntry K)} (hh : MHist lt env h w) (hs : SWO lt)
    (ha : Alive w s) :
    ∃ L, Contents w s L ∧ L.map Prod.snd = seqRun lt h s ∧ (L.map Prod.snd).Pairwise (fun a b => lt b a = false) := by
  obtain ⟨i, o, t, rfl, _, ht, hsort⟩ := hh.inv.tree ha
  refine ⟨t.nodes, (contents_iff ht).2 rfl, hh.kabs hs _ _ _ ht, ?_⟩
  rw [List.pairwise_map]
  exact hsort hs

example : ∃ h w, MHist pairLt pairEnv h w ∧ Alive w (.stk 0) ∧ seqRun pairLt h (.stk 0) = [(1, 0), (2, 0), (2, 1), (3, 0)] := by
  obtain ⟨h, w, p, q, r, z, h0, hg, ha, hc⟩ := mdemo
  refine ⟨h, w, h0, ha, ?_⟩
  obtain ⟨L, c1, c2, _⟩ := multiset_history_refinement h0 pairLt_swo ha
  obtain ⟨rfl, -⟩ := Nestl.Runs.det hc c1
  exact c2.symm

/-- The three ways to insert, on sequences of positions and keys. -/
def Where (lt : K → K → Bool) (m : Mode) (k : K) (s : Ptr) (A B : List (Ptr × K)) : Prop :=
  match m with
  | .upper => (∀ x ∈ A, lt k x.2 = false) ∧ ∀ x ∈ B, lt k x.2 = true
  | .lower => (∀ x ∈ A, lt x.2 k = true) ∧ ∀ x ∈ B, lt x.2 k = false
  | .hint pos => ∀ A0 B0, A ++ B = A0 ++ B0 → pos = posOf s B0 →
      ((∃ x ∈ A0, lt k x.2 = true) → Where lt .upper k s A B) ∧
      ((∃ x ∈ B0, lt x.2 k = true) → Where lt .lower k s A B) ∧
      ((∀ x ∈ A0, lt k x.2 = false) → (∀ x ∈ B0, lt x.2 k = false) → A = A0)
termination_by (match m with | .hint _ => 1 | _ => 0)

theorem split_unique {o : Nat} {t : T K} {A0 B0 A1 B1 : List (Ptr × K)} (ht : Tree w.heap s o t) (h0 : t.nodes = A0 ++ B0)
    (h1 : t.nodes = A1 ++ B1) (e : firstP s B0 = firstP s B1) : A0 = A1 ∧ B0 = B1 := by
  have hnd := ht.nodup
  have e0 := h0.symm.trans h1
  cases B0 with
  | nil =>
    cases B1 with
    | nil => simpa using e0
    | cons b B1 =>
      rw [firstP_nil, firstP_cons] at e
      refine absurd e.symm (ht.node_ne_hdr ?_)
      rw [T.ptrs, h1]; simp
  | cons b B0 =>
    cases B1 with
    | nil =>
      rw [firstP_nil, firstP_cons] at e
      refine absurd e (ht.node_ne_hdr ?_)
      rw [T.ptrs, h0]; simp
    | cons b1 B1 =>
      obtain ⟨b, kb⟩ := b
      obtain ⟨b1, kb1⟩ := b1
      simp only [firstP_cons] at e
      subst e
      rw [h0] at hnd
      obtain ⟨e1, e2, e3⟩ := nodup_split hnd e0
      exact ⟨e1, by rw [e2, e3]⟩

/-- C68, C69: one insertion next to equivalent elements.  If the node cannot be created, an error is reported, `end()` is
returned and nothing is changed.  Otherwise exactly one new element is added, its iterator is returned, all the other
elements keep their positions and nodes, and the new element stands where the mode says. -/
theorem multiset_insert {m : Mode} (hr : MReach lt w) (hs : SWO lt) (ha : Alive w s) (hc : Contents w s L)
    (hv : MValid lt w (.equal m s k)) :
    ∃ r w', Runs (mrun lt (.equal m s k)) (ready w) r w' ∧
      ((Refused w ∧ r = .pos s ∧ w'.err ≠ none ∧ w'.heap = w.heap ∧ Contents w' s L) ∨
       (¬ Refused w ∧ w'.err = none ∧ ∃ A B p, L = A ++ B ∧ r = .pos p ∧ p ∉ L.map Prod.fst ∧ w.heap p = none ∧
          Contents w' s (A ++ (p, k) :: B) ∧ Where lt m k s A B)) ∧
      ∀ x Lx, Alive w x → x ≠ s → Contents w x Lx → Contents w' x Lx := by
  obtain ⟨o0, t0, ht0, rfl⟩ := hr.tree ha hc
  obtain ⟨⟨r, n⟩, w', h1, h2, h3⟩ := hr.step hv
  unfold mexec at h1
  obtain ⟨n', w1, g1, g2⟩ := runs_seq_inv h1
  obtain ⟨r', w2, g3, g4⟩ := runs_seq_inv g2
  cases g4
  have hI := hr.inv
  have hw1 : w1 = ready w := by
    have := MValid.idx (Q := fun _ w' => w' = ready w) hI.ready (hv.ready hI) (fun _ _ => rfl)
    exact Nestl.Runs.wp (Q := fun _ w' => w' = ready w) this g1
  subst hw1
  refine ⟨r, w', g3, ?_, ?_⟩
  · cases h3 with
    | fail ht hR he hh herr =>
      refine Or.inl ⟨hR, rfl, by rw [herr]; simp, hh, ?_⟩
      exact (contents_iff (w := w') (o := o0) (t := t0) (by rw [hh]; exact ht0)).2 rfl
    | new ht ht' hn hn' hp hch hf herr hR hidx =>
      rename_i o t t' A B a c _ _ _
      obtain ⟨-, rfl⟩ := Tree.unique (by exact ht) ht0
      refine Or.inr ⟨hR, herr, A, B, .dyn a, hn, rfl, ?_, hf.none, (contents_iff ht').2 hn'.symm, ?_⟩
      · intro hm
        obtain ⟨c', hc', -⟩ := Rep_alloc ht.rep _ hm
        rw [hf.none] at hc'; cases hc'
      · have hp := hp hs
        cases m with
        | upper => simp only [Where]; exact hp
        | lower => simp only [Where]; exact hp
        | hint pos =>
          obtain ⟨o2, t2, A0, B0, ht2, hn2, hz, rfl⟩ := hidx
          obtain ⟨-, rfl⟩ := Tree.unique (by exact ht2) ht
          have hp : Near lt k _ _ A B := hp
          rw [show t2.nodes.take A0.length = A0 by rw [hn2]; simp, show t2.nodes.drop A0.length = B0 by rw [hn2]; simp] at hp
          simp only [Where]
          intro A1 B1 e1 e2
          rw [posOf_eq] at e2
          obtain ⟨rfl, rfl⟩ := split_unique ht hn2 (hn.trans e1) (hz.symm.trans e2)
          exact ⟨hp.2.2.1, hp.2.2.2, fun a b => (hp.2.1 ⟨a, b⟩).1⟩
  · intro x Lx hx hne hcx
    obtain ⟨o2, t2, h4, rfl⟩ := hr.tree hx hcx
    obtain ⟨j, rfl, _⟩ := hx
    cases h3 with
    | fail ht hR he hh herr =>
      exact (contents_iff (w := w') (o := o2) (t := t2) (by rw [hh]; exact h4)).2 rfl
    | new ht ht' hn hn' hp hch =>
      exact (contents_iff (hch.other hr.inv.ready ht hne h4 ht')).2 rfl

example : ∃ w L, MReach pairLt w ∧ SWO pairLt ∧ Alive w (.stk 0) ∧ Contents w (.stk 0) L ∧
    MValid pairLt w (.equal .upper (.stk 0) (2, 7)) ∧ MValid pairLt w (.equal .lower (.stk 0) (2, 7)) ∧
    (∃ p, (p, (2, 1)) ∈ L ∧ MValid pairLt w (.equal (.hint p) (.stk 0) (2, 7))) ∧ ¬ Refused w := by
  obtain ⟨h, w, p, q, r, z, h0, hg, ha, hc⟩ := mdemo
  refine ⟨w, _, ⟨_, _, h0⟩, pairLt_swo, ha, hc, ha, ha, ⟨r, by simp, ha, pairLt_swo.asym, _, hc, Or.inr ⟨(2, 1), by simp⟩⟩, hg.not_refused⟩

-- the three modes give three different sequences on this state
example : addUpper pairLt (2, 7) [(1, 0), (2, 0), (2, 1), (3, 0)] = [(1, 0), (2, 0), (2, 1), (2, 7), (3, 0)] ∧
    addLower pairLt (2, 7) [(1, 0), (2, 0), (2, 1), (3, 0)] = [(1, 0), (2, 7), (2, 0), (2, 1), (3, 0)] ∧
    addNear pairLt (2, 7) [(1, 0), (2, 0)] [(2, 1), (3, 0)] = [(1, 0), (2, 0), (2, 7), (2, 1), (3, 0)] := by decide

/-! ### C69: cost -/

/-- C69: with a hint next to a right place for the key, the hinted insertion calls the comparator at most three times,
whatever the size; with any hint at most `2 log2(n+1) + 3` times, as do the insertions without a hint. -/
theorem multiset_insert_comparisons {m : Mode} {r : Res K} (hr : MReach lt w) (hs : SWO lt) (ha : Alive w s)
    (hc : Contents w s L) (hv : MValid lt w (.equal m s k)) (hrun : Runs (mrun lt (.equal m s k)) (ready w) r w') :
    w'.nCmp ≤ w.nCmp + 2 * Nat.log2 (L.length + 1) + 3 ∧
    ∀ A B, m = .hint (posOf s B) → L = A ++ B → (∀ x ∈ A, lt k x.2 = false) → (∀ x ∈ B, lt x.2 k = false) → w'.err = none →
      w'.nCmp ≤ w.nCmp + 3 := by
  obtain ⟨o0, t0, ht0, rfl⟩ := hr.tree ha hc
  have hI := hr.inv
  obtain ⟨⟨r', n⟩, w2, h1, h2, h3⟩ := hr.step hv
  unfold mexec at h1
  obtain ⟨n', w1, g1, g2⟩ := runs_seq_inv h1
  obtain ⟨r'', w3, g3, g4⟩ := runs_seq_inv g2
  cases g4
  have hw1 : w1 = ready w := by
    have := MValid.idx (Q := fun _ w' => w' = ready w) hI.ready (hv.ready hI) (fun _ _ => rfl)
    exact Nestl.Runs.wp (Q := fun _ w' => w' = ready w) this g1
  subst hw1
  obtain ⟨rfl, rfl⟩ := Nestl.Runs.det hrun g3
  have hh := ht0.height_le
  have e0 : (ready w).nCmp = w.nCmp := rfl
  cases h3 with
  | fail ht hR he hhp herr hcost =>
    obtain ⟨-, rfl⟩ := Tree.unique (by exact ht) ht0
    exact ⟨by omega, fun A B _ _ _ _ h => by rw [herr] at h; cases h⟩
  | new ht ht' hn hn' hp hch hf herr hR hidx hc1 hc2 hc3 =>
    obtain ⟨-, rfl⟩ := Tree.unique (by exact ht) ht0
    refine ⟨by omega, ?_⟩
    rintro A B rfl e1 e2 e3 -
    obtain ⟨o2, t2, A0, B0, ht2, hn2, hz, rfl⟩ := hidx
    obtain ⟨-, rfl⟩ := Tree.unique (by exact ht2) ht
    rw [posOf_eq] at hz
    obtain ⟨rfl, rfl⟩ := split_unique ht hn2 e1 hz.symm
    have := hc3 _ rfl hs ⟨by rw [hn2]; simpa using e2, by rw [hn2]; simpa using e3⟩
    omega

example : ∃ w A B r w', MReach pairLt w ∧ Alive w (.stk 0) ∧ Contents w (.stk 0) (A ++ B) ∧ A.length = 2 ∧ B.length = 2 ∧
    MValid pairLt w (.equal (.hint (posOf (.stk 0) B)) (.stk 0) (2, 7)) ∧
    Runs (mrun pairLt (.equal (.hint (posOf (.stk 0) B)) (.stk 0) (2, 7))) (ready w) r w' ∧ w'.err = none ∧
    (∀ x ∈ A, pairLt (2, 7) x.2 = false) ∧ (∀ x ∈ B, pairLt x.2 (2, 7) = false) := by
  obtain ⟨h, w, p, q, r, z, h0, hg, ha, hc⟩ := mdemo
  have hv : MValid pairLt w (.equal (.hint r) (.stk 0) (2, 7)) := ⟨ha, pairLt_swo.asym, _, hc, Or.inr ⟨(2, 1), by simp⟩⟩
  obtain ⟨x, w', h1, h2, -⟩ := multiset_insert ⟨_, _, h0⟩ pairLt_swo ha hc hv
  refine ⟨w, [(p, (1, 0)), (q, (2, 0))], [(r, (2, 1)), (z, (3, 0))], x, w', ⟨_, _, h0⟩, ha, hc, rfl, rfl, hv, h1, ?_, by simp [pairLt], by simp [pairLt]⟩
  rcases h2 with ⟨h2, -⟩ | ⟨-, h2, -⟩
  · exact absurd h2 hg.not_refused
  · exact h2

/-! ### C70: searching and erasing with equivalent elements -/

/-- C70: `find(k)` returns the first element equivalent to `k`, or `end()` if there is none. -/
theorem multiset_find (hr : MReach lt w) (hs : SWO lt) (ha : Alive w s) (hc : Contents w s L) :
    ∃ p w', Runs (find lt s k) w p w' ∧ w'.heap = w.heap ∧
      ((p = s ∧ ∀ x ∈ L, ¬ Equiv lt x.2 k) ∨
       ∃ A k' B, L = A ++ (p, k') :: B ∧ Equiv lt k' k ∧ ∀ x ∈ A, ¬ Equiv lt x.2 k) := by
  obtain ⟨o, t, ht, rfl⟩ := hr.tree ha hc
  have hsort := hr.inv.prop ht hs
  suffices hw : wp (find lt s k) w (fun p w' => w'.heap = w.heap ∧
      ((p = s ∧ ∀ x ∈ t.nodes, ¬ Equiv lt x.2 k) ∨
       ∃ A k' B, t.nodes = A ++ (p, k') :: B ∧ Equiv lt k' k ∧ ∀ x ∈ A, ¬ Equiv lt x.2 k)) by
    obtain ⟨p, w', h1, h2⟩ := hw.runs
    exact ⟨p, w', h1, h2⟩
  refine wp_find ht ?_ ?_
  · intro n A B hn _ hB hcut
    have hcut := hcut hs hsort
    refine ⟨rfl, Or.inl ⟨rfl, ?_⟩⟩
    rw [hn]
    intro x hx he
    rw [List.mem_append] at hx
    rcases hx with hx | hx
    · exact Bool.noConfusion ((hcut.1 x hx).symm.trans he.1)
    · cases B with
      | nil => cases hx
      | cons b B =>
        have hb := hB b B rfl
        have : lt k x.2 = true := by
          rw [List.mem_cons] at hx
          rcases hx with rfl | hx
          · exact hb
          · refine hs.lt_of_lt_le hb ?_
            rw [hn] at hsort
            simp only [WSorted, List.pairwise_append, List.pairwise_cons] at hsort
            exact hsort.2.1.1 x hx
        exact Bool.noConfusion (this.symm.trans he.2)
  · intro n A p k' B hn _ e1 e2 hcut
    have hcut := hcut hs hsort
    refine ⟨rfl, Or.inr ⟨A, k', B, hn, ⟨e1, e2⟩, ?_⟩⟩
    intro x hx he
    exact Bool.noConfusion ((hcut.1 x hx).symm.trans he.1)

example : ∃ w L, MReach pairLt w ∧ SWO pairLt ∧ Alive w (.stk 0) ∧ Contents w (.stk 0) L ∧
    (L.map Prod.snd).filter (fun x => !pairLt x (2, 5) && !pairLt (2, 5) x) = [(2, 0), (2, 1)] := by
  obtain ⟨h, w, p, q, r, z, h0, hg, ha, hc⟩ := mdemo
  exact ⟨w, _, ⟨_, _, h0⟩, pairLt_swo, ha, hc, by simp; decide⟩

/-- C70: `lower_bound(k)` is the position of the first element not less than `k`, `upper_bound(k)` that of the first element
greater than `k`. -/
theorem multiset_bounds (hr : MReach lt w) (hs : SWO lt) (ha : Alive w s) (hc : Contents w s L) :
    (∃ A B w', L = A ++ B ∧ (∀ x ∈ A, lt x.2 k = true) ∧ (∀ x ∈ B, lt x.2 k = false) ∧
      Runs (lowerBoundKey lt s k) w (posOf s B) w' ∧ w'.heap = w.heap) ∧
    ∃ A B w', L = A ++ B ∧ (∀ x ∈ A, lt k x.2 = false) ∧ (∀ x ∈ B, lt k x.2 = true) ∧
      Runs (upperBoundKey lt s k) w (posOf s B) w' ∧ w'.heap = w.heap := by
  obtain ⟨o, t, ht, rfl⟩ := hr.tree ha hc
  have hsort := hr.inv.prop ht hs
  constructor
  · obtain ⟨p, w', h1, A, B, h2, h3, rfl, h4⟩ := wp.runs (m := lowerBoundKey lt s k) (s := w)
      (Q := fun p w' => ∃ A B, t.nodes = A ++ B ∧ LCut lt k A B ∧ p = posOf s B ∧ w'.heap = w.heap) (by
      simp only [lowerBoundKey, wp_bind, wp_rd ht.cell ht.hdr_ne]
      refine wp_lowerBound ht.rep ht.null_notMem ?_
      intro n A B h1 h2 h3 h4
      exact ⟨A, B, h1, h4 hs hsort, (posOf_eq _ _).symm, rfl⟩)
    exact ⟨A, B, w', h2, h3.1, h3.2, h1, h4⟩
  · obtain ⟨p, w', h1, A, B, h2, h3, rfl, h4⟩ := wp.runs (m := upperBoundKey lt s k) (s := w)
      (Q := fun p w' => ∃ A B, t.nodes = A ++ B ∧ UCut lt k A B ∧ p = posOf s B ∧ w'.heap = w.heap) (by
      simp only [upperBoundKey, wp_bind, wp_rd ht.cell ht.hdr_ne]
      refine wp_upperBound ht.rep ht.null_notMem ?_
      intro n A B h1 h2 h3 h4
      exact ⟨A, B, h1, h4 hs hsort, (posOf_eq _ _).symm, rfl⟩)
    exact ⟨A, B, w', h2, h3.1, h3.2, h1, h4⟩

example : ∃ w L, MReach pairLt w ∧ SWO pairLt ∧ Alive w (.stk 0) ∧ Contents w (.stk 0) L ∧ L.length = 4 := by
  obtain ⟨h, w, p, q, r, z, h0, hg, ha, hc⟩ := mdemo
  exact ⟨w, _, ⟨_, _, h0⟩, pairLt_swo, ha, hc, rfl⟩

/-- C70: `equal_range(k)` delimits exactly the elements equivalent to `k`; `count(k)` is their number, and `erase(k)` removes
exactly them, returns their number and releases their nodes. -/
theorem multiset_equal_range (hr : MReach lt w) (hs : SWO lt) (ha : Alive w s) (hc : Contents w s L) :
    ∃ A M B w1 w2 w3, L = A ++ (M ++ B) ∧ (∀ x ∈ A, lt x.2 k = true) ∧ (∀ x ∈ M, Equiv lt x.2 k) ∧ (∀ x ∈ B, lt k x.2 = true) ∧
      Runs (equalRange lt s k) w (posOf s (M ++ B), posOf s B) w1 ∧ w1.heap = w.heap ∧
      Runs (count lt s k) w M.length w2 ∧ w2.heap = w.heap ∧
      Runs (exec lt (.eraseKey s k)) (ready w) (.num M.length) w3 ∧ Contents w3 s (A ++ B) ∧ w3.err = none ∧
      ∀ x ∈ M, w3.heap x.1 = none := by
  obtain ⟨o, t, ht, rfl⟩ := hr.tree ha hc
  have hsort := hr.inv.prop ht hs
  have uniq : ∀ {A M B A' M' B' : List (Ptr × K)}, t.nodes = A ++ (M ++ B) → ECut lt k A M B → t.nodes = A' ++ (M' ++ B') →
      ECut lt k A' M' B' → A = A' ∧ M = M' ∧ B = B' := by
    have flt : ∀ {A M B : List (Ptr × K)}, t.nodes = A ++ (M ++ B) → ECut lt k A M B →
        A = t.nodes.filter (fun x => lt x.2 k) ∧ M = t.nodes.filter (fun x => !lt x.2 k && !lt k x.2) ∧
        B = t.nodes.filter (fun x => lt k x.2) := by
      intro A M B hn hcut
      rw [hn]
      simp only [List.filter_append]
      refine ⟨?_, ?_, ?_⟩
      · rw [filter_all (L := A), filter_none (L := M), filter_none (L := B)]
        · simp
        · intro x hx; exact hs.asymm (hcut.2.2 x hx)
        · intro x hx; exact (hcut.2.1 x hx).1
        · intro x hx; exact hcut.1 x hx
      · rw [filter_none (L := A), filter_all (L := M), filter_none (L := B)]
        · simp
        · intro x hx; simp [hcut.2.2 x hx]
        · intro x hx; simp [hcut.2.1 x hx]
        · intro x hx; simp [hcut.1 x hx]
      · rw [filter_none (L := A), filter_none (L := M), filter_all (L := B)]
        · simp
        · intro x hx; exact hcut.2.2 x hx
        · intro x hx; exact (hcut.2.1 x hx).2
        · intro x hx; exact hs.asymm (hcut.1 x hx)
    intro A M B A' M' B' h1 h2 h3 h4
    obtain ⟨a1, a2, a3⟩ := flt h1 h2
    obtain ⟨b1, b2, b3⟩ := flt h3 h4
    exact ⟨a1.trans b1.symm, a2.trans b2.symm, a3.trans b3.symm⟩
  obtain ⟨p, w1, h1, A, M, B, h2, h3, rfl, h4⟩ := wp.runs (m := equalRange lt s k) (s := w)
    (Q := fun p w' => ∃ A M B, t.nodes = A ++ (M ++ B) ∧ ECut lt k A M B ∧ p = (posOf s (M ++ B), posOf s B) ∧
      w'.heap = w.heap) (by
    refine wp_equalRange ht ?_
    intro n A M B h1 h2 h3
    exact ⟨A, M, B, h1, h3 hs hsort, by rw [posOf_eq, posOf_eq], rfl⟩)
  obtain ⟨m, w2, g1, A', M', B', g2, g3, rfl, g4⟩ := wp.runs (m := count lt s k) (s := w)
    (Q := fun p w' => ∃ A M B, t.nodes = A ++ (M ++ B) ∧ ECut lt k A M B ∧ p = M.length ∧ w'.heap = w.heap) (by
    refine wp_count ht ?_
    intro n A M B h1 h2 h3
    exact ⟨A, M, B, h2, h3 hs hsort, rfl, rfl⟩)
  obtain ⟨rfl, rfl, rfl⟩ := uniq h2 h3 g2 g3
  obtain ⟨r, w3, k1, k2⟩ := (exec_effect (c := .eraseKey s k) hr.inv.ready (InvP.weakOf hr.inv.ready) ha rfl).runs
  cases k2 with
  | eraseKey ht0 ht' hn hn' hcut hch herr hgone _ =>
    obtain ⟨-, rfl⟩ := Tree.unique (by exact ht0) ht
    obtain ⟨rfl, rfl, rfl⟩ := uniq h2 h3 hn (hcut hs)
    exact ⟨_, _, _, w1, w2, w3, h2, h3.1, h3.2.1, h3.2.2, h1, h4, g1, g4, k1, (contents_iff ht').2 hn'.symm, herr, hgone⟩

example : ∃ w L, MReach pairLt w ∧ SWO pairLt ∧ Alive w (.stk 0) ∧ Contents w (.stk 0) L ∧
    (L.map Prod.snd).filter (fun x => !pairLt x (2, 5) && !pairLt (2, 5) x) = [(2, 0), (2, 1)] := by
  obtain ⟨h, w, p, q, r, z, h0, hg, ha, hc⟩ := mdemo
  exact ⟨w, _, ⟨_, _, h0⟩, pairLt_swo, ha, hc, by simp; decide⟩

/-! ### C71: safety of histories with equivalent elements -/

/-- C71: every valid call on every reachable state terminates without any fault, and the resulting state is again reachable
(`m_emplace_equal`, `m_insert_equal_lower` and the calls of a set for every comparator, `m_emplace_hint_equal` for every
asymmetric comparator). -/
theorem multiset_memory_safe {c : MCall K} (hr : MReach lt w) (hv : MValid lt w c) :
    ∃ r w', Runs (mexec lt c) (ready w) r w' ∧ MReach lt w' := by
  obtain ⟨r, w', h1, h2, _⟩ := hr.step hv
  exact ⟨r, w', h1, h2⟩

example : ¬ SWO (fun _ _ : Nat => true) ∧ ∃ w, MReach (fun _ _ : Nat => true) w ∧
    MValid (fun _ _ : Nat => true) w (.equal .lower (.stk 0) 3) := by
  refine ⟨fun h => Bool.noConfusion (h.irrefl 0), ?_⟩
  obtain ⟨r, w1, _, r1, e1⟩ := MReach.step (lt := fun _ _ : Nat => true) (w := start goodEnv) (c := .base (.create 7))
    ⟨_, _, MHist.start⟩ trivial
  refine ⟨w1, r1, ?_⟩
  cases e1 with
  | base he _ =>
    cases he with
    | create hc _ => exact ⟨0, rfl, hc.tree.ne_none⟩

/-- C71: nothing is ever leaked: every allocated block is a node of exactly one live object, and once all objects are
destroyed no memory is allocated. -/
theorem multiset_no_leak {a : Nat} (hr : MReach lt w) (hm : w.heap (.dyn a) ≠ none) :
    ∃ s L k, Alive w s ∧ Contents w s L ∧ (.dyn a, k) ∈ L ∧
      ∀ s' L' k', Alive w s' → Contents w s' L' → (.dyn a, k') ∈ L' → s' = s := by
  have hI := hr.inv
  obtain ⟨i, o, t, ht, hin⟩ := hI.cover a hm
  obtain ⟨k, hk⟩ := mem_ptrs_iff.1 hin
  refine ⟨.stk i, t.nodes, k, ⟨i, rfl, ht.ne_none⟩, (contents_iff ht).2 rfl, hk, ?_⟩
  intro s' L' k' ha hc hk'
  obtain ⟨o2, t2, ht2, rfl⟩ := hr.tree ha hc
  obtain ⟨j, rfl⟩ := ht2.ok.hdr
  by_cases e : j = i
  · rw [e]
  · exact absurd hin (hI.disj ht2 ht e _ (mem_ptrs_iff.2 ⟨k', hk'⟩))

example : ∃ w a, MReach pairLt w ∧ w.heap (.dyn a) ≠ none := by
  obtain ⟨h, w, p, q, r, z, h0, hg, ha, hc⟩ := mdemo
  obtain ⟨o, t, ht, hL⟩ := MReach.tree ⟨_, _, h0⟩ ha hc
  have hm : q ∈ t.ptrs := by rw [T.ptrs, ← hL]; simp
  obtain ⟨a, rfl⟩ := ht.ok.dyn q hm
  obtain ⟨n, hn, _⟩ := Rep_alloc ht.rep _ hm
  exact ⟨w, a, ⟨_, _, h0⟩, by rw [hn]; simp⟩

end Nestl.Multi
