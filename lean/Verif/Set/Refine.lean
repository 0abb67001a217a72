import Verif.Set.Steps
set_option autoImplicit false
/-
Refinement of the family of mathematical sets (helper lemmas of the set properties), and a concrete reachable state.
-/
namespace Nestl.Set
open Nestl.RB
variable {K : Type}

section
variable {hdr : Ptr} {o o' : Nat} {t t' : T K} {w w' : W K} {lt : K → K → Bool}

/-- The mathematical sets describe all the sets in memory. -/
def Abs (w : W K) (A : Ptr → K → Prop) : Prop :=
  ∀ s o t, Tree w.heap s o t → ∀ x, x ∈ t.nodes.map Prod.snd ↔ A s x

theorem put_same {α : Type} (f : Ptr → α) (s v) : put f s v s = v := by simp [put]
theorem put_other {α : Type} (f : Ptr → α) {s x : Ptr} (v) (h : x ≠ s) : put f s v x = f x := by simp [put, h]

theorem Change.abs (hc : Change w w' hdr t t') (hI : Inv lt w) (ht : Tree w.heap hdr o t) (ht' : Tree w'.heap hdr o' t')
    {A : Ptr → K → Prop} (hA : Abs w A) {P : K → Prop} (hP : ∀ x, x ∈ t'.nodes.map Prod.snd ↔ P x) :
    Abs w' (put A hdr P) := by
  intro s o2 t2 h x
  by_cases e : s = hdr
  · subst e
    obtain ⟨-, rfl⟩ := Tree.unique h ht'
    rw [put_same]; exact hP x
  · rw [put_other _ _ e]
    obtain ⟨i, rfl⟩ := h.ok.hdr
    exact hA _ _ _ (hc.other_inv hI ht e h ht') x

theorem Abs.same {A : Ptr → K → Prop} (hA : Abs w A) (hh : w'.heap = w.heap) : Abs w' A := by
  intro s o t h; rw [hh] at h; exact hA s o t h

theorem equiv_of_cut {k : K} {A B : List (Ptr × K)} (hA : ∀ a ∈ A, lt a.2 k = true)
    (hB : ∀ b ∈ B, lt k b.2 = true) : ∀ y ∈ (A ++ B).map Prod.snd, ¬ Equiv lt y k := by
  intro y hy he
  obtain ⟨z, hz, rfl⟩ := List.mem_map.1 hy
  rw [List.mem_append] at hz
  rcases hz with hz | hz
  · exact absurd (hA z hz) (by simp [he.1])
  · exact absurd (hB z hz) (by simp [he.2])

theorem Effect.abs {c : Call K} {r : Res K} (h : Effect lt w c r w') (hI : Inv lt w) (hw : SWO lt) {A : Ptr → K → Prop}
    (hA : Abs w A) : Abs w' (absStep lt A ⟨c, r, w'.err.isSome⟩) := by
  cases h with
  | create hc he =>
    intro s o2 t2 h x
    simp only [absStep]
    by_cases e : s = .stk w.sp
    · subst e
      obtain ⟨-, rfl⟩ := Tree.unique h hc.tree
      simp [put_same, T.nodes]
    · rw [put_other _ _ e]
      obtain ⟨i, rfl⟩ := h.ok.hdr
      exact hA _ _ _ (hc.other_inv hI h (by simpa using e)) x
  | insertOld ht hn h1 h2 hh he herr _ _ _ =>
    simp only [absStep, herr, Option.isSome_none, Bool.false_eq_true, if_false]
    intro s' o2 t2 h x
    rw [hh] at h
    rename_i s k o t A0 p k' B _ _ _
    by_cases e : s' = s
    · subst e
      obtain ⟨-, rfl⟩ := Tree.unique h ht
      rw [put_same, hA _ _ _ ht x]
      constructor
      · exact Or.inl
      · rintro (h | ⟨rfl, h⟩)
        · exact h
        · exact absurd ⟨h1, h2 hw⟩ (h k' ((hA _ _ _ ht k').1 (by rw [hn]; simp)))
    · rw [put_other _ _ e]; exact hA _ _ _ h x
  | insertFail ht hn hcut hh he herr _ _ =>
    simp only [absStep, herr, Option.isSome_some, if_true]
    exact hA.same hh
  | insertNew ht ht' hn hn' hcut hc hf herr _ _ =>
    simp only [absStep, herr, Option.isSome_none, Bool.false_eq_true, if_false]
    rename_i s k o t t' A0 B a _ _
    refine hc.abs hI ht ht' hA ?_
    intro x
    have hx := hA _ _ _ ht x
    have hne := equiv_of_cut (hcut hw).1 (hcut hw).2
    rw [← hn] at hne
    rw [hn'] 
    have hm : x ∈ (A0 ++ (Ptr.dyn a, k) :: B).map Prod.snd ↔ x ∈ t.nodes.map Prod.snd ∨ x = k := by
      rw [hn]
      simp only [List.map_append, List.map_cons, List.mem_append, List.mem_cons]
      grind
    rw [hm, hx]
    constructor
    · rintro (h | rfl)
      · exact Or.inl h
      · exact Or.inr ⟨rfl, fun y hy => hne y ((hA _ _ _ ht y).2 hy)⟩
    · rintro (h | ⟨rfl, -⟩)
      · exact Or.inl h
      · exact Or.inr rfl
  | eraseKey ht ht' hn hn' hcut hc _ _ _ =>
    simp only [absStep]
    rename_i s k o t t' A0 M B _ _ _
    refine hc.abs hI ht ht' hA ?_
    intro x
    rw [← hA _ _ _ ht x]
    have hne := equiv_of_cut (hcut hw).1 (hcut hw).2.2
    have hM := (hcut hw).2.1
    rw [hn, hn']
    constructor
    · intro hx
      refine ⟨?_, hne x hx⟩
      simp only [List.map_append, List.mem_append] at hx ⊢
      grind
    · rintro ⟨hx, hx2⟩
      simp only [List.map_append, List.mem_append] at hx ⊢
      rcases hx with hx | hx | hx
      · exact Or.inl hx
      · obtain ⟨m, hm, rfl⟩ := List.mem_map.1 hx
        exact absurd (hM m hm) hx2
      · exact Or.inr hx
  | eraseAt ht ht' hn hn' hc _ _ _ =>
    simp only [absStep]
    rename_i s z k o t t' A0 B _ _ _
    refine hc.abs hI ht ht' hA ?_
    intro x
    rw [← hA _ _ _ ht x]
    have hsort := hI.sorted ht hw
    rw [hn] at hsort
    simp only [Sorted, List.pairwise_append, List.pairwise_cons, List.mem_cons] at hsort
    have hk : k ∉ (A0 ++ B).map Prod.snd := by
      intro hk
      obtain ⟨y, hy, hy2⟩ := List.mem_map.1 hk
      rw [List.mem_append] at hy
      rcases hy with hy | hy
      · have := hsort.2.2 y hy (z, k) (Or.inl rfl)
        rw [hy2, hw.irrefl] at this; cases this
      · have := hsort.2.1.1 y hy
        rw [hy2, hw.irrefl] at this; cases this
    rw [hn, hn']
    simp only [List.map_append, List.map_cons, List.mem_append, List.mem_cons] at hk ⊢
    grind
  | eraseRange ht ht' hn hn' hc _ _ =>
    simp only [absStep]
    rename_i s o t t' A0 M B _ _
    refine hc.abs hI ht ht' hA ?_
    intro x
    rw [← hA _ _ _ ht x]
    have hsort := hI.sorted ht hw
    rw [hn] at hsort
    simp only [Sorted, List.pairwise_append, List.mem_append] at hsort
    have hk : ∀ k ∈ M.map Prod.snd, k ∉ (A0 ++ B).map Prod.snd := by
      intro k hkM hk
      obtain ⟨m, hm, rfl⟩ := List.mem_map.1 hkM
      obtain ⟨y, hy, hy2⟩ := List.mem_map.1 hk
      rw [List.mem_append] at hy
      rcases hy with hy | hy
      · have := hsort.2.2 y hy m (Or.inl hm)
        rw [hy2, hw.irrefl] at this; cases this
      · have := hsort.2.1.2.2 m hm y hy
        rw [hy2, hw.irrefl] at this; cases this
    have := hk x
    rw [hn, hn']
    simp only [List.map_append, List.mem_append] at this ⊢
    grind
  | clear ht ht' hc =>
    simp only [absStep]
    exact hc.abs hI ht ht' hA (by simp [T.nodes])
  | findNone _ _ _ _ hh => simp only [absStep]; exact hA.same hh
  | findSome _ _ _ _ hh => simp only [absStep]; exact hA.same hh
  | copySelf he => subst he; simp only [absStep, if_true]; exact hA
  | copyFail hne ht hs ht' hc herr =>
    simp only [absStep, hne, if_false, herr, Option.isSome_some]
    exact hc.abs hI ht ht' hA (by simp [T.nodes])
  | copyOk hne ht hs ht' hl hc herr =>
    simp only [absStep, hne, if_false, herr, Option.isSome_none]
    refine hc.abs hI ht ht' hA ?_
    intro x
    rw [hl.keys, hA _ _ _ hs x]
    simp
  | move ht hc =>
    rename_i s o t _ _
    simp only [absStep]
    intro s' o2 t2 h x
    by_cases e : s' = s
    · subst e
      obtain ⟨-, rfl⟩ := Tree.unique h hc.srcTree
      simp [put_same, T.nodes]
    · rw [put_other _ _ e]
      by_cases e2 : s' = .stk w.sp
      · subst e2
        obtain ⟨-, rfl⟩ := Tree.unique h hc.tree
        rw [put_same]
        exact hA _ _ _ ht x
      · rw [put_other _ _ e2]
        obtain ⟨i, rfl⟩ := h.ok.hdr
        exact hA _ _ _ (hc.other_inv hI ht h e (by simpa using e2)) x
  | destroy ht hc =>
    simp only [absStep]
    intro s' o2 t2 h x
    obtain ⟨i, rfl⟩ := h.ok.hdr
    exact hA _ _ _ (hc.other_inv hI ht h).2 x

theorem Hist.abs {env : Env (TNode K)} {h : List (Entry K)} (hh : Hist lt env h w) (hw : SWO lt) :
    Abs w (absRun lt h) := by
  induction hh with
  | start => intro s o t h; exact absurd rfl h.ne_none
  | call hp hv hr ih =>
    have hI := hp.inv
    have := Effect.abs (Runs.wp (exec_effect hI.ready (Inv.weak hI.ready) (hv.ready hI) rfl) hr) hI.ready hw (ih.same rfl)
    exact this

theorem Effect.good {c : Call K} {r : Res K} (h : Effect lt w c r w') (hI : Inv lt w) (hg : Good w) :
    w'.err = none ∧ Good w' := by
  have hI' := h.inv hI
  have key : w'.env = w.env → Good w' := fun e =>
    ⟨by rw [e]; exact hg.some, by rw [e]; exact hg.inj, by rw [e]; exact hg.ctor, by rw [e]; exact e ▸ hI'.past⟩
  cases h with
  | create hc he => exact ⟨he, key hc.env⟩
  | insertOld _ _ _ _ _ he herr => exact ⟨herr, key he.env⟩
  | insertFail _ _ _ _ _ _ hr => exact absurd hr hg.not_refused
  | insertNew _ _ _ _ _ hc _ he => exact ⟨he, key hc.ext.env⟩
  | eraseKey _ _ _ _ _ hc he => exact ⟨he, key hc.ext.env⟩
  | eraseAt _ _ _ _ hc he => exact ⟨he, key hc.ext.env⟩
  | eraseRange _ _ _ _ hc he => exact ⟨he, key hc.ext.env⟩
  | clear _ _ hc he => exact ⟨he, key hc.ext.env⟩
  | findNone _ _ _ _ _ he herr => exact ⟨herr, key he.env⟩
  | findSome _ _ _ _ _ he herr => exact ⟨herr, key he.env⟩
  | copySelf he herr => subst he; exact ⟨herr, hg⟩
  | copyFail _ _ _ _ _ _ hn => exact absurd hg hn
  | copyOk _ _ _ _ _ hc he => exact ⟨he, key hc.ext.env⟩
  | move _ hc he => exact ⟨he, key hc.env⟩
  | destroy _ hc he => exact ⟨he, key hc.ext.env⟩

end

/-! ### A concrete reachable state: the set {1, 2, 3} -/

/-- Usual order on numbers. -/
def natLt (a b : Nat) : Bool := decide (a < b)

theorem natLt_swo : SWO natLt :=
  ⟨by simp [natLt], by simp only [natLt, decide_eq_true_eq]; omega, by simp only [natLt, decide_eq_true_eq]; omega⟩

/-- Memory never runs out and constructors never fail. -/
def goodEnv : Env (TNode Nat) :=
  { addr := fun k => some k, ctor := fun _ => true, junk := fun _ => ⟨.red, .null, .null, .null, none, 0, 0⟩ }

theorem good_start : Good (start goodEnv) :=
  ⟨fun k => ⟨k, rfl⟩, fun _ _ h => by simpa [start, goodEnv] using h, fun _ => rfl, fun _ h => absurd rfl h⟩

theorem _root_.Nestl.Good.ready {w : W Nat} (h : Good w) : Good (Set.ready w) := ⟨h.some, h.inj, h.ctor, h.past⟩

/-- A state reached by successful calls. -/
def Demo (h : List (Entry Nat)) (w : W Nat) : Prop := Hist natLt goodEnv h w ∧ Good w

theorem Demo.step {h : List (Entry Nat)} {w : W Nat} (hd : Demo h w) {c : Call Nat} (hv : Valid w c) :
    ∃ r w', Demo (⟨c, r, false⟩ :: h) w' ∧ Effect natLt (Set.ready w) c r w' := by
  have hI := hd.1.inv
  obtain ⟨r, w', hr, he⟩ := wp.runs (exec_effect hI.ready (Inv.weak hI.ready) (hv.ready hI) rfl)
  obtain ⟨h1, h2⟩ := he.good hI.ready hd.2.ready
  have := Hist.call hd.1 hv hr
  rw [h1] at this
  exact ⟨r, w', ⟨this, h2⟩, he⟩

theorem sorted_ext {L L' : List Nat} (h : L.Pairwise (· < ·)) (h' : L'.Pairwise (· < ·)) (hm : ∀ x, x ∈ L ↔ x ∈ L') :
    L = L' := by
  induction L generalizing L' with
  | nil =>
    cases L' with
    | nil => rfl
    | cons y L' => exact absurd ((hm y).2 (by simp)) (by simp)
  | cons x L ih =>
    cases L' with
    | nil => exact absurd ((hm x).1 (by simp)) (by simp)
    | cons y L' =>
      rw [List.pairwise_cons] at h h'
      have hxy : x = y := by
        have h1 := (hm x).1 (by simp)
        have h2 := (hm y).2 (by simp)
        rw [List.mem_cons] at h1 h2
        rcases h1 with h1 | h1
        · exact h1
        · rcases h2 with h2 | h2
          · exact h2.symm
          · have := h'.1 x h1; have := h.1 y h2; omega
      subst hxy
      rw [ih h.2 h'.2]
      intro z
      have := hm z
      simp only [List.mem_cons] at this
      constructor
      · intro hz
        rcases this.1 (Or.inr hz) with rfl | h2
        · have := h.1 z hz; omega
        · exact h2
      · intro hz
        rcases this.2 (Or.inr hz) with rfl | h2
        · have := h'.1 z hz; omega
        · exact h2

/-- Two sets; the first has received 2, 3, 1. -/
theorem demo_exists : ∃ h w L, Demo h w ∧ Alive w (.stk 0) ∧ Alive w (.stk 1) ∧ Contents w (.stk 0) L ∧
    L.map Prod.snd = [1, 2, 3] ∧ Contents w (.stk 1) [] := by
  have d0 : Demo [] (start goodEnv) := ⟨Hist.start, good_start⟩
  obtain ⟨r1, w1, d1, e1⟩ := d0.step (c := .create 7) trivial
  cases e1 with
  | create c1 _ =>
  have t1 := c1.tree
  have hs1 : w1.sp = 1 := c1.sp
  obtain ⟨r2, w2, d2, e2⟩ := d1.step (c := .create 8) trivial
  cases e2 with
  | create c2 _ =>
  have hs2 : w2.sp = 2 := c2.sp.trans (by show w1.sp + 1 = 2; omega)
  have a20 : Tree w2.heap (.stk 0) 7 .nil := c2.other d1.1.inv.ready t1
  have a21 : Tree w2.heap (.stk 1) 8 .nil := by
    have := c2.tree
    have e : (Set.ready w1).sp = 1 := hs1
    rw [e] at this; exact this
  have hobj : (Set.ready w1).sp = 1 := hs1
  have hobj0 : (Set.ready (start goodEnv)).sp = 0 := rfl
  rw [hobj] at d2
  -- insertions keep the two objects
  have ins : ∀ {h w} (k : Nat), Demo h w → Alive w (.stk 0) → Tree w.heap (.stk 1) 8 .nil →
      ∃ r w', Demo (⟨.insert (.stk 0) k, r, false⟩ :: h) w' ∧ Alive w' (.stk 0) ∧ Tree w'.heap (.stk 1) 8 .nil := by
    intro h w k hd ha ht1
    have hI := hd.1.inv
    obtain ⟨r, w', hd', he⟩ := hd.step (c := .insert (.stk 0) k) ha
    refine ⟨r, w', hd', ?_⟩
    cases he with
    | insertOld ht _ _ _ hh _ _ =>
      rw [hh]
      exact ⟨⟨0, rfl, by rw [hh]; exact ht.ne_none⟩, ht1⟩
    | insertFail ht _ _ hh _ _ =>
      rw [hh]
      exact ⟨⟨0, rfl, by rw [hh]; exact ht.ne_none⟩, ht1⟩
    | insertNew ht ht' _ _ _ hc _ _ =>
      exact ⟨⟨0, rfl, ht'.ne_none⟩, hc.other hI.ready ht (by simp) ht1 ht'⟩
  obtain ⟨_, w3, d3, a3, b3⟩ := ins 2 d2 ⟨0, rfl, a20.ne_none⟩ a21
  obtain ⟨_, w4, d4, a4, b4⟩ := ins 3 d3 a3 b3
  obtain ⟨_, w5, d5, a5, b5⟩ := ins 1 d4 a4 b4
  obtain ⟨i, o, t, hi, _, ht, hsort⟩ := d5.1.inv.tree a5
  refine ⟨_, w5, t.nodes, d5, a5, ⟨1, rfl, b5.ne_none⟩, (contents_iff ht).2 rfl, ?_, (contents_iff b5).2 rfl⟩
  have hs := hsort natLt_swo
  have habs := d5.1.abs natLt_swo _ _ _ ht
  refine sorted_ext ?_ (by simp) ?_
  · rw [List.pairwise_map]
    simpa [Sorted, natLt] using hs
  · intro x
    rw [habs x]
    simp only [absRun, absStep, put, if_true, Bool.false_eq_true, if_false, hobj0, Equiv, natLt]
    simp
    omega

end Nestl.Set
