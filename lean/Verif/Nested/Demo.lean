import Verif.Nested.PropLemmas
set_option autoImplicit false
/-
Concrete reachable states used by the examples beside the theorems on lists of lists.
-/
namespace Nestl.NL
open Nestl.LL Nestl.LC
variable {V : Type} {ns ns' : NS V} {O O' : AState Ptr} {I I' : AState V}

theorem _root_.Nestl.LC.Sim.nodup {V : Type} {w : W V} {A : AState V} (h : Sim w A) {s : Ptr} {a : Nat} {L : List (Ptr × V)}
    (hs : A s = some (a, L)) : (L.map Prod.fst).Nodup := by
  obtain ⟨σ, h1, h2, rfl⟩ := h
  obtain ⟨ls, hs', rfl⟩ := abs_inv hs
  rw [view_fst]; exact h1.st.nodup s _ hs'

theorem _root_.Nestl.LC.Sim.dyn {V : Type} {w : W V} {A : AState V} (h : Sim w A) {s : Ptr} {a : Nat} {L : List (Ptr × V)}
    (hs : A s = some (a, L)) {x : Ptr × V} (hx : x ∈ L) : ∃ c, x.1 = .dyn c ∧ w.heap x.1 ≠ none := by
  obtain ⟨σ, h1, h2, rfl⟩ := h
  obtain ⟨ls, hs', rfl⟩ := abs_inv hs
  obtain ⟨e, he, rfl⟩ := mem_view.1 hx
  obtain ⟨c, hc⟩ := (h1.st.el s _ hs' e he).1
  exact ⟨c, hc, h1.heap_el hs' he⟩

theorem _root_.Nestl.LC.Sim.ne_obj {V : Type} {w : W V} {A : AState V} (h : Sim w A) {s : Ptr} {a : Nat} {L : List (Ptr × V)}
    (hs : A s = some (a, L)) : ∀ x ∈ L, x.1 ≠ s := by
  intro x hx
  obtain ⟨c, hc, -⟩ := h.dyn hs hx
  obtain ⟨i, rfl, -⟩ := (h.contents hs).2.2
  rw [hc]; simp

theorem _root_.Nestl.LC.Sim.contents_unique {V : Type} {w : W V} {A : AState V} (h : Sim w A) {s : Ptr} {L M : List (Ptr × V)}
    (ha : Alive w s) (h1 : Contents w s L) (h2 : Contents w s M) : L = M := by
  obtain ⟨a, e1⟩ := h.contents_eq ha h1
  obtain ⟨b, e2⟩ := h.contents_eq ha h2
  rw [e1] at e2; cases e2; rfl

/-- The identity of a new element was not in memory before. -/
theorem _root_.Nestl.LC.Sim.fresh_elem {V : Type} {w w' : W V} {A A' : AState V} (h : Sim w A) (h' : Sim w' A') {s : Ptr} {a : Nat}
    {L : List (Ptr × V)} (hs : A' s = some (a, L)) {x : Ptr × V} (hx : x ∈ L) (hu : Unused A x.1) : w.heap x.1 = none := by
  obtain ⟨c, hc, -⟩ := h'.dyn hs hx
  apply Classical.byContradiction
  intro hne
  rcases h.no_leak hne with ⟨i, hi, -⟩ | ⟨t, M, v, ha, hcs, hm⟩
  · rw [hc] at hi; cases hi
  · obtain ⟨b, ht⟩ := h.contents_eq ha hcs
    exact hu t b M v ht hm

/-- A position determines how it divides the list. -/
theorem split_unique {V : Type} {s : Ptr} : ∀ {X X' Y Y' : List (Ptr × V)}, X ++ Y = X' ++ Y' → ((X ++ Y).map Prod.fst).Nodup →
    (∀ x ∈ X ++ Y, x.1 ≠ s) → posOf s Y = posOf s Y' → X = X' ∧ Y = Y'
  | [], [], Y, Y', h, _, _, _ => ⟨rfl, by simpa using h⟩
  | [], x :: X', Y, Y', h, hn, hs, hp => by
    exfalso
    simp only [List.nil_append, List.cons_append] at h
    subst h
    simp only [List.nil_append, List.map_cons, List.map_append, List.nodup_cons, List.mem_append] at hn hs
    cases Y' with
    | nil => exact hs x (by simp) hp
    | cons y Y' =>
      have hp : x.1 = y.1 := hp
      exact hn.1 (.inr (by rw [hp]; simp))
  | x :: X, [], Y, Y', h, hn, hs, hp => by
    exfalso
    simp only [List.nil_append, List.cons_append] at h
    subst h
    simp only [List.cons_append, List.map_cons, List.map_append, List.nodup_cons, List.mem_append] at hn hs
    cases Y with
    | nil => exact hs x (by simp) hp.symm
    | cons y Y =>
      have hp : y.1 = x.1 := hp
      exact hn.1 (.inr (by rw [← hp]; simp))
  | x :: X, x' :: X', Y, Y', h, hn, hs, hp => by
    simp only [List.cons_append, List.cons.injEq] at h
    simp only [List.cons_append, List.map_cons, List.nodup_cons] at hn
    obtain ⟨h1, h2⟩ := split_unique h.2 hn.2 (fun y hy => hs y (by simp [hy])) hp
    exact ⟨by rw [h.1, h1], h2⟩

theorem good_ready {V : Type} {w : W V} (h : Good w) : Good (LC.ready w) := ⟨h.some, h.inj, h.ctor, h.past⟩

/-! ### A run without failures -/

def goodEnvO : Env (LNode Ptr) :=
  { addr := fun k => some k, ctor := fun _ => true, junk := fun _ => ⟨.null, .null, none, 0⟩ }

/-- A state reached by the history `h`, with known lists, in which nothing will be refused. -/
structure DN (h : List (Entry Nat)) (ns : NS Nat) (O : AState Ptr) (I : AState Nat) : Prop where
  hist : ∃ eo ei, Hist eo ei h ns
  goodO : Good ns.o
  goodI : Good ns.i
  sim : NSim ns O I
  owned : Owned h O I

def DN.h {h : List (Entry Nat)} {ns : NS Nat} {O : AState Ptr} {I : AState Nat} (_ : DN h ns O I) : List (Entry Nat) := h

theorem DN.reach {h : List (Entry Nat)} {ns : NS Nat} {O : AState Ptr} {I : AState Nat} (d : DN h ns O I) : Reach ns := by
  obtain ⟨eo, ei, hh⟩ := d.hist
  exact ⟨eo, ei, h, hh⟩

theorem DN.step {h : List (Entry Nat)} {ns : NS Nat} {O : AState Ptr} {I : AState Nat} (d : DN h ns O I) {c : NCall Nat}
    (hv : Valid ns c) : ∃ r ns' O' I', DN (⟨c, r, false⟩ :: h) ns' O' I' ∧ Spec O I c r false O' I' := by
  obtain ⟨r, ns', hr, O', I', hsp, hsim, ⟨k, hadv⟩, ⟨k', hadv'⟩, hg⟩ := (d.sim.call hv).runs
  have he := hg (good_ready d.goodO) d.goodI
  obtain ⟨eo, ei, hh⟩ := d.hist
  have hh' := hh.call hv hr
  have ho := d.owned.call d.sim hv hsp
  rw [isSome_none he] at hsp ho hh'
  exact ⟨r, ns', O', I', ⟨⟨eo, ei, hh'⟩, hadv.good (good_ready d.goodO), hadv'.good d.goodI, hsim, ho⟩, hsp⟩

theorem DN.start : DN [] (start goodEnvO goodEnv) (fun _ => none) (fun _ => none) := by
  refine ⟨⟨_, _, Hist.start⟩, ?_, good_start, NSim.start _ _, fun q => ?_⟩
  · exact ⟨fun k => ⟨k, rfl⟩, fun i j h => by simpa [NL.start, LC.start, goodEnvO] using h, fun _ => rfl, fun a h => absurd rfl h⟩
  · have : ¬ AElem (fun _ => none) q := by rintro ⟨s, a, L, n, hs, -⟩; cases hs
    simp [this, Separate]

theorem DN.push {h : List (Entry Nat)} {ns : NS Nat} {O : AState Ptr} {I : AState Nat} (d : DN h ns O I) {t : Ptr} {b : Nat}
    {L : List (Ptr × Nat)} (ht : I t = some (b, L)) (v : Nat) :
    ∃ ns' x r, DN (⟨.inner (.pushBack t v), r, false⟩ :: h) ns' O (upd I t (some (b, L ++ [(x, v)]))) := by
  obtain ⟨r, ns', O', I', d', hsp⟩ := d.step (c := .inner (.pushBack t v)) ⟨(d.sim.i.contents ht).2.2, by simp⟩
  obtain ⟨⟨b', L', h1, n, -, rfl⟩, rfl⟩ := hsp
  rw [ht] at h1; cases h1
  exact ⟨ns', n, r, d'⟩

theorem map_one {N : List (Ptr × Nat)} {a : Nat} (h : N.map Prod.snd = [a]) : ∃ x, N = [(x, a)] := by
  match N, h with
  | [(x, _)], rfl => exact ⟨x, rfl⟩

theorem map_two {N : List (Ptr × Nat)} {a b : Nat} (h : N.map Prod.snd = [a, b]) : ∃ x y, N = [(x, a), (y, b)] := by
  match N, h with
  | [(x, _), (y, _)], rfl => exact ⟨x, y, rfl⟩

/-- The outer list `s` holds [[4, 7], [4]], the outer list `u` is empty and there is a separate inner list `t` = [4, 7]. -/
theorem demo : ∃ (ns : NS Nat) (s u t m n q r x y x' y' z : Ptr) (h : List (Entry Nat)) (O : AState Ptr) (I : AState Nat),
    DN h ns O I ∧ O s = some (defaultAlloc, [(m, q), (n, r)]) ∧ O u = some (defaultAlloc, []) ∧
    I t = some (defaultAlloc, [(x, 4), (y, 7)]) ∧ I q = some (defaultAlloc, [(x', 4), (y', 7)]) ∧
    I r = some (defaultAlloc, [(z, 4)]) ∧ Separate h t ∧ ¬ IsElem ns t := by
  obtain ⟨_, n1, _, _, d1, ⟨-, s, rfl, -, rfl⟩, rfl⟩ := DN.start.step (c := .outer (.create defaultAlloc)) ⟨trivial, trivial⟩
  obtain ⟨_, n2, _, _, d2, ⟨-, u, rfl, hu, rfl⟩, rfl⟩ := d1.step (c := .outer (.create defaultAlloc)) ⟨trivial, trivial⟩
  have hsu : s ≠ u := by rintro rfl; rw [upd_same] at hu; cases hu
  obtain ⟨_, n3, _, _, d3, ⟨-, t, rfl, -, rfl⟩, rfl⟩ := d2.step (c := .inner (.create defaultAlloc)) ⟨trivial, by simp⟩
  obtain ⟨n4, x, _, d4⟩ := d3.push (upd_same _ _ _) 4
  have hs4 : upd (upd (fun _ => none) s (some (defaultAlloc, []))) u (some (defaultAlloc, [])) s =
      some (defaultAlloc, ([] : List (Ptr × Ptr))) := by rw [upd_other _ _ hsu, upd_same]
  obtain ⟨_, n5, _, _, d5, a, L, h5, n, r, -, rfl, hr, b, K, ht5, N, hN, rfl⟩ := d4.step (c := .pushBack true s t)
    ⟨(d4.sim.o.contents hs4).2.2, (d4.sim.i.contents (upd_same _ _ _)).2.2⟩
  rw [hs4] at h5; cases h5
  rw [upd_same] at ht5; cases ht5
  obtain ⟨z, rfl⟩ := map_one hN.1
  have htr : t ≠ r := by rintro rfl; rw [upd_same] at hr; cases hr
  obtain ⟨n6, y, _, d6⟩ := d5.push (t := t) (b := defaultAlloc) (by rw [upd_other _ _ htr, upd_same]) 7
  obtain ⟨_, n7, _, _, d7, a, L, h7, m, q, -, rfl, hq, b, K, ht7, N, hN7, rfl⟩ := d6.step (c := .pushFront true s t)
    ⟨(d6.sim.o.contents (upd_same _ _ _)).2.2, (d6.sim.i.contents (upd_same _ _ _)).2.2⟩
  rw [upd_same] at h7; cases h7
  rw [upd_same] at ht7; cases ht7
  obtain ⟨x', y', rfl⟩ := map_two hN7.1
  have htq : t ≠ q := by rintro rfl; rw [upd_same] at hq; cases hq
  have hrq : r ≠ q := by rintro rfl; rw [upd_other _ _ htr.symm, upd_same] at hq; cases hq
  have hsep : Separate d7.h t := by unfold DN.h; simp [separate_inner, separate_other]
  refine ⟨n7, s, u, t, m, n, q, r, x, y, x', y', z, _, _, _, d7, upd_same _ _ _, ?_, ?_, ?_, ?_, hsep, ?_⟩
  · rw [upd_other _ _ hsu.symm, upd_other _ _ hsu.symm, upd_same]
  · rw [upd_other _ _ htq, upd_same]; rfl
  · rw [upd_same]
  · rw [upd_other _ _ hrq, upd_other _ _ htr.symm, upd_same]
  · intro he
    exact (d7.owned t).2 ⟨d7.sim.isElem.1 he, hsep⟩

/-- A program that destroys everything in the end. -/
theorem demo_end : ∃ eo ei h, ∃ ns : NS Nat, Hist eo ei h ns ∧ h.length ≥ 8 ∧ (∀ s, ¬ Alive ns.o s) ∧ ∀ q, ¬ Separate h q := by
  obtain ⟨_, n1, _, _, d1, ⟨-, s, rfl, -, rfl⟩, rfl⟩ := DN.start.step (c := .outer (.create defaultAlloc)) ⟨trivial, trivial⟩
  obtain ⟨_, n3, _, _, d3, ⟨-, t, rfl, -, rfl⟩, rfl⟩ := d1.step (c := .inner (.create defaultAlloc)) ⟨trivial, by simp⟩
  obtain ⟨n4, x, _, d4⟩ := d3.push (upd_same _ _ _) 4
  obtain ⟨_, n5, _, _, d5, a, L, h5, n, r, -, rfl, hr, b, K, ht5, N, hN, rfl⟩ := d4.step (c := .pushBack true s t)
    ⟨(d4.sim.o.contents (upd_same _ _ _)).2.2, (d4.sim.i.contents (upd_same _ _ _)).2.2⟩
  rw [upd_same] at h5; cases h5
  rw [upd_same] at ht5; cases ht5
  have htr : t ≠ r := by rintro rfl; rw [upd_same] at hr; cases hr
  obtain ⟨n6, y, _, d6⟩ := d5.push (t := t) (b := defaultAlloc) (by rw [upd_other _ _ htr, upd_same]) 7
  obtain ⟨_, n7, _, _, d7, a, L, h7, m, q, -, rfl, hq, b, K, ht7, hI⟩ := d6.step (c := .pushFront false s t)
    ⟨(d6.sim.o.contents (upd_same _ _ _)).2.2, (d6.sim.i.contents (upd_same _ _ _)).2.2⟩
  rw [upd_same] at h7; cases h7
  have hsep : Separate d7.h t := by unfold DN.h; simp [separate_inner, separate_other]
  obtain ⟨_, n8, _, _, d8, -, a, L, h8, rfl, rfl⟩ := d7.step (c := .destroy s) (d7.sim.o.contents (upd_same _ _ _)).2.2
  have hsep8 : Separate d8.h t := by unfold DN.h; simp [separate_inner, separate_other]
  have hal := (d8.owned t).1.2 (.inr hsep8)
  have hnel : ¬ IsElem n8 t := fun he => (d8.owned t).2 ⟨d8.sim.isElem.1 he, hsep8⟩
  obtain ⟨r9, n9, _, _, d9, ⟨-, a, L, h9, rfl⟩, rfl⟩ := d8.step (c := .inner (.destroy t))
    ⟨d8.sim.i.alive.2 hal, by rintro _ ⟨⟩; exact hnel⟩
  obtain ⟨eo, ei, hh⟩ := d9.hist
  refine ⟨eo, ei, _, n9, hh, by simp, ?_, ?_⟩
  · intro p hp
    have := d9.sim.o.alive.1 hp
    apply this
    rw [upd_apply]; split
    · rfl
    · next h => simp only [upd_other _ _ h]
  · intro p
    simp [Separate]

/-! ### A run with a failure -/

theorem runs_onI {α : Type} {m : M (W V) α} {a : α} {i' : W V} (h : Runs m (setErr ns.i ns.o.err) a i') :
    Runs (onI m) ns a ⟨setErr ns.o i'.err, i'⟩ := by
  have : wp (onI m) ns fun b n => b = a ∧ n = ⟨setErr ns.o i'.err, i'⟩ := by
    rw [wp_onI, wp_iff_runs]; exact ⟨a, i', h, rfl, rfl⟩
  obtain ⟨b, n, h1, rfl, rfl⟩ := this.runs
  exact h1

/-- A history of calls on single lists is a history of calls on inner lists. -/
theorem lift_hist {eo : Env (LNode Ptr)} {ei : Env (LNode V)} {h : List (LC.Entry V)} {w : W V} (hh : LC.Hist ei h w) :
    ∃ h', Hist eo ei h' ⟨setErr (LC.start eo) w.err, w⟩ := by
  induction hh with
  | start => exact ⟨[], Hist.start⟩
  | @call h w w' c r _ hv hr ih =>
    obtain ⟨h', ih⟩ := ih
    have hv' : Valid (⟨setErr (LC.start eo) w.err, w⟩ : NS V) (.inner c) := by
      refine ⟨hv, ?_⟩
      rintro q - ⟨s, X, n, Y, ⟨i, -, hi⟩, -⟩
      exact hi rfl
    have hr' : Runs (exec (.inner c)) (ready ⟨setErr (LC.start eo) w.err, w⟩) r ⟨setErr (LC.start eo) w'.err, w'⟩ :=
      runs_onI (ns := ready ⟨setErr (LC.start eo) w.err, w⟩) hr
    exact ⟨_, ih.call hv' hr'⟩

/-- Blocks of inner lists are addresses that the environment provides. -/
theorem Hist.cells {eo : Env (LNode Ptr)} {ei : Env (LNode V)} {h : List (Entry V)} (hh : Hist eo ei h ns) :
    ns.i.env = ei ∧ ∀ a, ns.i.heap (.dyn a) ≠ none → ∃ k, ei.addr k = some a := by
  induction hh with
  | start => exact ⟨rfl, fun a ha => absurd rfl ha⟩
  | call hh hv hr ih =>
    obtain ⟨O, I, _, hsim⟩ := hh.sim
    obtain ⟨O', I', hsp, hsim', -, ⟨k, hadv⟩, -⟩ := Runs.wp (hsim.call hv) hr
    refine ⟨hadv.env.trans ih.1, fun a ha => ?_⟩
    rcases hadv.cells a ha with h1 | ⟨_, j, b, hb, -, -, hj⟩
    · exact ih.2 a h1
    · cases hb
      exact ⟨j, by rw [← ih.1]; exact hj⟩

theorem demo_refused : ∃ (ns ns' : NS Nat) (s t : Ptr) (r : Res) (L : List (Ptr × Nat)), Reach ns ∧ Alive ns.o s ∧
    Contents ns.o s [] ∧ Alive ns.i t ∧ Contents ns.i t L ∧ L.map Prod.snd = [4] ∧ Good ns.o ∧
    Runs (exec (.pushBack true s t)) (ready ns) r ns' ∧ ns'.o.err ≠ none := by
  obtain ⟨w, h, t, p, hh, ha, hc, -⟩ := demo_oneBlock
  obtain ⟨h0, hh0⟩ := lift_hist (eo := goodEnvO) hh
  obtain ⟨O, I, hsim⟩ := Reach.sim ⟨_, _, _, hh0⟩
  obtain ⟨b, ht⟩ := hsim.i.contents_eq ha hc
  have hv : Valid (⟨setErr (LC.start goodEnvO) w.err, w⟩ : NS Nat) (.outer (.create 0)) := ⟨trivial, trivial⟩
  obtain ⟨r1, n1, hr1, O1, I1, ⟨⟨-, s, -, -, rfl⟩, rfl⟩, hsim1, ⟨k, hadv⟩, -⟩ := (hsim.call hv).runs
  have hh1 := hh0.call hv hr1
  have hg1 : Good n1.o := by
    refine hadv.good ⟨fun k => ⟨k, rfl⟩, fun i j h => ?_, fun _ => rfl, fun a h => absurd rfl h⟩
    simpa [NL.ready, LC.ready, setErr, LC.start, goodEnvO] using h
  have c1 := hsim1.o.contents (upd_same _ s _)
  have c2 := hsim1.i.contents ht
  have hv2 : Valid n1 (.pushBack true s t) := ⟨c1.2.2, c2.2.2⟩
  obtain ⟨r2, n2, hr2, O2, I2, hsp, hsim2, -⟩ := (hsim1.call hv2).runs
  refine ⟨n1, n2, s, t, r2, [(p, 4)], ⟨_, _, _, hh1⟩, c1.2.2, c1.1, c2.2.2, c2.1, rfl, hg1, hr2, ?_⟩
  intro he
  obtain ⟨a, L, -, hsp⟩ := hsp
  rw [if_neg (by simp [he])] at hsp
  obtain ⟨n, q, -, -, hq, b', K, ht', N, hN, rfl⟩ := hsp
  rw [ht] at ht'; cases ht'
  obtain ⟨z, rfl⟩ := map_one hN.1
  have htq : t ≠ q := by rintro rfl; rw [ht] at hq; cases hq
  have hcell := (hh1.call hv2 hr2).cells
  have hq2 : upd I1 q (some (defaultAlloc, [(z, 4)])) q = some (defaultAlloc, [(z, 4)]) := upd_same _ _ _
  have ht2 : upd I1 q (some (defaultAlloc, [(z, 4)])) t = some (b, [(p, 4)]) := by rw [upd_other _ _ htq, ht]
  obtain ⟨c, hc1, hc2⟩ := hsim2.i.dyn hq2 (x := (z, 4)) (by simp)
  obtain ⟨e, he1, he2⟩ := hsim2.i.dyn ht2 (x := (p, 4)) (by simp)
  have hc0 : c = 0 := by
    obtain ⟨k, hk⟩ := hcell.2 c (by rw [← hc1]; exact hc2)
    cases hk; rfl
  have he0 : e = 0 := by
    obtain ⟨k, hk⟩ := hcell.2 e (by rw [← he1]; exact he2)
    cases hk; rfl
  subst hc0 he0
  exact htq (hsim2.i.disj ht2 hq2 (x := (p, 4)) (y := (z, 4)) (by simp) (by simp) (he1.trans hc1.symm)).1

end Nestl.NL
