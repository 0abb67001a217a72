import Verif.Nested.Sim
import Verif.LinkedList.Props2
set_option autoImplicit false
/-
Auxiliary lemmas for `Verif/Nested/Props.lean` and the concrete states used by its examples.
-/
namespace Nestl.NL
open Nestl.LL Nestl.LC
variable {V : Type} {ns ns' : NS V} {σo : Sg Ptr} {σi : Sg V} {O O' : AState Ptr} {I I' : AState V}

theorem J.ready (h : J ns σo σi) : J (NL.ready ns) σo σi := ⟨h.o.ready, h.oo, h.i, h.io, h.link⟩

theorem isElem_ready (h : J ns σo σi) {q : Ptr} : IsElem (ready ns) q ↔ IsElem ns q :=
  (isElem_iff h.ready).trans (isElem_iff h).symm

/-- Validity does not depend on the error object. -/
theorem valid_ready (h : J ns σo σi) {c : NCall V} (hv : Valid ns c) : Valid (ready ns) c := by
  have kp : ∀ u p, Alive ns.o u → IsPos ns.o u p → IsPos (LC.ready ns.o) u p := by
    rintro u p ha ⟨X, Y, hc, rfl⟩
    obtain ⟨lu, hu⟩ := (alive_iff h.o).1 ha
    exact ⟨X, Y, (contents_iff h.o.ready hu).2 ((contents_iff h.o hu).1 hc), rfl⟩
  cases c with
  | outer c => exact ⟨hv.1, LC.valid_ready h.o hv.2⟩
  | inner c => exact ⟨hv.1, fun q hq he => hv.2 q hq ((isElem_ready h).1 he)⟩
  | insert b s pos t => exact ⟨hv.1, kp _ _ hv.1 hv.2.1, hv.2.2⟩
  | pushBack b s t => exact hv
  | pushFront b s t => exact hv
  | erase s pos => exact LC.valid_ready h.o (c := .erase s pos) hv
  | popBack s => exact LC.valid_ready h.o (c := .popBack s) hv
  | popFront s => exact LC.valid_ready h.o (c := .popFront s) hv
  | clear s => exact LC.valid_ready h.o (c := .clear s) hv
  | copy d s => exact LC.valid_ready h.o (c := .copy d s) hv
  | moveAssign s t => exact LC.valid_ready h.o (c := .moveAssign s t) hv
  | destroy s => exact LC.valid_ready h.o (c := .destroy s) hv

theorem NSim.call (h : NSim ns O I) {c : NCall V} (hv : Valid ns c) :
    wp (exec c) (ready ns) (NPost (ready ns) O I c) := by
  obtain ⟨σo, σi, hj, rfl, rfl⟩ := h
  exact exec_sim hj.ready rfl (valid_ready hj hv)

theorem NSim.o (h : NSim ns O I) : Sim ns.o O := by
  obtain ⟨σo, σi, hj, rfl, rfl⟩ := h
  exact ⟨σo, hj.o, hj.oo, rfl⟩

theorem NSim.i (h : NSim ns O I) : Sim ns.i I := by
  obtain ⟨σo, σi, hj, rfl, rfl⟩ := h
  exact ⟨σi, hj.i, hj.io, rfl⟩

theorem NSim.link (h : NSim ns O I) : ALinked O I := by
  obtain ⟨σo, σi, hj, rfl, rfl⟩ := h
  exact linked_iff.1 hj.link

theorem NSim.start (eo : Env (LNode Ptr)) (ei : Env (LNode V)) : NSim (start eo ei) (fun _ => none) (fun _ => none) := by
  obtain ⟨A, h1, σ, h2, h3, h4⟩ := (LC.Hist.start (env := eo)).sim
  cases h1
  obtain ⟨B, h5, τ, h6, h7, h8⟩ := (LC.Hist.start (env := ei)).sim
  cases h5
  have hσ : ∀ s, σ s = none := fun s => abs_none.1 (by rw [← h4])
  refine ⟨σ, τ, ⟨h2, h3, h6, h7, ?_, ?_⟩, h4, h8⟩
  · intro s ls e hs; rw [hσ] at hs; cases hs
  · intro s ls e t lt f hs; rw [hσ] at hs; cases hs

theorem Hist.sim {eo : Env (LNode Ptr)} {ei : Env (LNode V)} {h : List (Entry V)} (hh : Hist eo ei h ns) :
    ∃ O I, SpecRun h O I ∧ NSim ns O I := by
  induction hh with
  | start => exact ⟨_, _, SpecRun.start, NSim.start eo ei⟩
  | call _ hv hr ih =>
    obtain ⟨O, I, hA, hsim⟩ := ih
    obtain ⟨O', I', hsp, hsim', _⟩ := Runs.wp (hsim.call hv) hr
    exact ⟨O', I', .call hA hsp, hsim'⟩

theorem Reach.sim (h : Reach ns) : ∃ O I, NSim ns O I := by
  obtain ⟨eo, ei, h, hh⟩ := h
  obtain ⟨O, I, _, hs⟩ := hh.sim
  exact ⟨O, I, hs⟩

theorem Reach.next (h : Reach ns) {c : NCall V} {r : Res} (hv : Valid ns c) (hr : Runs (exec c) (ready ns) r ns') :
    Reach ns' := by
  obtain ⟨eo, ei, h, hh⟩ := h
  exact ⟨eo, ei, _, hh.call hv hr⟩

/-! ### The lists determine the memory -/

theorem el_ext {V : Type} {a : Nat} : ∀ {l m : List (El V)}, (∀ e ∈ l, e.own = a) → (∀ e ∈ m, e.own = a) →
    view l = view m → l = m
  | [], [], _, _, _ => rfl
  | [], _ :: _, _, _, h => by simp [view] at h
  | _ :: _, [], _, _, h => by simp [view] at h
  | x :: l, y :: m, h1, h2, h => by
    simp only [view, List.map_cons, List.cons.injEq, Prod.mk.injEq] at h
    have hxy : x = y := by
      have a1 := h1 x (by simp)
      have a2 := h2 y (by simp)
      obtain ⟨x1, x2, x3⟩ := x
      obtain ⟨y1, y2, y3⟩ := y
      obtain ⟨⟨h3, h4⟩, h5⟩ := h
      simp only at h3 h4 a1 a2
      rw [h3, h4, a1, a2]
    rw [hxy, el_ext (fun e he => h1 e (by simp [he])) (fun e he => h2 e (by simp [he])) h.2]

theorem abs_inj {V : Type} {σ τ : Sg V} (h1 : Own σ) (h2 : Own τ) (h : abs σ = abs τ) : σ = τ := by
  funext s
  cases hs : σ s with
  | none =>
    have : abs τ s = none := by rw [← h]; exact abs_none.2 hs
    exact (abs_none.1 this).symm
  | some ls =>
    have : abs τ s = some (ls.alloc, view ls.els) := by rw [← h]; exact abs_some hs
    obtain ⟨m, ht, hv⟩ := abs_inv this
    have : ls.els = m := el_ext (a := ls.alloc) (h1 s _ hs) (h2 s ⟨ls.alloc, m⟩ ht) hv
    rw [ht, ← this]

theorem _root_.Nestl.LC.Sim.heap_eq {V : Type} {w w' : W V} {A : AState V} (h : Sim w A) (h' : Sim w' A) : w'.heap = w.heap := by
  obtain ⟨σ, h1, h2, rfl⟩ := h
  obtain ⟨τ, h3, h4, h5⟩ := h'
  obtain rfl := abs_inj h2 h4 h5
  exact NL.heap_eq h1 h3

theorem _root_.Nestl.LC.Sim.contents_eq {V : Type} {w : W V} {A : AState V} (h : Sim w A) {s : Ptr} (ha : Alive w s) {L : List (Ptr × V)}
    (hc : Contents w s L) : ∃ a, A s = some (a, L) := by
  obtain ⟨σ, h1, h2, rfl⟩ := h
  obtain ⟨ls, hs⟩ := (alive_iff h1).1 ha
  exact ⟨ls.alloc, by rw [abs_some hs, (contents_iff h1 hs).1 hc]⟩

/-- Lists described equally before and after are unchanged. -/
theorem _root_.Nestl.LC.Sim.unchanged {V : Type} {w w' : W V} {A A' : AState V} (h : Sim w A) (h' : Sim w' A') {S : List Ptr}
    (hS : ∀ u, u ∉ S → A u ≠ none → A' u = A u) : Unchanged w w' S := by
  intro u hu ha
  have h1 := h.alive.1 ha
  have h2 := hS u hu h1
  refine ⟨h'.alive.2 (by rw [h2]; exact h1), fun L hL => ?_⟩
  obtain ⟨a, hA⟩ := h.contents_eq ha hL
  exact (h'.contents (h2.trans hA)).1

/-- Everything in memory belongs to a live list. -/
theorem _root_.Nestl.LC.Sim.no_leak {V : Type} {w : W V} {A : AState V} (h : Sim w A) {p : Ptr} (hp : w.heap p ≠ none) :
    Alive w p ∨ ∃ s L v, Alive w s ∧ Contents w s L ∧ (p, v) ∈ L := by
  obtain ⟨σ, h, ho, rfl⟩ := h
  rcases h.st.cover p (by rw [Ne, dat_none]; exact hp) with h1 | ⟨s, ls, hs, hm⟩
  · exact .inl ((alive_iff h).2 (Option.ne_none_iff_exists'.1 h1))
  · obtain ⟨e, he, rfl⟩ := mem_ptrs.1 hm
    exact .inr ⟨s, view ls.els, e.v, (alive_iff h).2 ⟨_, hs⟩, (contents_iff h hs).2 rfl, List.mem_map.2 ⟨e, he, rfl⟩⟩

/-- An element belongs to one list only. -/
theorem _root_.Nestl.LC.Sim.disj {V : Type} {w : W V} {A : AState V} (h : Sim w A) {s t : Ptr} {a b : Nat} {L M : List (Ptr × V)}
    (hs : A s = some (a, L)) (ht : A t = some (b, M)) {x y : Ptr × V} (hx : x ∈ L) (hy : y ∈ M) (hxy : x.1 = y.1) :
    s = t ∧ x = y := by
  obtain ⟨σ, h, ho, rfl⟩ := h
  obtain ⟨ls, hs', rfl⟩ := abs_inv hs
  obtain ⟨lt, ht', rfl⟩ := abs_inv ht
  have hst : s = t := by
    apply Classical.byContradiction
    intro hne
    exact h.st.disj s t _ _ hs' ht' hne _ (mem_view_ptrs hx) (hxy ▸ mem_view_ptrs hy)
  subst hst
  rw [hs'] at ht'
  injection ht' with ht'
  injection ht' with _ ht'
  subst ht'
  refine ⟨rfl, ?_⟩
  have hn : ((view ls).map Prod.fst).Nodup := by rw [view_fst]; exact h.st.nodup s _ hs'
  obtain ⟨i, hi, rfl⟩ := List.getElem_of_mem hx
  obtain ⟨j, hj, rfl⟩ := List.getElem_of_mem hy
  have h1 : ((view ls).map Prod.fst)[i]'(by simpa using hi) = ((view ls).map Prod.fst)[j]'(by simpa using hj) := by
    simpa using hxy
  have := (List.getElem_inj hn).1 h1
  subst this; rfl

/-- The elements of a list that is gone are gone from memory. -/
theorem _root_.Nestl.LC.Sim.gone {V : Type} {w w' : W V} {A A' : AState V} (h : Sim w A) (h' : Sim w' A') {q : Ptr} {b : Nat}
    {L : List (Ptr × V)} (hq : A q = some (b, L)) (hg : A' q = none) (hA : ∀ u, A' u ≠ none → A' u = A u) :
    ¬ Alive w' q ∧ ∀ x ∈ L, w'.heap x.1 = none := by
  refine ⟨fun ha => h'.alive.1 ha hg, ?_⟩
  intro x hx
  apply Classical.byContradiction
  intro hne
  rcases h'.no_leak hne with ha | ⟨u, M, v, ha, hc, hm⟩
  · obtain ⟨i, hi, -⟩ := ha
    obtain ⟨σ, h1, h2, rfl⟩ := h
    obtain ⟨ls, hs, rfl⟩ := abs_inv hq
    obtain ⟨e, he, rfl⟩ := mem_view.1 hx
    obtain ⟨c, hc⟩ := (h1.st.el q _ hs e he).1
    rw [hc] at hi; cases hi
  · obtain ⟨c, hu⟩ := h'.contents_eq ha hc
    have hu2 : A u = some (c, M) := by rw [← hA u (by rw [hu]; simp), hu]
    obtain ⟨rfl, -⟩ := h.disj hq hu2 hx hm rfl
    rw [hg] at hu; cases hu

/-! ### Who owns the inner lists -/

/-- `q` is an element of an outer list. -/
def AElem (O : AState Ptr) (q : Ptr) : Prop := ∃ s a L n, O s = some (a, L) ∧ (n, q) ∈ L

theorem NSim.isElem (h : NSim ns O I) {q : Ptr} : IsElem ns q ↔ AElem O q := by
  constructor
  · rintro ⟨s, X, n, Y, ha, hc⟩
    obtain ⟨a, hs⟩ := h.o.contents_eq ha hc
    exact ⟨s, a, _, n, hs, by simp⟩
  · rintro ⟨s, a, L, n, hs, hm⟩
    obtain ⟨X, Y, rfl⟩ := List.append_of_mem hm
    have := h.o.contents hs
    exact ⟨s, X, n, Y, this.2.2, this.1⟩

theorem structural_elem {c : Call Ptr} {r : Res} {b : Bool} (hc : Structural c) (hsp : LC.Spec O c r b O') {q : Ptr} :
    AElem O' q ↔ AElem O q := by
  constructor
  · rintro ⟨s, a, L, n, hs, hm⟩
    obtain ⟨t, b, M, ht, hm'⟩ := structural_sub hc hsp s a L _ hs hm
    exact ⟨t, b, M, n, ht, hm'⟩
  · rintro ⟨s, a, L, n, hs, hm⟩
    obtain ⟨t, b, M, ht, hm', -⟩ := spec_stable hsp hs hm (by
      cases c <;> first | exact hc.elim | exact id)
    exact ⟨t, b, M, n, ht, hm'⟩

/-- The inner list objects after a call on inner lists. -/
theorem inner_alive {c : Call V} {r : Res} {b : Bool} (hsp : LC.Spec I c r b I') {q : Ptr} :
    I' q ≠ none ↔ (I q ≠ none ∧ c ≠ .destroy q) ∨
      (((∃ a, c = .create a) ∨ ∃ s, c = .move s) ∧ r = .obj q) := by
  have one : ∀ {u : Ptr} {x y : Nat × List (Ptr × V)}, I u = some y → (upd I u (some x) q ≠ none ↔ I q ≠ none) := by
    intro u x y hu; rw [upd_apply]; split
    · next h => subst h; simp [hu]
    · exact Iff.rfl
  have two : ∀ {u v : Ptr} {x y z t : Nat × List (Ptr × V)}, I u = some z → I v = some t →
      (upd (upd I u (some x)) v (some y) q ≠ none ↔ I q ≠ none) := by
    intro u v x y z t hu hv; rw [upd_apply]; split
    · next h => subst h; simp [hv]
    · exact one hu
  cases c
  case create a =>
    obtain ⟨-, s, rfl, hs, rfl⟩ := hsp
    rw [upd_apply]; split
    · next h => subst h; simp
    · next h => simp [Ne.symm h]
  case move s =>
    obtain ⟨-, d, a, L, rfl, hd, hs, rfl⟩ := hsp
    rw [upd_apply]; split
    · next h => subst h; simp
    · next h => rw [one hs]; simp [Ne.symm h]
  case destroy s =>
    obtain ⟨-, a, L, hs, rfl⟩ := hsp
    rw [upd_apply]; split
    · next h => subst h; simp
    · next h => simp [Ne.symm h]
  case insert s pos v =>
    obtain ⟨a, X, Y, hs, -, h⟩ := hsp
    split at h
    · rw [h.2]; simp
    · obtain ⟨n, -, -, rfl⟩ := h; rw [one hs]; simp
  case pushBack s v =>
    obtain ⟨a, L, hs, h⟩ := hsp
    split at h
    · rw [h]; simp
    · obtain ⟨n, -, rfl⟩ := h; rw [one hs]; simp
  case pushFront s v =>
    obtain ⟨a, L, hs, h⟩ := hsp
    split at h
    · rw [h]; simp
    · obtain ⟨n, -, rfl⟩ := h; rw [one hs]; simp
  case insertN s pos n v => obtain ⟨_, _, _, _, _, hs, -, -, -, -, rfl⟩ := hsp; rw [one hs]; simp
  case insertRange s pos vs => obtain ⟨_, _, _, _, _, hs, -, -, -, -, rfl⟩ := hsp; rw [one hs]; simp
  case erase s pos => obtain ⟨-, _, _, _, _, hs, -, rfl⟩ := hsp; rw [one hs]; simp
  case eraseRange s f l => obtain ⟨-, _, _, _, _, hs, -, -, -, rfl⟩ := hsp; rw [one hs]; simp
  case popBack s => obtain ⟨-, _, _, _, hs, rfl⟩ := hsp; rw [one hs]; simp
  case popFront s => obtain ⟨-, _, _, _, hs, rfl⟩ := hsp; rw [one hs]; simp
  case clear s => obtain ⟨-, _, _, hs, rfl⟩ := hsp; rw [one hs]; simp
  case assignN s n v => obtain ⟨_, _, _, _, hs, -, -, -, rfl⟩ := hsp; rw [one hs]; simp
  case assignVals s vs => obtain ⟨_, _, _, _, hs, -, -, -, rfl⟩ := hsp; rw [one hs]; simp
  case assignRange s t f l => obtain ⟨_, _, _, _, _, _, _, _, hs, -, -, -, -, -, -, rfl⟩ := hsp; rw [one hs]; simp
  case copy d s => obtain ⟨_, _, _, _, _, _, hs, -, -, -, -, rfl⟩ := hsp; rw [one hs]; simp
  case moveAssign s t =>
    obtain ⟨-, _, _, _, hs, ht, rfl⟩ := hsp
    split
    · rw [one hs]; simp
    · rw [two hs ht]; simp
  case swap s t => obtain ⟨-, _, _, _, hs, ht, rfl⟩ := hsp; rw [two hs ht]; simp
  case merge lt s t => obtain ⟨-, _, _, _, hs, ht, -, _, -, -, rfl⟩ := hsp; rw [two hs ht]; simp
  case spliceAll s pos t => obtain ⟨-, -, _, _, _, _, hs, -, ht, rfl⟩ := hsp; rw [two hs ht]; simp
  case spliceOne s pos t it =>
    obtain ⟨-, a, ⟨-, _, _, _, _, _, hs, -, ht, -, rfl⟩ | ⟨-, _, _, _, _, hs, -, -, rfl⟩ | ⟨-, _, _, _, _, hs, -, -, rfl⟩⟩ := hsp
    · rw [two hs ht]; simp
    · rw [one hs]; simp
    · rw [one hs]; simp
  case spliceRange s pos t f l =>
    obtain ⟨-, a, ⟨-, _, _, _, _, _, hs, -, ht, -, -, rfl⟩ | ⟨-, _, _, _, _, hs, -, -, -, rfl⟩ | ⟨-, _, _, _, _, hs, -, -, -, rfl⟩⟩ := hsp
    · rw [two hs ht]; simp
    · rw [one hs]; simp
    · rw [one hs]; simp
  case sort lt s => obtain ⟨-, _, _, _, hs, -, rfl⟩ := hsp; rw [one hs]; simp

theorem separate_inner {c : Call V} {r : Res} {b : Bool} {h : List (Entry V)} {q : Ptr} :
    Separate (⟨.inner c, r, b⟩ :: h) q ↔ (Separate h q ∧ c ≠ .destroy q) ∨
      (((∃ a, c = .create a) ∨ ∃ s, c = .move s) ∧ r = .obj q) := by
  cases c <;> cases r <;> simp [Separate, eq_comm, or_comm, and_comm]

theorem separate_other {c : NCall V} (hc : ∀ c', c ≠ .inner c') {r : Res} {b : Bool} {h : List (Entry V)} {q : Ptr} :
    Separate (⟨c, r, b⟩ :: h) q ↔ Separate h q := by
  cases c <;> first | rfl | exact absurd rfl (hc _)

/-- Live inner lists are elements or separate objects, and not both. -/
def Owned (h : List (Entry V)) (O : AState Ptr) (I : AState V) : Prop :=
  ∀ q, (I q ≠ none ↔ AElem O q ∨ Separate h q) ∧ ¬ (AElem O q ∧ Separate h q)

theorem newList_alive {copy : Bool} {t q p : Ptr} (h : NewList copy I t q I') : I' p ≠ none ↔ I p ≠ none ∨ p = q := by
  obtain ⟨hq, b, L, ht, h⟩ := h
  split at h
  · obtain ⟨N, -, rfl⟩ := h
    rw [upd_apply]; split
    · next h => simp [h]
    · next h => simp [h]
  · rw [h, upd_apply]; split
    · next h => simp [h]
    · next h =>
      rw [upd_apply]; split
      · next h1 => simp [h1, ht]
      · simp [h]

/-- Insertion of the element `q`. -/
theorem elem_insert {s n q : Ptr} {a : Nat} {X Y : List (Ptr × Ptr)} (hs : O s = some (a, X ++ Y)) {p : Ptr} :
    AElem (upd O s (some (a, X ++ (n, q) :: Y))) p ↔ AElem O p ∨ p = q := by
  constructor
  · rintro ⟨u, b, L, m, hu, hm⟩
    rw [upd_apply] at hu; split at hu
    · cases hu
      simp only [List.mem_append, List.mem_cons, Prod.mk.injEq] at hm
      rcases hm with h1 | h1 | h1
      · exact .inl ⟨s, a, _, m, hs, by simp [h1]⟩
      · exact .inr h1.2
      · exact .inl ⟨s, a, _, m, hs, by simp [h1]⟩
    · exact .inl ⟨u, b, L, m, hu, hm⟩
  · rintro (⟨u, b, L, m, hu, hm⟩ | rfl)
    · by_cases h : u = s
      · subst h
        rw [hs] at hu; cases hu
        refine ⟨u, a, _, m, upd_same _ _ _, ?_⟩
        simp only [List.mem_append, List.mem_cons] at hm ⊢
        rcases hm with h1 | h1 <;> simp [h1]
      · exact ⟨u, b, L, m, by rw [upd_other _ _ h]; exact hu, hm⟩
    · exact ⟨s, a, _, n, upd_same _ _ _, by simp⟩

theorem Owned.insert {h : List (Entry V)} {copy : Bool} {s t n q : Ptr} {a : Nat} {X Y : List (Ptr × Ptr)} (ho : Owned h O I)
    (hs : O s = some (a, X ++ Y)) (hn : NewList copy I t q I') : Owned h (upd O s (some (a, X ++ (n, q) :: Y))) I' := by
  intro p
  obtain ⟨h1, h2⟩ := ho p
  rw [elem_insert hs, newList_alive hn, h1]
  refine ⟨by grind, ?_⟩
  rintro ⟨h3 | rfl, h4⟩
  · exact h2 ⟨h3, h4⟩
  · exact h1.2 (.inr h4) hn.1

/-- Replacing the elements `L` of `s`, by `L'`. -/
theorem elem_replace (hl : ALinked O I) {s : Ptr} {a : Nat} {L L' : List (Ptr × Ptr)} (hs : O s = some (a, L))
    {x : Option (Nat × List (Ptr × Ptr))} (hx : ∀ y, x = some y → y = (a, L')) (hx0 : x = none → L' = [])
    (hL' : ∀ y ∈ L', y ∈ L)
    {R : List Ptr} (hR : ∀ p, p ∈ R ↔ ∃ n, (n, p) ∈ L ∧ (n, p) ∉ L')
    (hd : ∀ t b M y z, O t = some (b, M) → y ∈ L → z ∈ M → y.1 = z.1 → s = t ∧ y = z) {p : Ptr} :
    AElem (upd O s x) p ↔ AElem O p ∧ p ∉ R := by
  constructor
  · rintro ⟨u, b, M, m, hu, hm⟩
    rw [upd_apply] at hu; split at hu
    · have := hx _ hu; cases this
      refine ⟨⟨s, a, L, m, hs, hL' _ hm⟩, ?_⟩
      rw [hR]
      rintro ⟨n, h1, h2⟩
      have := hl.inj s a L _ s a L _ hs h1 hs (hL' _ hm) rfl
      simp only at this; subst this; exact h2 hm
    · next hus =>
      refine ⟨⟨u, b, M, m, hu, hm⟩, ?_⟩
      rw [hR]
      rintro ⟨n, h1, h2⟩
      have := hl.inj s a L _ u b M _ hs h1 hu hm rfl
      exact hus (hd u b M _ _ hu h1 hm this).1.symm
  · rintro ⟨⟨u, b, M, m, hu, hm⟩, hnr⟩
    by_cases hus : u = s
    · subst hus
      rw [hs] at hu; cases hu
      rw [hR] at hnr
      have hm' : (m, p) ∈ L' := Classical.byContradiction fun h => hnr ⟨m, hm, h⟩
      cases hx' : x with
      | none => rw [hx0 hx'] at hm'; cases hm'
      | some y =>
        rw [hx y hx']
        exact ⟨u, a, L', m, upd_same _ _ _, hm'⟩
    · exact ⟨u, b, M, m, by rw [upd_other _ _ hus]; exact hu, hm⟩

theorem gone_alive {R : List Ptr} {p : Ptr} : Gone I R p ≠ none ↔ I p ≠ none ∧ p ∉ R := by
  unfold Gone; split <;> simp [*]

theorem Owned.remove {h : List (Entry V)} (ho : Owned h O I) {R : List Ptr} (hR : ∀ p ∈ R, AElem O p)
    (hO : ∀ p, AElem O' p ↔ AElem O p ∧ p ∉ R) : Owned h O' (Gone I R) := by
  intro p
  obtain ⟨h1, h2⟩ := ho p
  rw [gone_alive, hO, h1]
  refine ⟨?_, fun h3 => h2 ⟨h3.1.1, h3.2⟩⟩
  constructor
  · rintro ⟨h3 | h3, h4⟩
    · exact .inl ⟨h3, h4⟩
    · exact .inr h3
  · rintro (h3 | h3)
    · exact ⟨.inl h3.1, h3.2⟩
    · exact ⟨.inr h3, fun h4 => h2 ⟨hR p h4, h3⟩⟩

theorem Owned.call {h : List (Entry V)} (ho : Owned h O I) (hsim : NSim ns O I) {c : NCall V} {r : Res} {b : Bool}
    (hv : Valid ns c) (hsp : Spec O I c r b O' I') : Owned (⟨c, r, b⟩ :: h) O' I' := by
  have hl := hsim.link
  have hdj : ∀ {s a L}, O s = some (a, L) → ∀ t b M y z, O t = some (b, M) → y ∈ L → z ∈ M → y.1 = z.1 → s = t ∧ y = z :=
    fun hs t b M y z ht hy hz hyz => hsim.o.disj hs ht hy hz hyz
  have hnd : ∀ {s a L}, O s = some (a, L) → (L.map Prod.fst).Nodup := by
    intro s a L hs
    obtain ⟨σ, h1, h2, rfl⟩ := hsim.o
    obtain ⟨ls, hs', rfl⟩ := abs_inv hs
    rw [view_fst]; exact h1.st.nodup s _ hs'
  -- removal of one element
  have one : ∀ {s a X n q Y}, O s = some (a, X ++ (n, q) :: Y) →
      Owned h (upd O s (some (a, X ++ Y))) (Gone I [q]) := by
    intro s a X n q Y hs
    refine ho.remove (R := [q]) (by simpa using ⟨s, a, _, n, hs, by simp⟩) fun p => ?_
    refine elem_replace hl hs (L' := X ++ Y) (by rintro _ ⟨⟩; rfl) (by simp) ?_ ?_ (hdj hs)
    · intro y hy; simp only [List.mem_append, List.mem_cons] at hy ⊢; grind
    · intro p
      have := hnd hs
      simp only [List.map_append, List.map_cons, List.nodup_append, List.nodup_cons, List.mem_map, List.mem_cons] at this
      simp only [List.mem_singleton]
      simp only [List.mem_append, List.mem_cons, Prod.mk.injEq]
      constructor
      · rintro rfl
        refine ⟨n, .inr (.inl ⟨rfl, rfl⟩), ?_⟩
        rintro (h1 | h1)
        · exact this.2.2 n ⟨_, h1, rfl⟩ n (.inl rfl) rfl
        · exact this.2.1.1 ⟨_, h1, rfl⟩
      · rintro ⟨m, h1, h2⟩
        grind
  -- removal of all elements
  have all : ∀ {s a L} {x : Option (Nat × List (Ptr × Ptr))}, O s = some (a, L) → (∀ y, x = some y → y = (a, [])) →
      Owned h (upd O s x) (Gone I (L.map Prod.snd)) := by
    intro s a L x hs hx
    refine ho.remove (R := L.map Prod.snd) ?_ fun p => ?_
    · intro p hp
      obtain ⟨⟨n, q⟩, hy, rfl⟩ := List.mem_map.1 hp
      exact ⟨s, a, L, n, hs, hy⟩
    · refine elem_replace hl hs (L' := []) hx (fun _ => rfl) (by simp) ?_ (hdj hs)
      intro p; simp
  have lift : ∀ {O' I'}, (∀ c', c ≠ .inner c') → Owned h O' I' → Owned (⟨c, r, b⟩ :: h) O' I' := by
    intro O' I' hc ho' p
    rw [separate_other hc]; exact ho' p
  cases c with
  | outer c =>
    obtain ⟨hsp, rfl⟩ := hsp
    refine lift (by simp) fun p => ?_
    rw [structural_elem hv.1 hsp]; exact ho p
  | inner c =>
    obtain ⟨hsp, rfl⟩ := hsp
    intro p
    obtain ⟨h1, h2⟩ := ho p
    rw [inner_alive hsp, separate_inner, h1]
    have hdel : ∀ q, c = .destroy q → ¬ AElem O' q := fun q hq he => hv.2 q hq (hsim.isElem.2 he)
    have hnew : ((∃ a, c = .create a) ∨ ∃ s, c = .move s) ∧ r = .obj p → I p = none := by
      rintro ⟨⟨a, rfl⟩ | ⟨s, rfl⟩, rfl⟩
      · obtain ⟨-, s, h3, h4, -⟩ := hsp; cases h3; exact h4
      · obtain ⟨-, d, a, L, h3, h4, -⟩ := hsp; cases h3; exact h4
    constructor
    · constructor
      · rintro (⟨h3 | h3, h4⟩ | h3)
        · exact .inl h3
        · exact .inr (.inl ⟨h3, h4⟩)
        · exact .inr (.inr h3)
      · rintro (h3 | h3 | h3)
        · exact .inl ⟨.inl h3, fun h4 => hdel p h4 h3⟩
        · exact .inl ⟨.inr h3.1, h3.2⟩
        · exact .inr h3
    · rintro ⟨h3, h4 | h4⟩
      · exact h2 ⟨h3, h4.1⟩
      · exact h1.2 (.inl h3) (hnew h4)
  | insert copy s pos t =>
    refine lift (by simp) ?_
    obtain ⟨a, X, Y, hs, -, hsp⟩ := hsp
    split at hsp
    · obtain ⟨-, rfl, rfl⟩ := hsp; exact ho
    · obtain ⟨n, q, -, -, rfl, hn⟩ := hsp
      exact ho.insert hs hn
  | pushBack copy s t =>
    refine lift (by simp) ?_
    obtain ⟨a, L, hs, hsp⟩ := hsp
    split at hsp
    · obtain ⟨rfl, rfl⟩ := hsp; exact ho
    · obtain ⟨n, q, -, rfl, hn⟩ := hsp
      exact ho.insert (X := L) (Y := []) (by simpa using hs) hn
  | pushFront copy s t =>
    refine lift (by simp) ?_
    obtain ⟨a, L, hs, hsp⟩ := hsp
    split at hsp
    · obtain ⟨rfl, rfl⟩ := hsp; exact ho
    · obtain ⟨n, q, -, rfl, hn⟩ := hsp
      exact ho.insert (X := []) (Y := L) hs hn
  | erase s pos =>
    obtain ⟨-, a, X, q, Y, hs, -, rfl, rfl⟩ := hsp
    exact lift (by simp) (one hs)
  | popBack s =>
    obtain ⟨-, a, L, n, q, hs, rfl, rfl⟩ := hsp
    have := one hs
    rw [List.append_nil] at this
    exact lift (by simp) this
  | popFront s =>
    obtain ⟨-, a, L, n, q, hs, rfl, rfl⟩ := hsp
    exact lift (by simp) (one (X := []) hs)
  | clear s =>
    obtain ⟨-, a, L, hs, rfl, rfl⟩ := hsp
    exact lift (by simp) (all hs (by rintro _ ⟨⟩; rfl))
  | destroy s =>
    obtain ⟨-, a, L, hs, rfl, rfl⟩ := hsp
    exact lift (by simp) (all hs (by simp))
  | moveAssign s t =>
    obtain ⟨-, a, L, M, hs, ht, rfl, rfl⟩ := hsp
    refine lift (by simp) ?_
    split
    · exact all hs (by rintro _ ⟨⟩; rfl)
    · next hst =>
      have h0 : Owned h (upd O s (some (a, []))) (Gone I (L.map Prod.snd)) := all hs (by rintro _ ⟨⟩; rfl)
      intro p
      have : AElem (upd (upd O s (some (a, M))) t (some (a, []))) p ↔ AElem (upd O s (some (a, []))) p := by
        constructor
        · rintro ⟨u, b, K, n, hu, hm⟩
          rw [upd_apply] at hu; split at hu
          · cases hu; cases hm
          · rw [upd_apply] at hu; split at hu
            · cases hu
              exact ⟨t, a, _, n, by rw [upd_other _ _ (Ne.symm hst)]; exact ht, hm⟩
            · next hus => exact ⟨u, b, K, n, by rw [upd_other _ _ hus]; exact hu, hm⟩
        · rintro ⟨u, b, K, n, hu, hm⟩
          rw [upd_apply] at hu; split at hu
          · cases hu; cases hm
          · next hus =>
            by_cases hut : u = t
            · subst hut
              rw [ht] at hu; cases hu
              exact ⟨s, a, _, n, by rw [upd_other _ _ hst, upd_same], hm⟩
            · exact ⟨u, b, K, n, by rw [upd_other _ _ hut, upd_other _ _ hus]; exact hu, hm⟩
      rw [this]; exact h0 p
  | copy d s =>
    obtain ⟨a, L, b', M, k, N, hd, hs, hk, -, hlen, -, -, hnd2, rfl, hdc, hsame⟩ := hsp
    refine lift (by simp) ?_
    have h0 : Owned h (upd O d (some (a, []))) (Gone I (L.map Prod.snd)) := all hd (by rintro _ ⟨⟩; rfl)
    intro p
    obtain ⟨h1, h2⟩ := h0 p
    have hel : AElem (upd O d (some (a, N))) p ↔ AElem (upd O d (some (a, []))) p ∨ p ∈ N.map Prod.snd := by
      constructor
      · rintro ⟨u, b, K, n, hu, hm⟩
        rw [upd_apply] at hu; split at hu
        · cases hu; exact .inr (List.mem_map.2 ⟨_, hm, rfl⟩)
        · next hud => exact .inl ⟨u, b, K, n, by rw [upd_other _ _ hud]; exact hu, hm⟩
      · rintro (⟨u, b, K, n, hu, hm⟩ | h3)
        · rw [upd_apply] at hu; split at hu
          · cases hu; cases hm
          · next hud => exact ⟨u, b, K, n, by rw [upd_other _ _ hud]; exact hu, hm⟩
        · obtain ⟨⟨n, q⟩, hy, rfl⟩ := List.mem_map.1 h3
          exact ⟨d, a, N, n, upd_same _ _ _, hy⟩
    have hnew : p ∈ N.map Prod.snd → I p = none ∧ I' p ≠ none := by
      intro h3
      obtain ⟨y, hy, rfl⟩ := List.mem_map.1 h3
      obtain ⟨i, hi, rfl⟩ := List.getElem_of_mem hy
      have hi' : i < M.length := by omega
      have hz : (M[i], N[i]) ∈ M.zip N := by
        have : i < (M.zip N).length := by simp; omega
        have h4 := List.getElem_mem this
        rwa [List.getElem_zip] at h4
      obtain ⟨h4, _, _, _, _, _, h5⟩ := hdc _ hz
      exact ⟨h4, by rw [h5]; simp⟩
    rw [hel]
    by_cases hp : p ∈ N.map Prod.snd
    · obtain ⟨h3, h4⟩ := hnew hp
      refine ⟨⟨fun _ => .inl (.inr hp), fun _ => h4⟩, ?_⟩
      rintro ⟨-, h5⟩
      exact (ho p).1.2 (.inr h5) h3
    · rw [hsame p hp, h1]
      simp only [hp, or_false]
      exact ⟨trivial, h2⟩

theorem Hist.owned {eo : Env (LNode Ptr)} {ei : Env (LNode V)} {h : List (Entry V)} (hh : Hist eo ei h ns) :
    ∃ O I, SpecRun h O I ∧ NSim ns O I ∧ Owned h O I := by
  induction hh with
  | start =>
    refine ⟨_, _, SpecRun.start, NSim.start eo ei, fun q => ?_⟩
    have : ¬ AElem (fun _ => none) q := by rintro ⟨s, a, L, n, hs, -⟩; cases hs
    simp [this, Separate]
  | call _ hv hr ih =>
    obtain ⟨O, I, hA, hsim, ho⟩ := ih
    obtain ⟨O', I', hsp, hsim', _⟩ := Runs.wp (hsim.call hv) hr
    exact ⟨O', I', .call hA hsp, hsim', ho.call hsim hv hsp⟩

end Nestl.NL
