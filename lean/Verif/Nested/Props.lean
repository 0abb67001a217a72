import Verif.Nested.Demo
set_option autoImplicit false
/-
Property theorems of lists whose elements are lists, `nestl::list<nestl::list<V>>` (C80-C83).  The vocabulary (`NCall`, `exec`,
`Valid`, `Hist`, `Reach`, `Spec`, `SpecRun`, `IsElem`, `Separate`) is defined in `Verif/Nested/Client.lean`; the two levels are
described by the vocabulary of single lists (`Alive`, `Contents`, `HasAlloc`, `Unchanged`).  The programs are in
`Verif/Nested/Model.lean`.  After each theorem an `example` shows a concrete state that meets its hypotheses.
-/
namespace Nestl.NL
open Nestl.LL Nestl.LC
variable {V : Type} {ns ns' : NS V}

/-! ### C80 -/

/-- C80: after any history of calls on lists of lists, in any environment, there are mathematical lists of both levels that
the same calls (with the same results and failures) produce; iterating over any live list of either level yields exactly its
mathematical list; and the elements of the outer lists are live inner lists, no two elements being the same object. -/
theorem nested_list_refinement {eo : Env (LNode Ptr)} {ei : Env (LNode V)} {h : List (Entry V)} (hh : Hist eo ei h ns) :
    ∃ O I, SpecRun h O I ∧ (∀ s, Alive ns.o s ↔ O s ≠ none) ∧ (∀ s, Alive ns.i s ↔ I s ≠ none) ∧
      (∀ s a L, O s = some (a, L) → Contents ns.o s L ∧ HasAlloc ns.o s a) ∧
      (∀ s a L, I s = some (a, L) → Contents ns.i s L ∧ HasAlloc ns.i s a) ∧
      (∀ s a L x, O s = some (a, L) → x ∈ L → Alive ns.i x.2) ∧
      ∀ s a L x t b M y, O s = some (a, L) → x ∈ L → O t = some (b, M) → y ∈ M → x.2 = y.2 → s = t ∧ x = y := by
  obtain ⟨O, I, h1, h2⟩ := hh.sim
  refine ⟨O, I, h1, fun s => h2.o.alive, fun s => h2.i.alive, fun s a L hs => ?_, fun s a L hs => ?_,
    fun s a L x hs hx => h2.i.alive.2 (h2.link.alive s a L x hs hx), ?_⟩
  · exact ⟨(h2.o.contents hs).1, (h2.o.contents hs).2.1⟩
  · exact ⟨(h2.i.contents hs).1, (h2.i.contents hs).2.1⟩
  · intro s a L x t b M y hs hx ht hy hxy
    exact h2.o.disj hs ht hx hy (h2.link.inj s a L x t b M y hs hx ht hy hxy)

/-- C80: every call whose precondition holds terminates without undefined behaviour, assertion failure, use of freed memory,
use of an inner list outside its lifetime or release through a wrong allocator. -/
theorem nested_list_calls_safe (hr : Reach ns) {c : NCall V} (hv : Valid ns c) : ∃ r ns', Runs (exec c) (ready ns) r ns' := by
  obtain ⟨O, I, hs⟩ := hr.sim
  obtain ⟨r, ns', h1, _⟩ := (hs.call hv).runs
  exact ⟨r, ns', h1⟩

example : ∃ eo ei h, ∃ (ns : NS Nat) (s m n t q r : Ptr), Hist eo ei h ns ∧ Contents ns.o s [(m, q), (n, r)] ∧
    Valid ns (.erase s m) ∧ Valid ns (.inner (.sort (fun a b => a < b) q)) ∧ Valid ns (.inner (.destroy t)) := by
  obtain ⟨ns, s, u, t, m, n, q, r, _, _, _, _, _, h, O, I, d, hs, hu, ht, hq, hr, hn⟩ := demo
  obtain ⟨eo, ei, hh⟩ := d.hist
  have c1 := d.sim.o.contents hs
  have c2 := d.sim.i.contents hq
  refine ⟨eo, ei, h, ns, s, m, n, t, q, r, hh, c1.1, ⟨c1.2.2, [], q, _, c1.1⟩, ⟨⟨c2.2.2, _, c2.1, by simp⟩, by simp⟩,
    (d.sim.i.contents ht).2.2, ?_⟩
  rintro _ ⟨⟩
  exact hn.2

/-! ### C81 -/

/-- The calls that insert an element made of the inner list `t` between the elements `X` and `Y` of `s`. -/
def Inserts (c : NCall V) (copy : Bool) (s t : Ptr) (X Y : List (Ptr × Ptr)) : Prop :=
  c = .insert copy s (posOf s Y) t ∨ (Y = [] ∧ c = .pushBack copy s t) ∨ (X = [] ∧ c = .pushFront copy s t)

/-- The iterator returned by the call, if it returns one. -/
def Returns (c : NCall V) (r : Res) (p : Ptr) : Prop := ∀ copy s pos t, c = .insert copy s pos t → r = .pos p

theorem inserts_spec {O O' : AState Ptr} {I I' : AState V} {c : NCall V} {copy : Bool} {s t : Ptr} {X Y : List (Ptr × Ptr)}
    {a : Nat} {r : Res} {b : Bool} (hs : O s = some (a, X ++ Y)) (hnd : ((X ++ Y).map Prod.fst).Nodup)
    (hse : ∀ x ∈ X ++ Y, x.1 ≠ s)
    (hc : Inserts c copy s t X Y) (hsp : Spec O I c r b O' I') :
    if b then O' = O ∧ I' = I ∧ Returns c r s
    else ∃ n q, Unused O n ∧ O' = upd O s (some (a, X ++ (n, q) :: Y)) ∧ NewList copy I t q I' ∧ Returns c r n := by
  rcases hc with rfl | ⟨rfl, rfl⟩ | ⟨rfl, rfl⟩
  · obtain ⟨a', X', Y', h1, h2, h3⟩ := hsp
    rw [hs] at h1
    simp only [Option.some.injEq, Prod.mk.injEq] at h1
    obtain ⟨rfl, h1⟩ := h1
    obtain ⟨rfl, rfl⟩ := split_unique h1 hnd hse h2
    split at h3
    · next hb => rw [if_pos hb]; exact ⟨h3.2.1, h3.2.2, fun _ _ _ _ _ => h3.1⟩
    · next hb =>
      rw [if_neg hb]
      obtain ⟨n, q, h4, h7, h5, h6⟩ := h3
      exact ⟨n, q, h4, h5, h6, fun _ _ _ _ _ => h7⟩
  · obtain ⟨a', L, h1, h3⟩ := hsp
    rw [hs] at h1; cases h1
    split at h3
    · next hb => rw [if_pos hb]; exact ⟨h3.1, h3.2, fun _ _ _ _ h => by cases h⟩
    · next hb =>
      rw [if_neg hb]
      obtain ⟨n, q, h4, h5, h6⟩ := h3
      exact ⟨n, q, h4, by rw [h5]; simp, h6, fun _ _ _ _ h => by cases h⟩
  · obtain ⟨a', L, h1, h3⟩ := hsp
    rw [hs] at h1; cases h1
    split at h3
    · next hb => rw [if_pos hb]; exact ⟨h3.1, h3.2, fun _ _ _ _ h => by cases h⟩
    · next hb =>
      rw [if_neg hb]
      obtain ⟨n, q, h4, h5, h6⟩ := h3
      exact ⟨n, q, h4, h5, h6, fun _ _ _ _ h => by cases h⟩

theorem inserts_valid {c : NCall V} {copy : Bool} {s t : Ptr} {X Y : List (Ptr × Ptr)}
    (hc : Inserts c copy s t X Y) (ha : Alive ns.o s) (hcs : Contents ns.o s (X ++ Y)) (hb : Alive ns.i t) : Valid ns c := by
  rcases hc with rfl | ⟨rfl, rfl⟩ | ⟨rfl, rfl⟩
  · exact ⟨ha, ⟨X, Y, hcs, rfl⟩, hb⟩
  · exact ⟨ha, hb⟩
  · exact ⟨ha, hb⟩

/-- C81: inserting a copy of an inner list `t` (which may itself be an element) at any position.  Whatever request fails - the
memory of the node, or any memory or element construction while `t` is copied - an error is reported and both memories are
exactly as before: nothing has changed, nothing is leaked.  Otherwise there is no error, a new element stands at the position;
it is a new inner list with new elements that have the values of `t`, and all other lists of both levels, including `t`, are
unchanged.  There is no error if nothing is refused.  The returned iterator denotes the new element, or is `end()` after an
error. -/
theorem nested_list_insert_copy_atomic (hr : Reach ns) {c : NCall V} {s t : Ptr} {X Y : List (Ptr × Ptr)} {L : List (Ptr × V)}
    (hc : Inserts c true s t X Y) (ha : Alive ns.o s) (hcs : Contents ns.o s (X ++ Y)) (hb : Alive ns.i t)
    (hct : Contents ns.i t L) :
    ∃ r ns', Runs (exec c) (ready ns) r ns' ∧
      (ns'.o.err ≠ none → ns'.o.heap = ns.o.heap ∧ ns'.i.heap = ns.i.heap ∧ Returns c r s) ∧
      (ns'.o.err = none → ∃ n q N, Returns c r n ∧ Contents ns'.o s (X ++ (n, q) :: Y) ∧ ¬ Alive ns.i q ∧ Alive ns'.i q ∧
        Contents ns'.i q N ∧ N.map Prod.snd = L.map Prod.snd ∧ Unchanged ns.o ns'.o [s] ∧ Unchanged ns.i ns'.i []) ∧
      (Good ns.o → Good ns.i → ns'.o.err = none) := by
  obtain ⟨O, I, hsim⟩ := hr.sim
  obtain ⟨r, ns', hrun, O', I', hsp, hsim', -, -, hg⟩ := (hsim.call (inserts_valid hc ha hcs hb)).runs
  obtain ⟨a, hs⟩ := hsim.o.contents_eq ha hcs
  obtain ⟨b, ht⟩ := hsim.i.contents_eq hb hct
  have key := inserts_spec hs (hsim.o.nodup hs) (hsim.o.ne_obj hs) hc hsp
  refine ⟨r, ns', hrun, ?_, ?_, fun g1 g2 => hg (good_ready g1) g2⟩
  · intro he
    rw [if_pos (Option.isSome_iff_ne_none.2 he)] at key
    obtain ⟨rfl, rfl, hret⟩ := key
    exact ⟨hsim.o.heap_eq hsim'.o, hsim.i.heap_eq hsim'.i, hret⟩
  · intro he
    rw [if_neg (by simp [he])] at key
    obtain ⟨n, q, hn, rfl, ⟨hq, b', L', ht', hnl⟩, hret⟩ := key
    rw [ht] at ht'; cases ht'
    rw [if_pos rfl] at hnl
    obtain ⟨N, hN, rfl⟩ := hnl
    have hq' := hsim'.i.contents (upd_same I q _)
    refine ⟨n, q, N, hret, (hsim'.o.contents (upd_same _ _ _)).1, fun h => hsim.i.alive.1 h hq, hq'.2.2, hq'.1, hN.1,
      hsim.o.unchanged hsim'.o fun u hu _ => upd_other _ _ (by simpa using hu), hsim.i.unchanged hsim'.i fun u _ hu => ?_⟩
    rw [upd_other _ _ (by rintro rfl; exact hu hq)]

/-- C81 for insertion of an rvalue: the new element takes over the elements of `t`, with their identities, and `t` is left
empty; if the node is refused nothing happens: the argument still has its elements. -/
theorem nested_list_insert_move_atomic (hr : Reach ns) {c : NCall V} {s t : Ptr} {X Y : List (Ptr × Ptr)} {L : List (Ptr × V)}
    (hc : Inserts c false s t X Y) (ha : Alive ns.o s) (hcs : Contents ns.o s (X ++ Y)) (hb : Alive ns.i t)
    (hct : Contents ns.i t L) :
    ∃ r ns', Runs (exec c) (ready ns) r ns' ∧
      (ns'.o.err ≠ none → ns'.o.heap = ns.o.heap ∧ ns'.i.heap = ns.i.heap ∧ Returns c r s) ∧
      (ns'.o.err = none → ∃ n q, Returns c r n ∧ Contents ns'.o s (X ++ (n, q) :: Y) ∧ ¬ Alive ns.i q ∧ Alive ns'.i q ∧
        Contents ns'.i q L ∧ Alive ns'.i t ∧ Contents ns'.i t [] ∧ Unchanged ns.o ns'.o [s] ∧ Unchanged ns.i ns'.i [t]) ∧
      (Good ns.o → Good ns.i → ns'.o.err = none) := by
  obtain ⟨O, I, hsim⟩ := hr.sim
  obtain ⟨r, ns', hrun, O', I', hsp, hsim', -, -, hg⟩ := (hsim.call (inserts_valid hc ha hcs hb)).runs
  obtain ⟨a, hs⟩ := hsim.o.contents_eq ha hcs
  obtain ⟨b, ht⟩ := hsim.i.contents_eq hb hct
  have key := inserts_spec hs (hsim.o.nodup hs) (hsim.o.ne_obj hs) hc hsp
  refine ⟨r, ns', hrun, ?_, ?_, fun g1 g2 => hg (good_ready g1) g2⟩
  · intro he
    rw [if_pos (Option.isSome_iff_ne_none.2 he)] at key
    obtain ⟨rfl, rfl, hret⟩ := key
    exact ⟨hsim.o.heap_eq hsim'.o, hsim.i.heap_eq hsim'.i, hret⟩
  · intro he
    rw [if_neg (by simp [he])] at key
    obtain ⟨n, q, hn, rfl, ⟨hq, b', L', ht', hnl⟩, hret⟩ := key
    rw [ht] at ht'; cases ht'
    have hnl : I' = _ := hnl
    subst hnl
    have htq : t ≠ q := by rintro rfl; rw [ht] at hq; cases hq
    have hq' := hsim'.i.contents (upd_same _ q _)
    have ht' := hsim'.i.contents (s := t) (a := b) (L := []) (by rw [upd_other _ _ htq, upd_same])
    refine ⟨n, q, hret, (hsim'.o.contents (upd_same _ _ _)).1, fun h => hsim.i.alive.1 h hq, hq'.2.2, hq'.1, ht'.2.2, ht'.1,
      hsim.o.unchanged hsim'.o fun u hu _ => upd_other _ _ (by simpa using hu), hsim.i.unchanged hsim'.i fun u hut hu => ?_⟩
    rw [upd_other _ _ (by rintro rfl; exact hu hq), upd_other _ _ (by simpa using hut)]

/-- A state in which insertions succeed ... -/
example : ∃ (ns : NS Nat) (s t m n q r x y : Ptr), Reach ns ∧ Good ns.o ∧ Good ns.i ∧ Alive ns.o s ∧ Alive ns.i t ∧
    Contents ns.o s ([(m, q)] ++ [(n, r)]) ∧ Contents ns.i t [(x, 4), (y, 7)] ∧
    Inserts (.insert true s n t : NCall Nat) true s t [(m, q)] [(n, r)] := by
  obtain ⟨ns, s, u, t, m, n, q, r, _, _, _, _, _, h, O, I, d, hs, hu, ht, hq, hr, hn⟩ := demo
  have c1 := d.sim.o.contents hs
  have c2 := d.sim.i.contents ht
  exact ⟨ns, s, t, m, n, q, r, _, _, d.reach, d.goodO, d.goodI, c1.2.2, c2.2.2, c1.1, c2.1, .inl rfl⟩
/-- ... and one in which the node and the new list are available but the copy of its element is refused. -/
example : ∃ (ns ns' : NS Nat) (s t : Ptr) (r : Res) (L : List (Ptr × Nat)), Reach ns ∧ Alive ns.o s ∧ Contents ns.o s [] ∧
    Alive ns.i t ∧ Contents ns.i t L ∧ L.map Prod.snd = [4] ∧ Good ns.o ∧
    Runs (exec (.pushBack true s t)) (ready ns) r ns' ∧ ns'.o.err ≠ none := demo_refused

/-! ### C82 -/

/-- C82: at any time, a live inner list is either an element of an outer list or an object the client created separately (and
not both): no inner list is orphaned by erasing, clearing, destroying, assigning or failing. -/
theorem nested_list_no_orphan {eo : Env (LNode Ptr)} {ei : Env (LNode V)} {h : List (Entry V)} (hh : Hist eo ei h ns) (q : Ptr) :
    (Alive ns.i q ↔ IsElem ns q ∨ Separate h q) ∧ ¬ (IsElem ns q ∧ Separate h q) := by
  obtain ⟨O, I, -, hsim, ho⟩ := hh.owned
  rw [hsim.i.alive, hsim.isElem]
  exact ho q

/-- C82: everything in either memory belongs to a live list.  Hence when all outer lists and all separate inner lists are
destroyed, both memories are empty: every inner list and every element has been released (releasing something twice would be
undefined behaviour). -/
theorem nested_list_no_leak {eo : Env (LNode Ptr)} {ei : Env (LNode V)} {h : List (Entry V)} (hh : Hist eo ei h ns) :
    (∀ p, ns.o.heap p ≠ none → Alive ns.o p ∨ ∃ s L v, Alive ns.o s ∧ Contents ns.o s L ∧ (p, v) ∈ L) ∧
    (∀ p, ns.i.heap p ≠ none → Alive ns.i p ∨ ∃ s L v, Alive ns.i s ∧ Contents ns.i s L ∧ (p, v) ∈ L) ∧
    ((∀ s, ¬ Alive ns.o s) → (∀ q, ¬ Separate h q) → ∀ p, ns.o.heap p = none ∧ ns.i.heap p = none) := by
  obtain ⟨O, I, -, hsim⟩ := hh.sim
  refine ⟨fun p => hsim.o.no_leak, fun p => hsim.i.no_leak, fun h1 h2 p => ?_⟩
  have h3 : ∀ q, ¬ Alive ns.i q := by
    intro q hq
    rcases (nested_list_no_orphan hh q).1.1 hq with ⟨s, X, n, Y, ha, _⟩ | h4
    · exact h1 s ha
    · exact h2 q h4
  constructor
  · apply Classical.byContradiction
    intro hp
    rcases hsim.o.no_leak hp with h4 | ⟨s, L, v, h4, -⟩ <;> exact h1 _ h4
  · apply Classical.byContradiction
    intro hp
    rcases hsim.i.no_leak hp with h4 | ⟨s, L, v, h4, -⟩ <;> exact h3 _ h4

/-- The calls that remove the elements `R` of `s`. -/
def Removes (ns : NS V) (c : NCall V) (s : Ptr) (R : List (Ptr × Ptr)) : Prop :=
  (∃ X x Y, Contents ns.o s (X ++ x :: Y) ∧ R = [x] ∧ c = .erase s x.1) ∨
  (∃ X x, Contents ns.o s (X ++ [x]) ∧ R = [x] ∧ c = .popBack s) ∨
  (∃ x Y, Contents ns.o s (x :: Y) ∧ R = [x] ∧ c = .popFront s) ∨
  (Contents ns.o s R ∧ (c = .clear s ∨ c = .destroy s ∨ ∃ t, Alive ns.o t ∧ SameAlloc ns.o s t ∧ c = .moveAssign s t))

/-- C82: `erase`, `pop_back`, `pop_front`, `clear`, move assignment and the destructor end the lifetime of every removed inner
list and release all its elements, report no error, and leave every other inner list unchanged. -/
theorem nested_list_remove (hr : Reach ns) {c : NCall V} {s : Ptr} {R : List (Ptr × Ptr)} (ha : Alive ns.o s)
    (hc : Removes ns c s R) :
    ∃ r ns', Runs (exec c) (ready ns) r ns' ∧ ns'.o.err = none ∧
      (∀ x ∈ R, Alive ns.i x.2 ∧ ¬ Alive ns'.i x.2 ∧ ∀ L, Contents ns.i x.2 L → ∀ y ∈ L, ns'.i.heap y.1 = none) ∧
      Unchanged ns.i ns'.i (R.map Prod.snd) := by
  obtain ⟨O, I, hsim⟩ := hr.sim
  have hv : Valid ns c := by
    rcases hc with ⟨X, x, Y, h1, -, rfl⟩ | ⟨X, x, h1, -, rfl⟩ | ⟨x, Y, h1, -, rfl⟩ | ⟨h1, rfl | rfl | ⟨t, h2, h3, rfl⟩⟩
    · exact ⟨ha, X, x.2, Y, h1⟩
    · exact ⟨ha, fun h0 => by have := hsim.o.contents_unique ha h1 h0; simp at this⟩
    · exact ⟨ha, fun h0 => by have := hsim.o.contents_unique ha h1 h0; simp at this⟩
    · exact ha
    · exact ha
    · exact ⟨ha, h2, h3⟩
  obtain ⟨r, ns', hrun, O', I', hsp, hsim', -⟩ := (hsim.call hv).runs
  have key : ns'.o.err.isSome = false ∧ I' = Gone I (R.map Prod.snd) ∧ ∃ a M, O s = some (a, M) ∧ ∀ x ∈ R, x ∈ M := by
    rcases hc with ⟨X, x, Y, h1, rfl, rfl⟩ | ⟨X, x, h1, rfl, rfl⟩ | ⟨x, Y, h1, rfl, rfl⟩ | ⟨h1, rfl | rfl | ⟨t, h2, h3, rfl⟩⟩
    · obtain ⟨a, hs⟩ := hsim.o.contents_eq ha h1
      obtain ⟨h4, a', X', q, Y', hs', -, -, h5⟩ := hsp
      rw [hs] at hs'
      simp only [Option.some.injEq, Prod.mk.injEq] at hs'
      have h6 : x.2 = q := by
        have := (hsim.o.disj hs hs (x := x) (y := (x.1, q)) (by simp) (by rw [hs'.2]; simp) rfl).2
        rw [this]
      exact ⟨h4, by rw [h5]; simp [h6], a, _, hs, by simp⟩
    · obtain ⟨a, hs⟩ := hsim.o.contents_eq ha h1
      obtain ⟨h4, a', L, n, q, hs', -, h5⟩ := hsp
      rw [hs] at hs'
      simp only [Option.some.injEq, Prod.mk.injEq] at hs'
      have h6 := List.append_inj' hs'.2 rfl
      simp only [List.cons.injEq, and_true] at h6
      exact ⟨h4, by rw [h5, h6.2]; simp, a, _, hs, by simp⟩
    · obtain ⟨a, hs⟩ := hsim.o.contents_eq ha h1
      obtain ⟨h4, a', L, n, q, hs', -, h5⟩ := hsp
      rw [hs] at hs'
      simp only [Option.some.injEq, Prod.mk.injEq, List.cons.injEq] at hs'
      exact ⟨h4, by rw [h5, hs'.2.1]; simp, a, _, hs, by simp⟩
    · obtain ⟨a, hs⟩ := hsim.o.contents_eq ha h1
      obtain ⟨h4, a', L, hs', -, h5⟩ := hsp
      rw [hs] at hs'; cases hs'
      exact ⟨h4, h5, a, _, hs, fun x hx => hx⟩
    · obtain ⟨a, hs⟩ := hsim.o.contents_eq ha h1
      obtain ⟨h4, a', L, hs', -, h5⟩ := hsp
      rw [hs] at hs'; cases hs'
      exact ⟨h4, h5, a, _, hs, fun x hx => hx⟩
    · obtain ⟨a, hs⟩ := hsim.o.contents_eq ha h1
      obtain ⟨h4, a', L, M, hs', -, -, h5⟩ := hsp
      rw [hs] at hs'; cases hs'
      exact ⟨h4, h5, a, _, hs, fun x hx => hx⟩
  obtain ⟨h1, rfl, a, M, hs, hM⟩ := key
  refine ⟨r, ns', hrun, by simpa using h1, ?_, hsim.i.unchanged hsim'.i fun u hu _ => by unfold Gone; rw [if_neg hu]⟩
  intro x hx
  have hal := hsim.link.alive s a M x hs (hM x hx)
  have hg : Gone I (R.map Prod.snd) x.2 = none := by unfold Gone; rw [if_pos (List.mem_map_of_mem hx)]
  have hA : ∀ u, Gone I (R.map Prod.snd) u ≠ none → Gone I (R.map Prod.snd) u = I u := by
    intro u hu; unfold Gone at hu ⊢; split
    · next h => simp [h] at hu
    · rfl
  refine ⟨hsim.i.alive.2 hal, fun h => hsim'.i.alive.1 h hg, ?_⟩
  intro L hL
  obtain ⟨b, hq⟩ := hsim.i.contents_eq (hsim.i.alive.2 hal) hL
  exact (hsim.i.gone hsim'.i hq hg hA).2

example : ∃ (ns : NS Nat) (s t m n q r x y z : Ptr), Reach ns ∧ Alive ns.o s ∧ Contents ns.o s [(m, q), (n, r)] ∧
    Contents ns.i q [(x, 4), (y, 7)] ∧ Contents ns.i r [(z, 4)] ∧ Removes ns (.clear s) s [(m, q), (n, r)] ∧
    Removes ns (.erase s n) s [(n, r)] ∧ Alive ns.i t ∧ ¬ IsElem ns t := by
  obtain ⟨ns, s, u, t, m, n, q, r, _, _, _, _, _, h, O, I, d, hs, hu, ht, hq, hr, hn⟩ := demo
  have c1 := d.sim.o.contents hs
  exact ⟨ns, s, t, m, n, q, r, _, _, _, d.reach, c1.2.2, c1.1, (d.sim.i.contents hq).1, (d.sim.i.contents hr).1,
    .inr (.inr (.inr ⟨c1.1, .inl rfl⟩)), .inl ⟨[(m, q)], (n, r), [], c1.1, rfl, rfl⟩, (d.sim.i.contents ht).2.2, hn.2⟩

/-- A program that has destroyed everything meets the hypotheses of the last part of `nested_list_no_leak`. -/
example : ∃ eo ei h, ∃ ns : NS Nat, Hist eo ei h ns ∧ h.length ≥ 8 ∧ (∀ s, ¬ Alive ns.o s) ∧ ∀ q, ¬ Separate h q := demo_end

/-! ### C83 -/

/-- C83: `d.copy_nothrow(err, s)` on lists of lists makes a deep copy: afterwards `d` has new elements that are new inner
lists with new elements, with the values of the first `k` elements of `s`: all of them if no error is reported.  The old
elements of `d` are destroyed; the source, its elements and all other lists of both levels are unchanged.  There is no error if
nothing is refused.  (Partial: `d` must be empty or have the default allocator, see C29; and `d` is not `s`.) -/
theorem nested_list_copy_deep_partial (hr : Reach ns) {d s : Ptr} {L M : List (Ptr × Ptr)} (ha : Alive ns.o d)
    (hb : Alive ns.o s) (hds : d ≠ s) (hal : HasAlloc ns.o d defaultAlloc ∨ Contents ns.o d []) (hcd : Contents ns.o d L)
    (hcs : Contents ns.o s M) :
    ∃ r ns' k N, Runs (exec (.copy d s)) (ready ns) r ns' ∧ k ≤ M.length ∧ (ns'.o.err ≠ none ↔ k < M.length) ∧
      Contents ns'.o d N ∧ N.length = k ∧
      (∀ (i : Nat) (x y : Ptr × Ptr), M[i]? = some x → N[i]? = some y → ns.o.heap y.1 = none ∧ ¬ Alive ns.i y.2 ∧ Alive ns'.i y.2 ∧
        ∃ K K', Contents ns.i x.2 K ∧ Contents ns'.i y.2 K' ∧ K'.map Prod.snd = K.map Prod.snd ∧
          ∀ z ∈ K', ns.i.heap z.1 = none) ∧
      (∀ x ∈ L, ¬ Alive ns'.i x.2) ∧
      Unchanged ns.o ns'.o [d] ∧ Unchanged ns.i ns'.i (L.map Prod.snd) ∧ (Good ns.o → Good ns.i → ns'.o.err = none) := by
  obtain ⟨O, I, hsim⟩ := hr.sim
  obtain ⟨r, ns', hrun, O', I', hsp, hsim', -, -, hg⟩ := (hsim.call (c := .copy d s) ⟨ha, hb, hal, hds⟩).runs
  obtain ⟨a, hd⟩ := hsim.o.contents_eq ha hcd
  obtain ⟨b, hs⟩ := hsim.o.contents_eq hb hcs
  obtain ⟨a', L', b', M', k, N, h1, h2, hk, hf, hlen, hnd, hun, hnd2, rfl, hdc, hsame⟩ := hsp
  rw [hd] at h1; cases h1
  rw [hs] at h2; cases h2
  have hz : ∀ (i : Nat) (x y : Ptr × Ptr), M[i]? = some x → N[i]? = some y → (x, y) ∈ M.zip N := by
    intro i x y hx hy
    exact List.mem_of_getElem? (i := i) (by simp [List.getElem?_zip_eq_some, hx, hy])
  have hnN : ∀ q, q ∈ N.map Prod.snd → I q = none := by
    intro q hq
    obtain ⟨y, hy, rfl⟩ := List.mem_map.1 hq
    obtain ⟨i, hi, rfl⟩ := List.getElem_of_mem hy
    have hi' : i < M.length := by omega
    exact (hdc _ (hz i _ _ (List.getElem?_eq_getElem hi') (List.getElem?_eq_getElem hi))).1
  refine ⟨r, ns', k, N, hrun, hk, ?_, (hsim'.o.contents (upd_same _ _ _)).1, hlen, ?_, ?_,
    hsim.o.unchanged hsim'.o fun u hu _ => upd_other _ _ (by simpa using hu), hsim.i.unchanged hsim'.i fun u hu hu2 => ?_,
    fun g1 g2 => hg (good_ready g1) g2⟩
  · rw [← hf, Option.isSome_iff_ne_none]
  · intro i x y hx hy
    obtain ⟨h3, c, K, K', h4, h5, h6⟩ := hdc _ (hz i x y hx hy)
    have c6 := hsim'.i.contents h6
    refine ⟨?_, fun h => hsim.i.alive.1 h h3, c6.2.2, K, K', (hsim.i.contents h4).1, c6.1, h5.1, ?_⟩
    · exact hsim.o.fresh_elem hsim'.o (upd_same _ _ _) (List.mem_of_getElem? hy) (hun y (List.mem_of_getElem? hy))
    · intro z hz'
      exact hsim.i.fresh_elem hsim'.i h6 hz' (h5.2.2 z hz')
  · intro x hx
    refine fun h => hsim'.i.alive.1 h ?_
    rw [hsame _ fun h => hsim.link.alive d a L x hd hx (hnN _ h)]
    unfold Gone; rw [if_pos (List.mem_map_of_mem hx)]
  · rw [hsame u (fun h => hu2 (hnN u h))]
    unfold Gone; rw [if_neg hu]

example : ∃ (ns : NS Nat) (d s m n q r x y z : Ptr), Reach ns ∧ Alive ns.o d ∧ Alive ns.o s ∧ d ≠ s ∧
    Contents ns.o d [] ∧ Contents ns.o s [(m, q), (n, r)] ∧ Contents ns.i q [(x, 4), (y, 7)] ∧ Contents ns.i r [(z, 4)] ∧
    Good ns.o ∧ Good ns.i := by
  obtain ⟨ns, s, u, t, m, n, q, r, _, _, _, _, _, h, O, I, d, hs, hu, ht, hq, hr, hn⟩ := demo
  have c1 := d.sim.o.contents hs
  have c2 := d.sim.o.contents hu
  have hne : u ≠ s := by intro h0; rw [h0, hs] at hu; cases hu
  exact ⟨ns, u, s, m, n, q, r, _, _, _, d.reach, c2.2.2, c1.2.2, hne, c2.1, c1.1,
    (d.sim.i.contents hq).1, (d.sim.i.contents hr).1, d.goodO, d.goodI⟩

end Nestl.NL
