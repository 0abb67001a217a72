import Verif.Own.Assign
set_option autoImplicit false
/-
Programs that use sets (C118): the whole public interface of `nestl::set` (set.hpp:33-137), with a comparator in every object and
with move assignment, which the histories of the other files leave to the tree.
-/
namespace Nestl.Own
open Nestl.RB Nestl.Set Nestl.Multi Nestl.Full
variable {K : Type}

/-- Calls of a set: `set s(comp, alloc)`, `d = std::move(s)`, and the calls of `Set/Client.lean`. -/
inductive SCall (K : Type)
  | create (comp : Less K) (alloc : Nat)
  | on (c : Call K)
  | assign (prop : Bool) (d s : Ptr)

/-- The call of the tree that a call of a set consists of (`assign` is a call of its own: `setAssign`). -/
def SCall.own : SCall K → OCall K
  | .create comp a => .create comp a
  | .on c => .on (.multi (.base c))
  | .assign prop d s => .on (.assign prop d s)

/-- The program executed by a call: set.hpp:143-300.  The flag tells whether the error object of `operator=`, which the code throws
away, held an error. -/
def sexec (dflt : Less K) : SCall K → M (OW K) (FRes K × Bool)
  | .assign prop d s => do pure (.unit, (← setAssign prop d s).isSome)
  | c => do pure (← oexec dflt c.own, false)

/-- Preconditions: objects are alive, iterators belong to the object, comparators are strict weak orders. -/
def SValid (x : OW K) : SCall K → Prop
  | .create comp _ => SWO comp
  | .on c => Valid x.w c
  | .assign _ d s => Alive x.w d ∧ Alive x.w s

/-- One entry of a history: the call, the comparator it used, the result, whether an error was reported, and whether an error was
thrown away. -/
structure SEntry (K : Type) where
  call : SCall K
  lt : Less K
  res : FRes K
  failed : Bool
  lost : Bool

/-- `SHist dflt env h x`: `x` is reached from the start by the calls of `h` (latest first). -/
inductive SHist (dflt : Less K) (env : Env (TNode K)) : List (SEntry K) → OW K → Prop
  | start : SHist dflt env [] (ostart dflt env)
  | call {h : List (SEntry K)} {x x' : OW K} {c : SCall K} {r : FRes K} {lost : Bool} : SHist dflt env h x → SValid x c →
      Runs (sexec dflt c) (oready x) (r, lost) x' →
      SHist dflt env (⟨c, used dflt x.cmp c.own.plain, r, x'.w.err.isSome, lost⟩ :: h) x'

/-- Reachable program states. -/
def SReach (dflt : Less K) (x : OW K) : Prop := ∃ env h, SHist dflt env h x

/-- What an entry does to the sequences of keys of the objects.  A move assignment that throws an error away keeps only some of the
first elements. -/
def SStep (e : SEntry K) (A A' : Ptr → List K) : Prop :=
  match e.call with
  | .assign _ d s => ∃ L, L <+: A s ∧ (e.lost = false → L = A s) ∧ A' = put (put A d L) s []
  | c => A' = famStep e.lt A ⟨c.own.plain, e.res, e.failed⟩

/-- `SRuns h A`: the sequences `A` are what the history `h` says. -/
inductive SRuns : List (SEntry K) → (Ptr → List K) → Prop
  | start : SRuns [] fun _ => []
  | call {h : List (SEntry K)} {e : SEntry K} {A A' : Ptr → List K} : SRuns h A → SStep e A A' → SRuns (e :: h) A'

/-- The objects that a call is about. -/
def STouches : SCall K → Ptr → Prop
  | c, p => FTouches c.own.plain p

section
variable {dflt : Less K} {env : Env (TNode K)} {x x' : OW K} {h : List (SEntry K)} {A : Ptr → List K} {C C' : Ptr → Less K}

/-- Every sequence is strictly increasing. -/
def Rising (C : Ptr → Less K) (A : Ptr → List K) : Prop := ∀ s, (A s).Pairwise fun a b => C s a b = true

theorem Rising.put {s : Ptr} {L : List K} {c : Less K} (hA : Rising C A) (hL : L.Pairwise fun a b => c a b = true) :
    Rising (Set.put C s c) (Set.put A s L) := by
  intro p
  by_cases e : p = s
  · subst e; rw [put_same, put_same]; exact hL
  · rw [put_other _ _ e, put_other _ _ e]; exact hA p

theorem Rising.same {s : Ptr} {L : List K} (hA : Rising C A) (hL : L.Pairwise fun a b => C s a b = true) : Rising C (Set.put A s L) := by
  have := hA.put (s := s) hL
  rwa [put_self] at this

theorem Rising.sub {s : Ptr} {L : List K} (hA : Rising C A) (hL : L.Sublist (A s)) : Rising C (Set.put A s L) :=
  hA.same ((hA s).sublist hL)

theorem addUpper_rising {lt : Less K} {L : List K} {k : K} (hs : SWO lt) (hL : L.Pairwise fun a b => lt a b = true)
    (hn : L.any (fun x => !lt x k && !lt k x) = false) : (addUpper lt k L).Pairwise fun a b => lt a b = true := by
  have h1 : ∀ a ∈ L.filter (fun x => !lt k x), lt a k = true := by
    intro a ha
    obtain ⟨ha, hk⟩ := List.mem_filter.1 ha
    have := List.any_eq_false.1 hn a ha
    revert this hk
    cases lt a k <;> cases lt k a <;> simp
  have h2 : ∀ a ∈ L.filter (fun x => lt k x), lt k a = true := fun a ha => (List.mem_filter.1 ha).2
  refine List.pairwise_append.2 ⟨hL.sublist List.filter_sublist, List.pairwise_cons.2 ⟨h2, hL.sublist List.filter_sublist⟩, ?_⟩
  intro a ha b hb
  rcases List.mem_cons.1 hb with rfl | hb
  · exact h1 a ha
  · exact hs.trans _ _ _ (h1 a ha) (h2 b hb)

theorem cut_sublist (L : List K) (n m : Nat) : (L.take n ++ L.drop (n + m)).Sublist L := by
  have : (L.take n ++ L.drop (n + m)).Sublist (L.take n ++ L.drop n) := by
    refine List.Sublist.append (List.Sublist.refl _) ?_
    rw [← List.drop_drop]
    exact List.drop_sublist _ _
  rwa [List.take_append_drop] at this

/-- The calls other than move assignment keep the sequences increasing. -/
theorem rising_step {c : SCall K} {r : MRes K} {b : Bool} (hS : ∀ s, SWO (C s)) (hA : Rising C A) (hc : CmpStep dflt C c.own (.multi r) b C')
    (hne : ∀ prop d s, c ≠ .assign prop d s) : Rising C' (famStep (used dflt C c.own.plain) A ⟨c.own.plain, .multi r, b⟩) := by
  obtain ⟨res, n⟩ := r
  cases c with
  | assign prop d s => exact absurd rfl (hne _ _ _)
  | create comp a =>
    cases res <;> first | (cases hc; exact hA.put .nil) | (cases hc; exact hA)
  | on c =>
    cases c with
    | create a => cases res <;> first | (cases hc; exact hA.put .nil) | (cases hc; exact hA)
    | insert s k =>
      have e : C' = C := hc
      subst e
      show Rising C' (if b = true ∨ (A s).any (fun x => !C' s x k && !C' s k x) = true then A else put A s (addUpper (C' s) k (A s)))
      split
      · exact hA
      · rename_i hn
        exact hA.same (addUpper_rising (hS s) (hA s) (Bool.eq_false_iff.2 (not_or.1 hn).2))
    | eraseKey s k =>
      have e : C' = C := hc
      subst e
      exact hA.sub List.filter_sublist
    | eraseAt s it =>
      have e : C' = C := hc
      subst e
      exact hA.sub (cut_sublist _ _ _)
    | eraseRange s f l =>
      have e : C' = C := hc
      subst e
      cases res with
      | erasedRange q ks => exact hA.sub (cut_sublist _ _ _)
      | _ => exact hA
    | clear s =>
      have e : C' = C := hc
      subst e
      exact hA.sub (List.nil_sublist _)
    | find s k =>
      have e : C' = C := hc
      subst e
      exact hA
    | destroy s =>
      have e : C' = C := hc
      subst e
      exact hA
    | move s =>
      cases res with
      | obj d =>
        have e : C' = put C d (C s) := hc
        subst e
        exact (hA.put (hA s)).sub (List.nil_sublist _)
      | _ => cases hc; exact hA
    | copy prop d s =>
      have hc : C' = put C d (C s) ∨ b = true ∧ C' = C := hc
      simp only [SCall.own, OCall.plain, famStep, seqStep]
      by_cases e : d = s
      · subst e
        rw [if_pos rfl]
        rcases hc with rfl | ⟨-, rfl⟩
        · rw [put_self]; exact hA
        · exact hA
      · rw [if_neg e]
        cases b with
        | true =>
          rcases hc with rfl | ⟨-, rfl⟩
          · exact hA.put .nil
          · exact hA.same .nil
        | false =>
          rcases hc with rfl | ⟨h, -⟩
          · exact hA.put (hA s)
          · cases h

/-- The invariant of programs that use sets. -/
structure SInv (dflt : Less K) (env : Env (TNode K)) (x : OW K) (A : Ptr → List K) : Prop where
  hist : LHist dflt env x
  swo : ∀ s, SWO (x.cmp s)
  keys : KAbs x.w A
  rise : Rising x.cmp A

theorem SInv.own (hI : SInv dflt env x A) : OInv x := by
  refine ⟨hI.hist.mem, hI.swo, fun s o t ht => ?_⟩
  have h := hI.rise s
  rw [← hI.keys s o t ht, List.pairwise_map] at h
  exact h.imp fun h => (hI.swo s).asymm h

theorem _root_.Nestl.Good.of_env {w w' : W K} {P : List (Ptr × K) → Prop} (hg : Good w) (he : w'.env = w.env) (hI : InvP P w') : Good w' :=
  ⟨by rw [he]; exact hg.some, by rw [he]; exact hg.inj, by rw [he]; exact hg.ctor, hI.past⟩

theorem contents_live {w : W K} {s : Ptr} {L : List (Ptr × K)} (h : Contents w s L) : w.heap s ≠ none := by
  intro hn
  obtain ⟨b, w1, h1, -⟩ := runs_seq_inv (m := begin_ s) (f := fun b => do walkFrom b (← end_ s)) h
  obtain ⟨c, w2, h2, -⟩ := runs_seq_inv (m := rd s) (f := fun c : TNode K => pure c.left) h1
  unfold Runs rd at h2
  rw [hn] at h2
  split at h2 <;> cases h2

/-- What a call does. -/
def SDone (dflt : Less K) (env : Env (TNode K)) (x : OW K) (A : Ptr → List K) (c : SCall K) (r : FRes K) (lost : Bool) (x' : OW K) :
    Prop :=
  ∃ A', SInv dflt env x' A' ∧ SStep ⟨c, used dflt x.cmp c.own.plain, r, x'.w.err.isSome, lost⟩ A A' ∧
    (∃ r', CmpStep dflt x.cmp c.own r' x'.w.err.isSome x'.cmp ∧ ((∀ prop d s, c ≠ .assign prop d s) → r' = r)) ∧
    (Good x.w → x'.w.err = none ∧ lost = false ∧ Good x'.w) ∧
    (lost = true → ∃ d s, c = .assign false d s ∧ ¬ SameAlloc x.w d s) ∧
    (∀ prop d s, c = .assign prop d s → Alive x'.w d ∧ Alive x'.w s ∧ Contents x'.w s []) ∧
    ∀ s L, Alive x.w s → ¬ STouches c s → Contents x.w s L → Contents x'.w s L ∧ x'.cmp s = x.cmp s

/-- Calls other than move assignment. -/
theorem SInv.plain {c : SCall K} {r : FRes K} (hI : SInv dflt env x A) (hne : ∀ prop d s, c ≠ .assign prop d s)
    (hr : Runs (oexec dflt c.own) (oready x) r x') (hv : LValid dflt x c.own) (hlt : SWO (used dflt x.cmp c.own.plain))
    (he : FEffect (used dflt x.cmp c.own.plain) (ready x.w) c.own.plain r x'.w)
    (hc : CmpStep dflt x.cmp c.own r x'.w.err.isSome x'.cmp) (hO : OInv x') (hm : ∃ m, r = .multi m) :
    SDone dflt env x A c r false x' := by
  have hI0 := hI.own
  refine ⟨_, ⟨hI.hist.call hv hr, hO.swo, he.kabs hI0.mem.ready hlt (hI.keys.same rfl), ?_⟩, ?_, ⟨r, hc, fun _ => rfl⟩, ?_, by simp,
    fun prop d s e => absurd e (hne _ _ _), ?_⟩
  · obtain ⟨m, rfl⟩ := hm
    exact rising_step hI.swo hI.rise hc hne
  · cases c with
    | assign prop d s => exact absurd rfl (hne _ _ _)
    | _ => rfl
  · intro hg
    obtain ⟨h1, h2⟩ := good_step he hI0.mem.ready ⟨hg.some, hg.inj, hg.ctor, hg.past⟩ rfl
    exact ⟨h1, rfl, h2⟩
  · intro s L ha hs hL
    obtain ⟨i, o, t, rfl, hsp, ht, -⟩ := hI0.mem.tree ha
    obtain rfl := (contents_iff ht).1 hL
    refine ⟨(contents_iff (he.frame hI0.mem.ready (by exact ht) hs)).2 rfl, hc.other he hs ?_⟩
    intro e
    cases e
    exact Nat.lt_irrefl _ hsp

/-- Move assignment of a set to itself. -/
theorem SInv.self {prop : Bool} {s : Ptr} (hI : SInv dflt env x A) (hd : SWO dflt) (ha : Alive x.w s) :
    ∃ x', Runs (setAssign prop s s) (oready x) none x' ∧ SDone dflt env x A (.assign prop s s) .unit false x' := by
  have hh := hI.hist
  obtain ⟨i, o, u, rfl, _, hu, -⟩ := hh.mem.tree ha
  obtain ⟨r, x1, h1, hh1, h2, hc⟩ := hh.step' (c := .assign prop (.stk i) (.stk i)) ⟨ha, ha⟩ (by intro s o t e; cases e)
  have hk := FEffect.kabs h2 hh.mem.ready hd (A := A) (hI.keys.same rfl)
  have hc1 : x1.cmp = put x.cmp (.stk i) (x.cmp (.stk i)) := hc
  have hc2 : x1.cmp = x.cmp := by rw [hc1, put_self]
  have hf : ∀ s L, Alive x.w s → ¬ STouches (.assign prop (.stk i) (.stk i) : SCall K) s → Contents x.w s L → Contents x1.w s L ∧ x1.cmp s = x.cmp s := by
    intro s L ha hs hL
    obtain ⟨j, o, t, rfl, hsp, ht, -⟩ := hh.mem.tree ha
    obtain rfl := (contents_iff ht).1 hL
    exact ⟨(contents_iff (h2.frame hh.mem.ready (by exact ht) hs)).2 rfl, by rw [hc2]⟩
  have hg : Good x.w → x1.w.err = none ∧ false = false ∧ Good x1.w := fun hg => by
    obtain ⟨h3, h4⟩ := good_step h2 hh.mem.ready ⟨hg.some, hg.inj, hg.ctor, hg.past⟩ rfl
    exact ⟨h3, rfl, h4⟩
  have key : r = .ok true → Contents x1.w (.stk i) [] → ∃ x', Runs (setAssign prop (.stk i) (.stk i)) (oready x) none x' ∧
      SDone dflt env x A (.assign prop (.stk i) (.stk i)) .unit false x' := by
    rintro rfl hs
    have hk : KAbs x1.w (put (put A (.stk i) (A (.stk i))) (.stk i) []) := hk
    refine ⟨x1, runs_seq (runs_moveAssignO h1) rfl, _, ⟨hh1, by rw [hc2]; exact hI.swo, hk, ?_⟩,
      ⟨A (.stk i), List.prefix_refl _, fun _ => rfl, rfl⟩, ⟨_, hc, fun h => absurd rfl (h _ _ _)⟩, hg, by simp, ?_, hf⟩
    · rw [hc2, put_self]
      exact hI.rise.sub (List.nil_sublist _)
    · rintro prop d s ⟨⟩
      exact ⟨⟨i, rfl, contents_live hs⟩, ⟨i, rfl, contents_live hs⟩, hs⟩
  generalize hw1 : x1.w = w1 at h2
  cases h2 with
  | assignSelf _ hu' _ =>
    have hd1 := congrArg World.heap hw1
    rw [World.setHeap_heap] at hd1
    rw [← hd1] at hu'
    exact key rfl ((contents_iff hu').2 rfl)
  | assign hne => exact absurd rfl hne
  | assignRefused hu0 hv0 hoo => exact absurd (Tree.unique hu0 hv0).1 hoo

/-- Move assignment between two sets. -/
theorem SInv.assign {prop : Bool} {d s : Ptr} (hI : SInv dflt env x A) (had : Alive x.w d) (has : Alive x.w s) (hne : d ≠ s) :
    ∃ e x', Runs (setAssign prop d s) (oready x) e x' ∧ SDone dflt env x A (.assign prop d s) .unit e.isSome x' := by
  have hI0 := hI.own
  obtain ⟨j, o, t, rfl, _, ht, -⟩ := hI0.mem.tree has
  have hkt := hI.keys _ _ _ ht
  have hP : t.nodes.Pairwise fun a b => x.cmp (.stk j) a.2 b.2 = true := by
    have h := hI.rise (.stk j)
    rwa [← hkt, List.pairwise_map] at h
  obtain ⟨e, x', L', h1, h2, h3, h4, h5, h6, h7, h8, h9, h10, -, h12, h13, h15, h14⟩ :=
    setAssign_runs (prop := prop) hI.hist had has hne (hI.swo _) ((contents_iff ht).2 rfl) hP
  rw [hkt] at h7 h8
  have hSW : ∀ p, SWO (x'.cmp p) := by
    intro p
    rw [h3]
    by_cases ep : p = d
    · subst ep; rw [put_same]; exact hI.swo _
    · rw [put_other _ _ ep]; exact hI.swo _
  refine ⟨e, x', h1, _, ⟨h2, hSW, h14 A hI.keys, ?_⟩, ⟨_, h7, ?_, rfl⟩, ⟨.ok true, h3, fun h => absurd rfl (h _ _ _)⟩, ?_, ?_, ?_, ?_⟩
  · rw [h3]
    refine (hI.rise.put ?_).sub (List.nil_sublist _)
    exact (hI.rise (.stk j)).sublist h7.sublist
  · intro hl
    exact h8 (by simpa using hl)
  · exact fun hg => ⟨h15, by rw [h9 hg]; rfl, hg.of_env h13 h2.mem⟩
  · intro hl
    have : ¬ (prop = true ∨ SameAlloc x.w d (.stk j)) := fun h => by rw [(h6 h).1] at hl; cases hl
    obtain ⟨g1, g2⟩ := not_or.1 this
    cases prop with
    | true => exact absurd rfl g1
    | false => exact ⟨d, .stk j, rfl, g2⟩
  · rintro _ _ _ ⟨⟩
    obtain ⟨k, rfl, -⟩ := had
    exact ⟨⟨k, rfl, contents_live h5⟩, ⟨j, rfl, contents_live h4⟩, h4⟩
  · intro p L ha hp hL
    obtain ⟨g1, g2⟩ := not_or.1 hp
    exact ⟨h12 p L g1 g2 ha hL, by rw [h3, put_other _ _ g1]⟩

theorem SInv.start (hd : SWO dflt) (env : Env (TNode K)) : SInv dflt env (ostart dflt env) fun _ => [] :=
  ⟨.start, fun _ => hd, fun _ _ _ h => absurd rfl h.ne_none, fun _ => .nil⟩

theorem SInv.call {c : SCall K} (hI : SInv dflt env x A) (hd : SWO dflt) (hv : SValid x c) :
    ∃ r lost x', Runs (sexec dflt c) (oready x) (r, lost) x' ∧ SDone dflt env x A c r lost x' := by
  cases c with
  | create comp a =>
    obtain ⟨r, x', h1, h2, h3, h4⟩ := wp.runs (hI.own.create (a := a) hd hv)
    refine ⟨r, false, x', runs_seq h1 rfl, hI.plain (by intro _ _ _ h; cases h) h1 trivial hd h2 h3 h4 ?_⟩
    generalize x'.w = w' at h2
    cases h2 with
    | multi => exact ⟨_, rfl⟩
  | on c =>
    obtain ⟨r, x', h1, h2, h3, h4⟩ := wp.runs (hI.own.call (c := .multi (.base c)) hd ⟨hv, trivial⟩)
    refine ⟨r, false, x', runs_seq h1 rfl, hI.plain (by intro _ _ _ h; cases h) h1 hv (used_swo hd hI.swo _) h2 h3 h4 ?_⟩
    generalize x'.w = w' at h2
    cases h2 with
    | multi => exact ⟨_, rfl⟩
  | assign prop d s =>
    by_cases e : d = s
    · subst e
      obtain ⟨x', h1, h2⟩ := hI.self (prop := prop) hd hv.1
      exact ⟨.unit, false, x', runs_seq h1 rfl, h2⟩
    · obtain ⟨e, x', h1, h2⟩ := hI.assign (prop := prop) hv.1 hv.2 e
      exact ⟨.unit, e.isSome, x', runs_seq h1 rfl, h2⟩

theorem SHist.inv (hh : SHist dflt env h x) (hd : SWO dflt) : ∃ A, SRuns h A ∧ SInv dflt env x A := by
  induction hh with
  | start => exact ⟨_, .start, .start hd env⟩
  | call hp hv hr ih =>
    obtain ⟨A, h1, h2⟩ := ih
    obtain ⟨r, lost, x', h3, A', h4, h5, -⟩ := h2.call hd hv
    obtain ⟨e1, e2⟩ := Runs.det h3 hr
    cases e1
    subst e2
    exact ⟨A', .call h1 h5, h4⟩

theorem SHist.good (hh : SHist dflt env h x) (hd : SWO dflt) (h0 : Good (Set.start env)) :
    Good x.w ∧ ∀ e ∈ h, e.failed = false ∧ e.lost = false := by
  induction hh with
  | start => exact ⟨h0, by simp⟩
  | call hp hv hr ih =>
    obtain ⟨A, h1, h2⟩ := hp.inv hd
    obtain ⟨r, lost, x', h3, A', h4, -, -, h5, -⟩ := h2.call hd hv
    obtain ⟨e1, e2⟩ := Runs.det h3 hr
    cases e1
    subst e2
    obtain ⟨g1, g2, g3⟩ := h5 ih.1
    refine ⟨g3, ?_⟩
    intro e he
    rcases List.mem_cons.1 he with rfl | he
    · exact ⟨by simp [g1], g2⟩
    · exact ih.2 e he

theorem SStep.unique {e : SEntry K} {A B B' : Ptr → List K} (h1 : SStep e A B) (h2 : SStep e A B') (hl : e.lost = false) : B = B' := by
  obtain ⟨c, lt, r, f, l⟩ := e
  cases c with
  | assign prop d s =>
    obtain ⟨L, -, g1, rfl⟩ := h1
    obtain ⟨L', -, g2, rfl⟩ := h2
    rw [g1 hl, g2 hl]
  | create comp a => exact Eq.trans h1 (Eq.symm h2)
  | on c => exact Eq.trans h1 (Eq.symm h2)

theorem SRuns.unique : ∀ {h : List (SEntry K)} {A B : Ptr → List K}, SRuns h A → SRuns h B → (∀ e ∈ h, e.lost = false) → A = B := by
  intro h
  induction h with
  | nil => intro A B h1 h2 _; cases h1; cases h2; rfl
  | cons e h ih =>
    intro A B h1 h2 hl
    cases h1 with
    | call h1 s1 =>
      cases h2 with
      | call h2 s2 =>
        have := ih h1 h2 fun e he => hl e (List.mem_cons_of_mem _ he)
        subst this
        exact s1.unique s2 (hl e (List.mem_cons_self ..))

/-! ### A concrete history -/

theorem sdemo_create {h : List (SEntry Nat)} {x : OW Nat} (hh : SHist natLt goodEnv h x) (comp : Less Nat) (a : Nat) (hs : SWO comp) :
    ∃ n x', SHist natLt goodEnv (⟨.create comp a, natLt, .multi ⟨.obj (.stk x.w.sp), n⟩, false, false⟩ :: h) x' ∧ x'.w.sp = x.w.sp + 1 ∧
      x'.cmp = put x.cmp (.stk x.w.sp) comp ∧ Tree x'.w.heap (.stk x.w.sp) a .nil ∧
      ∀ p o t, Tree x.w.heap p o t → Tree x'.w.heap p o t := by
  obtain ⟨A, -, hI⟩ := hh.inv natLt_swo
  obtain ⟨r, x', h1, h2, h3, -⟩ := wp.runs (hI.own.create (a := a) natLt_swo hs)
  have h4 := SHist.call (c := .create comp a) (lost := false) (r := r) hh hs (runs_seq h1 rfl)
  cases x' with
  | mk w' C' =>
    cases h2 with
    | multi h2 =>
      cases h2 with
      | base h2 hi =>
        cases h2 with
        | create hc he =>
          have he : w'.err = none := he
          rw [he] at h4
          exact ⟨_, _, h4, hc.sp, h3, hc.tree, fun p o t ht => by
            obtain ⟨i, rfl⟩ := ht.ok.hdr
            exact hc.other hI.own.mem.ready ht⟩

theorem sdemo_insert {h : List (SEntry Nat)} {x : OW Nat} {o o1 : Nat} {t t1 : T Nat} (hh : SHist natLt goodEnv h x)
    (ht : Tree x.w.heap (.stk 0) o t) (ht1 : Tree x.w.heap (.stk 1) o1 t1) (k : Nat) :
    ∃ m x' t', SHist natLt goodEnv (⟨.on (.insert (.stk 0) k), x.cmp (.stk 0), .multi m, false, false⟩ :: h) x' ∧
      Tree x'.w.heap (.stk 0) o t' ∧ Tree x'.w.heap (.stk 1) o1 t1 ∧ x'.cmp = x.cmp := by
  obtain ⟨A, -, hI⟩ := hh.inv natLt_swo
  have hv : SValid x (.on (.insert (.stk 0) k)) := ⟨0, rfl, ht.ne_none⟩
  obtain ⟨r, x', h1, h2, h3, -⟩ := wp.runs (hI.own.call (c := .multi (.base (.insert (.stk 0) k))) natLt_swo ⟨hv, trivial⟩)
  have hg := (hh.good natLt_swo good_start).1
  obtain ⟨he, -⟩ := good_step h2 hI.own.mem.ready ⟨hg.some, hg.inj, hg.ctor, hg.past⟩ rfl
  have h4 := SHist.call (c := .on (.insert (.stk 0) k)) (lost := false) (r := r) hh hv (runs_seq h1 rfl)
  rw [he] at h4
  have hf : Tree x'.w.heap (.stk 1) o1 t1 := h2.frame hI.own.mem.ready ht1 (by show ¬ Ptr.stk 1 = Ptr.stk 0; simp)
  cases h2 with
  | multi h2 =>
    cases h2 with
    | base h2 _ =>
      cases h2 with
      | insertOld g1 _ _ _ g2 => exact ⟨_, x', _, h4, by rw [g2]; exact ht, hf, h3⟩
      | insertFail _ _ _ _ _ _ hr => exact absurd hr (Good.not_refused (w := ready x.w) ⟨hg.some, hg.inj, hg.ctor, hg.past⟩)
      | insertNew g1 g2 =>
        obtain ⟨rfl, -⟩ := Tree.unique (H := x.w.heap) g1 ht
        exact ⟨_, x', _, h4, g2, hf, h3⟩

theorem sdemo_run {n1 n2 : Nat} {m3 m4 m5 : MRes Nat} : SRuns
    [⟨.on (.insert (.stk 0) 1), natLt, .multi m5, false, false⟩, ⟨.on (.insert (.stk 0) 3), natLt, .multi m4, false, false⟩,
      ⟨.on (.insert (.stk 0) 2), natLt, .multi m3, false, false⟩, ⟨.create natGt 8, natLt, .multi ⟨.obj (.stk 1), n2⟩, false, false⟩,
      ⟨.create natLt 7, natLt, .multi ⟨.obj (.stk 0), n1⟩, false, false⟩] (put (fun _ => []) (.stk 0) [1, 2, 3]) := by
  have e : ∀ p : Ptr, put (fun _ => ([] : List Nat)) p [] = fun _ => [] := fun p => put_self (fun _ => []) p
  refine .call (A := put (fun _ => []) (.stk 0) [2, 3]) (.call (A := put (fun _ => []) (.stk 0) [2]) (.call (A := fun _ => [])
    (.call (A := fun _ => []) (.call .start ?_) ?_) ?_) ?_) ?_
  all_goals
    simp [SStep, famStep, seqStep, SCall.own, OCall.plain, addUpper, natLt, put_same, put_put, e]

/-- Object 0 holds 1, 2, 3 in the usual order, object 1 has the reverse order and another allocator; then object 0 is moved to object
1, which takes over the order and the keys. -/
theorem sdemo : ∃ h x x', SHist natLt goodEnv h x ∧ Alive x.w (.stk 0) ∧ Alive x.w (.stk 1) ∧ ¬ SameAlloc x.w (.stk 1) (.stk 0) ∧
    x.cmp (.stk 0) = natLt ∧ x.cmp (.stk 1) = natGt ∧ Alive x'.w (.stk 1) ∧ SRuns h (put (fun _ => []) (.stk 0) [1, 2, 3]) ∧
    SHist natLt goodEnv (⟨.assign false (.stk 1) (.stk 0), natLt, .unit, false, false⟩ :: h) x' ∧ x'.cmp (.stk 1) = natLt ∧
    SRuns (⟨.assign false (.stk 1) (.stk 0), natLt, .unit, false, false⟩ :: h)
      (put (put (put (fun _ => []) (.stk 0) [1, 2, 3]) (.stk 1) [1, 2, 3]) (.stk 0) []) := by
  have h0 : SHist natLt goodEnv [] _ := .start
  obtain ⟨n1, x1, h1, s1, c1, t1, f1⟩ := sdemo_create h0 natLt 7 natLt_swo
  obtain ⟨n2, x2, h2, s2, c2, t2, f2⟩ := sdemo_create h1 natGt 8 natGt_swo
  have e0 : (ostart natLt goodEnv).w.sp = 0 := rfl
  rw [e0] at s1 c1 t1 h1 h2
  have e1 : x1.w.sp = 1 := s1
  rw [e1] at h2 c2 t2
  have u2 := f2 _ _ _ t1
  have d0 : x2.cmp (.stk 0) = natLt := by rw [c2, put_other _ _ (by simp), c1, put_same]
  have d1 : x2.cmp (.stk 1) = natGt := by rw [c2, put_same]
  obtain ⟨m3, x3, t3, h3, u3, v3, c3⟩ := sdemo_insert h2 u2 t2 2
  obtain ⟨m4, x4, t4, h4, u4, v4, c4⟩ := sdemo_insert h3 u3 v3 3
  obtain ⟨m5, x5, t5, h5, u5, v5, c5⟩ := sdemo_insert h4 u4 v4 1
  rw [c4, c3, d0] at h5
  have c5 : x5.cmp = x2.cmp := by rw [c5, c4, c3]
  have a0 : Alive x5.w (.stk 0) := ⟨0, rfl, u5.ne_none⟩
  have a1 : Alive x5.w (.stk 1) := ⟨1, rfl, v5.ne_none⟩
  obtain ⟨A, hA, hI⟩ := h5.inv natLt_swo
  obtain ⟨r, lost, x6, h6, A', h7, h8, ⟨r', h9, -⟩, hg, -, hal, -⟩ := hI.call (c := .assign false (.stk 1) (.stk 0)) natLt_swo ⟨a1, a0⟩
  obtain ⟨he, rfl, -⟩ := hg (h5.good natLt_swo good_start).1
  have h10 := SHist.call (c := .assign false (.stk 1) (.stk 0)) h5 ⟨a1, a0⟩ h6
  have hu : r = .unit := by
    obtain ⟨e, x7, g1, g2⟩ := runs_seq_inv (m := setAssign false (.stk 1) (.stk 0)) (f := fun e => pure (FRes.unit, e.isSome)) h6
    unfold Runs at g2
    exact (congrArg (fun q => match q with | some (.ok ((r, _), _)) => r | _ => .unit) g2).symm
  subst hu
  rw [he] at h10
  refine ⟨_, x5, x6, h5, a0, a1, ?_, by rw [c5, d0], by rw [c5, d1], (hal _ _ _ rfl).1, sdemo_run, h10, ?_, .call sdemo_run ⟨[1, 2, 3], ?_, ?_, rfl⟩⟩
  · rintro ⟨a, ⟨n, g1, g2⟩, ⟨m, g3, g4⟩⟩
    rw [v5.cell] at g1; rw [u5.cell] at g3
    cases g1; cases g3
    cases g2.trans g4.symm
  · have h9 : x6.cmp = put x5.cmp (.stk 1) (x5.cmp (.stk 0)) := h9
    rw [h9, put_same, c5, d0]
  · rw [put_same]; exact List.prefix_refl _
  · intro _; rw [put_same]

/-! ### The properties -/

/-- C118: after any history of calls of sets, including move assignments, every set holds exactly the keys that the history says,
each once, in the strict order of the comparator that the set has now. -/
theorem set_program_history (hh : SHist dflt env h x) (hd : SWO dflt) :
    ∃ A, SRuns h A ∧ ∀ s, Alive x.w s → ∃ L, Contents x.w s L ∧ L.map Prod.snd = A s ∧ (A s).Pairwise fun a b => x.cmp s a b = true := by
  obtain ⟨A, h1, h2⟩ := hh.inv hd
  refine ⟨A, h1, fun s ha => ?_⟩
  obtain ⟨i, o, t, rfl, _, ht, -⟩ := h2.hist.mem.tree ha
  exact ⟨t.nodes, (contents_iff ht).2 rfl, h2.keys _ _ _ ht, h2.rise _⟩

example : ∃ h x, SHist natLt goodEnv h x ∧ SWO natLt ∧ Alive x.w (.stk 1) ∧ x.cmp (.stk 1) = natLt ∧
    ∃ A, SRuns h A ∧ A (.stk 1) = [1, 2, 3] ∧ A (.stk 0) = [] := by
  obtain ⟨h, x, x', h1, h2, h3, h4, h5, h6, ha, h7, h8, h9, h10⟩ := sdemo
  refine ⟨_, x', h8, natLt_swo, ha, h9, _, h10, ?_, ?_⟩
  · rw [put_other _ _ (by simp), put_same]
  · rw [put_same]

/-- C118: if the allocator always delivers and no copy of a key or a comparator fails, then no call of the history reported an error
and no error was thrown away: then the keys are determined by the calls and their results. -/
theorem set_program_exact (hh : SHist dflt env h x) (hd : SWO dflt) (h0 : Good (Set.start env)) :
    (∀ e ∈ h, e.failed = false ∧ e.lost = false) ∧ ∃ A, SRuns h A ∧ (∀ B, SRuns h B → B = A) ∧
      ∀ s, Alive x.w s → ∃ L, Contents x.w s L ∧ L.map Prod.snd = A s := by
  have hl := (hh.good hd h0).2
  obtain ⟨A, h1, h2⟩ := hh.inv hd
  refine ⟨hl, A, h1, fun B hB => hB.unique h1 fun e he => (hl e he).2, fun s ha => ?_⟩
  obtain ⟨i, o, t, rfl, _, ht, -⟩ := h2.hist.mem.tree ha
  exact ⟨t.nodes, (contents_iff ht).2 rfl, h2.keys _ _ _ ht⟩

example : ∃ h x, SHist natLt goodEnv h x ∧ SWO natLt ∧ Good (Set.start (K := Nat) goodEnv) ∧ h ≠ [] := by
  obtain ⟨h, x, x', h1, h2, h3, h4, h5, h6, ha, h7, h8, h9, h10⟩ := sdemo
  exact ⟨_, x', h8, natLt_swo, good_start, by simp⟩

/-- C118: every valid call on sets terminates without any fault and leads to a reachable state.  The comparators change as described by
`CmpStep` (move assignment copies the comparator in all cases), the sets that the call is not about keep their elements and their
comparator, and an error is thrown away only by move assignment between sets with different allocators that do not propagate. -/
theorem set_program_call {c : SCall K} (hr : SReach dflt x) (hd : SWO dflt) (hv : SValid x c) :
    ∃ r lost x', Runs (sexec dflt c) (oready x) (r, lost) x' ∧ SReach dflt x' ∧
      (∀ prop d s, c = .assign prop d s → x'.cmp = put x.cmp d (x.cmp s)) ∧
      ((∀ prop d s, c ≠ .assign prop d s) → CmpStep dflt x.cmp c.own r x'.w.err.isSome x'.cmp) ∧
      (lost = true → ∃ d s, c = .assign false d s ∧ ¬ SameAlloc x.w d s) ∧
      ∀ s L, Alive x.w s → ¬ STouches c s → Contents x.w s L → Contents x'.w s L ∧ x'.cmp s = x.cmp s := by
  obtain ⟨env, h, hh⟩ := hr
  obtain ⟨A, -, h2⟩ := hh.inv hd
  obtain ⟨r, lost, x', h3, A', h4, h5, ⟨r', h6, h7⟩, h8, h9, -, h10⟩ := h2.call hd hv
  refine ⟨r, lost, x', h3, ⟨env, _, .call hh hv h3⟩, ?_, fun hn => h7 hn ▸ h6, h9, h10⟩
  rintro prop d s rfl
  exact h6

-- e.g. move assignment between sets with different allocators and opposite orders
example : ∃ x, SReach natLt x ∧ SWO natLt ∧ SValid x (.assign false (.stk 1) (.stk 0)) ∧ ¬ SameAlloc x.w (.stk 1) (.stk 0) ∧
    x.cmp (.stk 1) ≠ x.cmp (.stk 0) := by
  obtain ⟨h, x, x', h1, h2, h3, h4, h5, h6, _⟩ := sdemo
  refine ⟨x, ⟨_, _, h1⟩, natLt_swo, ⟨h3, h2⟩, h4, ?_⟩
  rw [h5, h6]
  intro e
  have := congrFun (congrFun e 0) 1
  simp [natLt, natGt] at this

theorem sdemo_full : ∃ x L, SReach natLt x ∧ Alive x.w (.stk 1) ∧ Contents x.w (.stk 1) L ∧ L.map Prod.snd = [1, 2, 3] := by
  obtain ⟨h, x, x', h1, h2, h3, h4, h5, h6, ha, h7, h8, h9, h10⟩ := sdemo
  obtain ⟨A, hA, hI⟩ := h8.inv natLt_swo
  obtain ⟨i, o, t, e, _, ht, -⟩ := hI.hist.mem.tree ha
  refine ⟨x', t.nodes, ⟨_, _, h8⟩, ha, (contents_iff ht).2 rfl, (hI.keys _ _ _ ht).trans ?_⟩
  rw [hA.unique h10 fun e he => ((h8.good natLt_swo good_start).2 e he).2, put_other _ _ (by simp), put_same]

/-- C118: a query of a set uses the comparator of the set; it terminates without any fault, writes nothing and answers right. -/
theorem set_program_query {q : Query K} {L M : List (Ptr × K)} (hr : SReach dflt x) (hd : SWO dflt) (hv : QValid x.w q)
    (hL : Contents x.w q.objects.1 L) (hM : Contents x.w q.objects.2 M) :
    ∃ r c, Right (x.cmp q.objects.1) L M q r ∧ c ≤ 4 * Nat.log2 (L.length + 1) + 1 ∧ Runs (oask q) x r ⟨x.w.addCmp c, x.cmp⟩ := by
  obtain ⟨env, h, hh⟩ := hr
  obtain ⟨A, -, h2⟩ := hh.inv hd
  have hI := h2.own
  obtain ⟨r, c, h1, h2, h3⟩ := query_in (lt := x.cmp q.objects.1) hI.mem (by
    rintro _ o t ⟨⟩ ht _
    exact hI.ord _ _ _ ht) hv hL hM
  refine ⟨r, c, h1 (hI.swo _), h2, ?_⟩
  have := h3 x.w fun _ _ => rfl
  unfold oask Runs
  show lift (ask (x.cmp q.objects.1) q) x = _
  unfold lift
  rw [this]

example : ∃ x L, SReach natLt x ∧ QValid x.w (.find (.stk 1) 2) ∧ Contents x.w (.stk 1) L ∧ L.map Prod.snd = [1, 2, 3] := by
  obtain ⟨x, L, h1, h2, h3, h4⟩ := sdemo_full
  exact ⟨x, L, h1, ⟨h2, h2, trivial⟩, h3, h4⟩

/-- C118: nothing is ever leaked: every allocated block is a node of exactly one live set. -/
theorem set_program_no_leak {a : Nat} (hr : SReach dflt x) (hd : SWO dflt) (hm : x.w.heap (.dyn a) ≠ none) :
    ∃ s L k, Alive x.w s ∧ Contents x.w s L ∧ (.dyn a, k) ∈ L ∧
      ∀ s' L' k', Alive x.w s' → Contents x.w s' L' → (.dyn a, k') ∈ L' → s' = s := by
  obtain ⟨env, h, hh⟩ := hr
  obtain ⟨A, -, h2⟩ := hh.inv hd
  exact any_order_no_leak ⟨env, h2.hist⟩ hm

example : ∃ x L, SReach natLt x ∧ Contents x.w (.stk 1) L ∧ L ≠ [] ∧ ∀ y ∈ L, x.w.heap y.1 ≠ none := by
  obtain ⟨x, L, h1, h2, h3, h4⟩ := sdemo_full
  obtain ⟨env, h, hh⟩ := h1
  refine ⟨x, L, ⟨env, h, hh⟩, h3, by rintro rfl; simp at h4, ?_⟩
  intro y hy
  obtain ⟨A, -, hI⟩ := hh.inv natLt_swo
  obtain ⟨i, o, t, e, _, ht, -⟩ := hI.hist.mem.tree h2
  obtain rfl := (contents_iff ht).1 h3
  obtain ⟨n, hn, _⟩ := Rep_alloc ht.rep y.1 (by simp only [T.ptrs, List.mem_map]; exact ⟨y, hy, rfl⟩)
  rw [hn]; simp

end
end Nestl.Own
