import Verif.Own.Props
set_option autoImplicit false
/-
Trees whose elements are not in the order of their comparator (C94).  This happens after a refused move assignment between
objects with different comparators (C92), if a comparator with a state changes its mind between two calls, or if the client
changes elements behind the back of the tree (for the model: the comparator of identities of elements changes).  The results of
lookups then mean little; this file proves that nothing worse happens.
-/
namespace Nestl.Own
open Nestl.RB Nestl.Set Nestl.Multi Nestl.Full
variable {K : Type}

/-- Preconditions without any requirement on orders: only hinted insertions still need a comparator that is asymmetric. -/
def LValid (dflt : Less K) (x : OW K) : OCall K → Prop
  | .create _ _ => True
  | .on c => FValid (used dflt x.cmp c) x.w c

/-- `LHist dflt env x`: `x` is reached from the start by any calls, where between the calls the comparators of the objects may
change in any way. -/
inductive LHist (dflt : Less K) (env : Env (TNode K)) : OW K → Prop
  | start : LHist dflt env (ostart dflt env)
  | call {x x' : OW K} {c : OCall K} {r : FRes K} : LHist dflt env x → LValid dflt x c → Runs (oexec dflt c) (oready x) r x' →
      LHist dflt env x'
  | change {x : OW K} {C : Ptr → Less K} : LHist dflt env x → LHist dflt env ⟨x.w, C⟩

/-- Reachable program states. -/
def LReach (dflt : Less K) (x : OW K) : Prop := ∃ env, LHist dflt env x

/-- `L'` is `L` with one more element `(p, k)`. -/
def OneMore (p : Ptr) (k : K) (L L' : List (Ptr × K)) : Prop := ∃ B C, L = B ++ C ∧ L' = B ++ (p, k) :: C

/-- What a call does to the elements `A` of the objects (each with its address), whatever the comparators answer. -/
def Loose (c : FCall K) (r : FRes K) (failed : Bool) (A A' : Ptr → List (Ptr × K)) : Prop :=
  match c, r with
  | .multi (.base (.create _)), .multi ⟨.obj s, _⟩ => A' = put A s []
  | .multi (.base (.insert s k)), .multi ⟨.ins p b, _⟩ =>
      if failed then A' = A else if b then ∃ L', OneMore p k (A s) L' ∧ A' = put A s L' else A' = A ∧ ∃ k', (p, k') ∈ A s
  | .multi (.base (.eraseKey s _)), .multi ⟨.num n, _⟩ => ∃ B M C, A s = B ++ (M ++ C) ∧ n = M.length ∧ A' = put A s (B ++ C)
  | .multi (.base (.eraseAt s z)), .multi ⟨.erased q k, _⟩ => ∃ B C, A s = B ++ (z, k) :: C ∧ q = posOf s C ∧ A' = put A s (B ++ C)
  | .multi (.base (.eraseRange s f l)), .multi ⟨.erasedRange q ks, _⟩ => ∃ B M C, A s = B ++ (M ++ C) ∧ f = posOf s (M ++ C) ∧
      l = posOf s C ∧ q = l ∧ ks = M.map Prod.snd ∧ A' = put A s (B ++ C)
  | .multi (.base (.clear s)), _ => A' = put A s []
  | .multi (.base (.find s _)), .multi ⟨.pos p, _⟩ => A' = A ∧ (p = s ∨ ∃ k', (p, k') ∈ A s)
  | .multi (.base (.copy _ d s)), _ =>
      if d = s then A' = A else if failed then A' = put A d [] else ∃ L', L'.map Prod.snd = (A s).map Prod.snd ∧ A' = put A d L'
  | .multi (.base (.move s)), .multi ⟨.obj d, _⟩ => A' = put (put A d (A s)) s []
  | .multi (.base (.destroy _)), _ => A' = A
  | .multi (.equal _ s k), .multi ⟨.pos p, _⟩ => if failed then A' = A else ∃ L', OneMore p k (A s) L' ∧ A' = put A s L'
  | .swap _ s t, _ => A' = put (put A s (A t)) t (A s)
  | .assign _ d s, .ok b => if b then A' = put (put A d (A s)) s [] else A' = A
  | .eraseKeys s _, _ => ∃ L', L'.Sublist (A s) ∧ A' = put A s L'
  | .unique m s k, r => if failed then A' = A else ∃ p b, r = uresult m p b ∧
      if b then ∃ L', OneMore p k (A s) L' ∧ A' = put A s L' else A' = A ∧ ∃ k', (p, k') ∈ A s
  | _, _ => False

/-- `A` lists the elements of all objects. -/
def Shows (w : W K) (A : Ptr → List (Ptr × K)) : Prop := ∀ s, Alive w s → Contents w s (A s)

section
variable {w w' : W K} {A : Ptr → List (Ptr × K)} {lt : Less K} {S : Prop}

/-- The same for trees. -/
def NAbs (w : W K) (A : Ptr → List (Ptr × K)) : Prop := ∀ s o t, Tree w.heap s o t → t.nodes = A s

theorem NAbs.same (hA : NAbs w A) (hh : w'.heap = w.heap) : NAbs w' A := by
  intro s o t h; rw [hh] at h; exact hA s o t h

theorem shows_iff {P : List (Ptr × K) → Prop} (hI : InvP P w) : Shows w A ↔ NAbs w A := by
  constructor
  · intro h s o t ht
    obtain ⟨i, rfl⟩ := ht.ok.hdr
    exact ((contents_iff ht).1 (h _ ⟨i, rfl, ht.ne_none⟩)).symm
  · intro h s ha
    obtain ⟨i, o, t, rfl, _, ht, -⟩ := hI.tree ha
    exact (contents_iff ht).2 (h _ _ _ ht).symm

theorem _root_.Nestl.Set.Change.nabs {P : List (Ptr × K) → Prop} {hdr : Ptr} {o o' : Nat} {t t' : T K} (hc : Change w w' hdr t t')
    (hI : InvP P w) (ht : Tree w.heap hdr o t) (ht' : Tree w'.heap hdr o' t') (hA : NAbs w A) {M : List (Ptr × K)} (hP : t'.nodes = M) :
    NAbs w' (put A hdr M) := by
  intro s o2 t2 h
  by_cases e : s = hdr
  · subst e
    obtain ⟨-, rfl⟩ := Tree.unique h ht'
    rw [put_same]; exact hP
  · rw [put_other _ _ e]
    obtain ⟨i, rfl⟩ := h.ok.hdr
    exact hA _ _ _ (hc.other_inv hI ht e h ht')

theorem _root_.Nestl.Full.Change2.nabs {P : List (Ptr × K) → Prop} {s t : Ptr} {o o' o1 o2 : Nat} {u v u' v' : T K}
    (hc : Change2 w w' s t u v u' v') (hI : InvP P w) (hu : Tree w.heap s o u)
    (hv : Tree w.heap t o' v) (hu' : Tree w'.heap s o1 u') (hv' : Tree w'.heap t o2 v') (hA : NAbs w A)
    {M N : List (Ptr × K)} (hM : u'.nodes = M) (hN : v'.nodes = N) :
    NAbs w' (put (put A s M) t N) := by
  intro x ox tx h
  by_cases e2 : x = t
  · rw [e2] at h ⊢
    rw [put_same, ← hN, (Tree.unique h hv').2]
  · rw [put_other _ _ e2]
    by_cases e1 : x = s
    · rw [e1] at h ⊢
      rw [put_same, ← hM, (Tree.unique h hu').2]
    · rw [put_other _ _ e1]
      obtain ⟨j, rfl⟩ := h.ok.hdr
      exact hA _ _ _ (hc.other_inv hI hu hv e1 e2 h)

/-- What a call does to the elements. -/
theorem loose_step {P : List (Ptr × K) → Prop} {c : FCall K} {r : FRes K} (h : FEffectS S lt w c r w') (hI : InvP P w)
    (he0 : w.err = none) (hA : NAbs w A) : ∃ A', NAbs w' A' ∧ Loose c r w'.err.isSome A A' := by
  cases h with
  | multi h =>
    cases h with
    | base h hidx =>
      cases h with
      | create hc he =>
        refine ⟨put A (.stk w.sp) [], ?_, rfl⟩
        intro s o2 t2 h
        by_cases e : s = .stk w.sp
        · subst e
          obtain ⟨-, rfl⟩ := Tree.unique h hc.tree
          simp [put_same, T.nodes]
        · rw [put_other _ _ e]
          obtain ⟨i, rfl⟩ := h.ok.hdr
          exact hA _ _ _ (hc.other_inv hI h (by simpa using e))
      | insertOld ht hn _ _ hh _ he =>
        refine ⟨A, hA.same hh, ?_⟩
        simp only [Loose, he, Option.isSome_none, Bool.false_eq_true, if_false, true_and]
        rw [← hA _ _ _ ht, hn]
        exact ⟨_, List.mem_append_right _ (List.mem_cons_self ..)⟩
      | insertFail ht hn _ hh _ he =>
        refine ⟨A, hA.same hh, ?_⟩
        simp only [Loose, he, Option.isSome_some, if_true]
      | insertNew ht ht' hn hn' _ hc _ he =>
        refine ⟨_, hc.nabs hI ht ht' hA hn', ?_⟩
        simp only [Loose, he, Option.isSome_none, Bool.false_eq_true, if_false, if_true]
        exact ⟨_, ⟨_, _, by rw [← hA _ _ _ ht, hn], rfl⟩, rfl⟩
      | eraseKey ht ht' hn hn' _ hc he =>
        exact ⟨_, hc.nabs hI ht ht' hA hn', _, _, _, by rw [← hA _ _ _ ht, hn], rfl, rfl⟩
      | eraseAt ht ht' hn hn' hc he =>
        exact ⟨_, hc.nabs hI ht ht' hA hn', _, _, by rw [← hA _ _ _ ht, hn], (posOf_eq _ _).symm, rfl⟩
      | eraseRange ht ht' hn hn' hc he =>
        exact ⟨_, hc.nabs hI ht ht' hA hn', _, _, _, by rw [← hA _ _ _ ht, hn], (posOf_eq _ _).symm, (posOf_eq _ _).symm, rfl, rfl, rfl⟩
      | clear ht ht' hc he => exact ⟨_, hc.nabs hI ht ht' hA rfl, rfl⟩
      | findNone ht hn _ _ hh => exact ⟨A, hA.same hh, rfl, .inl rfl⟩
      | findSome ht hn _ _ hh =>
        refine ⟨A, hA.same hh, rfl, .inr ?_⟩
        rw [← hA _ _ _ ht, hn]
        exact ⟨_, List.mem_append_right _ (List.mem_cons_self ..)⟩
      | copySelf he =>
        subst he
        refine ⟨A, hA, ?_⟩
        simp [Loose]
      | copyFail hne ht _ ht' hc he =>
        refine ⟨_, hc.nabs hI ht ht' hA rfl, ?_⟩
        simp only [Loose, he, Option.isSome_some, hne, if_false, if_true, T.nodes]
      | copyOk hne ht hs ht' hl hc he =>
        refine ⟨_, hc.nabs hI ht ht' hA rfl, ?_⟩
        simp only [Loose, he, Option.isSome_none, hne, if_false, Bool.false_eq_true]
        exact ⟨_, by rw [← hA _ _ _ hs]; exact hl.keys, rfl⟩
      | @move s _ o t ht hc he =>
        refine ⟨put (put A (.stk w.sp) (A s)) s [], ?_, rfl⟩
        intro x ox tx h
        by_cases e1 : x = s
        · subst e1
          rw [put_same, (Tree.unique h hc.srcTree).2]; rfl
        · rw [put_other _ _ e1]
          by_cases e : x = .stk w.sp
          · subst e
            rw [put_same, (Tree.unique h hc.tree).2]; exact hA _ _ _ ht
          · rw [put_other _ _ e]
            obtain ⟨j, rfl⟩ := h.ok.hdr
            exact hA _ _ _ (hc.other_inv hI ht h e1 (by simpa using e))
      | destroy ht hc he =>
        refine ⟨A, ?_, rfl⟩
        intro x ox tx h
        obtain ⟨j, rfl⟩ := h.ok.hdr
        exact hA _ _ _ (hc.other_inv hI ht h).2
    | fail ht _ _ hh he =>
      refine ⟨A, hA.same hh, ?_⟩
      simp only [Loose, he, Option.isSome_some, if_true]
    | new ht ht' hn hn' _ hc _ he =>
      refine ⟨_, hc.nabs hI ht ht' hA hn', ?_⟩
      simp only [Loose, he, Option.isSome_none, Bool.false_eq_true, if_false]
      exact ⟨_, ⟨_, _, by rw [← hA _ _ _ ht, hn], rfl⟩, rfl⟩
  | swapSelf => exact ⟨A, hA, by simp only [Loose, put_self]⟩
  | swap hne hu hv hu' hv' hc => exact ⟨_, hc.nabs hI hu hv hu' hv' hA (hA _ _ _ hv) (hA _ _ _ hu), rfl⟩
  | assign hne _ hu hv hu' hv' hc =>
    refine ⟨_, hc.nabs hI hu hv hu' hv' hA (hA _ _ _ hv) rfl, ?_⟩
    simp [Loose, T.nodes]
  | assignSelf hu hu' hc =>
    refine ⟨_, hc.nabs hI hu hu' hA rfl, ?_⟩
    simp [Loose, T.nodes, put_self]
  | assignRefused => exact ⟨A, hA, by simp [Loose]⟩
  | eraseKeys hu hu' hc hsub _ he =>
    exact ⟨_, hc.nabs hI hu hu' hA rfl, _, by rw [← hA _ _ _ hu]; exact hsub, rfl⟩
  | uniqueOld ht hn _ _ hh _ he =>
    refine ⟨A, hA.same hh, ?_⟩
    simp only [Loose, he, Option.isSome_none, Bool.false_eq_true, if_false]
    refine ⟨_, false, rfl, ?_⟩
    simp only [Bool.false_eq_true, if_false, true_and]
    rw [← hA _ _ _ ht, hn]
    exact ⟨_, List.mem_append_right _ (List.mem_cons_self ..)⟩
  | uniqueFail ht hh _ he =>
    refine ⟨A, hA.same hh, ?_⟩
    simp only [Loose, he, Option.isSome_some, if_true]
  | uniqueNew ht ht' hn hn' _ hc _ he =>
    refine ⟨_, hc.nabs hI ht ht' hA hn', ?_⟩
    simp only [Loose, he, Option.isSome_none, Bool.false_eq_true, if_false]
    refine ⟨_, true, rfl, ?_⟩
    simp only [if_true]
    exact ⟨_, ⟨_, _, by rw [← hA _ _ _ ht, hn], rfl⟩, rfl⟩

end

section
variable {dflt : Less K} {x x' : OW K} {s : Ptr}

/-- What a call does, whatever the order of the elements. -/
theorem any_effect {c : OCall K} (hI : InvP (fun _ => True) x.w) (hv : LValid dflt x c) :
    wp (oexec dflt c) (oready x) fun r x' => (∃ lt, FEffectS False lt (ready x.w) c.plain r x'.w) ∧
      CmpStep dflt x.cmp c r x'.w.err.isSome x'.cmp := by
  have hR := hI.ready
  have hW : ∀ {lt : Less K} {o : Option Ptr}, WeakInS False lt (ready x.w) o := fun _ _ _ _ _ h => h.elim
  cases c with
  | create comp a =>
    have h := fexec_effectS (S := False) (lt := dflt) (c := .multi (.base (.create a))) hR hW
      (show FValid dflt (oready x).w (.multi (.base (.create a))) from trivial) rfl
    simp only [fexec, mexec, Multi.index, iterArg, mrun, exec, newTree, wp_bind, wp_pure, wp_newObj] at h
    simp only [oexec, newTreeO, newTree, wp_bind, wp_lift, wp_setCmp, wp_pure, wp_newObj]
    exact ⟨⟨dflt, h⟩, rfl⟩
  | on c =>
    refine wp_mono (osim (x := oready x) (fexec_effectS (S := False) hR hW (FValid.ready hI hv) rfl)) ?_
    rintro r x' ⟨h1, h2⟩
    exact ⟨⟨_, h1⟩, h2⟩

theorem LHist.mem {env : Env (TNode K)} (h : LHist dflt env x) : InvP (fun _ => True) x.w := by
  induction h with
  | start => exact InvP.start env
  | call _ hv hr ih =>
    obtain ⟨⟨lt, h⟩, _⟩ := Runs.wp (any_effect ih hv) hr
    exact structural h ih.ready
  | change _ ih => exact ih

theorem LReach.mem (h : LReach dflt x) : InvP (fun _ => True) x.w := by
  obtain ⟨env, h⟩ := h; exact h.mem

/-! ### A concrete state -/

theorem OHist.toL {env : Env (TNode K)} {h : List (OEntry K)} (hh : OHist dflt env h x) : LHist dflt env x := by
  induction hh with
  | start => exact .start
  | create _ _ hr ih => exact .call (c := .create _ _) ih trivial hr
  | @call h x x' c r _ hv hr ih => exact .call (c := .on c) ih hv.1 hr

/-- Object 0 holds 1, 2, 3 but has the reverse order (after a refused move assignment). -/
theorem ademo : ∃ x L, LReach natLt x ∧ Good x.w ∧ Alive x.w (.stk 0) ∧ Alive x.w (.stk 1) ∧ x.cmp (.stk 0) = natGt ∧
    Contents x.w (.stk 0) L ∧ L.map Prod.snd = [1, 2, 3] := by
  obtain ⟨h, x, L, h1, hg, h2, h3, h4, h5, ⟨n, n1, n2⟩, ⟨m, m1, m2⟩, h6, h7, _⟩ := odemo
  have hI := h1.toL.mem
  have hv : LValid natLt x (.on (.assign false (.stk 0) (.stk 1))) := ⟨h2, h3⟩
  obtain ⟨r, x', hr, ⟨lt, he⟩, hc⟩ := wp.runs (any_effect hI hv)
  have g := good_step he hI.ready ⟨hg.some, hg.inj, hg.ctor, hg.past⟩ rfl
  have hw : x'.w = ready x.w := by
    generalize hw : x'.w = w' at he
    cases he with
    | assign _ ho hu hv =>
      rcases ho with ho | rfl
      · cases ho
      · have e1 := hu.cell.symm.trans n1
        have e2 := hv.cell.symm.trans m1
        cases e1; cases e2
        cases n2.symm.trans m2
    | assignRefused => rfl
  have hC : x'.cmp = put x.cmp (.stk 0) (x.cmp (.stk 1)) := hc
  refine ⟨x', L, ⟨_, .call h1.toL hv hr⟩, g.2, by rw [hw]; exact h2, by rw [hw]; exact h3, by rw [hC, put_same, h5], ?_, h7⟩
  rw [hw]
  exact (contents_ready hI h2).2 h6

/-! ### The properties -/

/-- C94: in every reachable state all objects have contents: walking from `begin()` to `end()` ends. -/
theorem any_order_contents (hr : LReach dflt x) : ∃ A, Shows x.w A := by
  have hI := hr.mem
  have : ∀ s, ∃ L, Alive x.w s → Contents x.w s L := by
    intro s
    by_cases ha : Alive x.w s
    · obtain ⟨i, o, t, rfl, _, ht, -⟩ := hI.tree ha
      exact ⟨_, fun _ => (contents_iff ht).2 rfl⟩
    · exact ⟨[], fun h => absurd h ha⟩
  exact ⟨fun s => (this s).choose, fun s => (this s).choose_spec⟩

/-- C94: every call with valid arguments, on any state that can be reached, terminates without any fault and leads to such a
state; the elements of all objects afterwards are as `Loose` says: at most one element is added, elements are only removed by
the calls that remove, and all others stay where they are, in their order; objects that the call is not about keep their
elements and their comparator. -/
theorem any_order_call {c : OCall K} {A : Ptr → List (Ptr × K)} (hr : LReach dflt x) (hv : LValid dflt x c) (hA : Shows x.w A) :
    ∃ r x' A', Runs (oexec dflt c) (oready x) r x' ∧ LReach dflt x' ∧ Shows x'.w A' ∧ Loose c.plain r x'.w.err.isSome A A' ∧
      (∀ s, Alive x.w s → ¬ FTouches c.plain s → Alive x'.w s ∧ A' s = A s ∧ x'.cmp s = x.cmp s) ∧
      (Good x.w → x'.w.err = none ∧ Good x'.w) := by
  have hI := hr.mem
  obtain ⟨r, x', h1, ⟨lt, h2⟩, h3⟩ := wp.runs (any_effect hI hv)
  obtain ⟨A', h4, h5⟩ := loose_step h2 hI.ready rfl ((shows_iff hI.ready).1 (by
    intro s ha; exact (contents_ready hI ha).2 (hA s ha)))
  have hI' := structural h2 hI.ready
  obtain ⟨env, hh⟩ := hr
  refine ⟨r, x', A', h1, ⟨env, .call hh hv h1⟩, (shows_iff hI').2 h4, h5, ?_, ?_⟩
  · intro s ha hs
    obtain ⟨i, o, t, rfl, hsp, ht, -⟩ := hI.tree ha
    have ht' := h2.frame hI.ready (by exact ht) hs
    refine ⟨⟨i, rfl, ht'.ne_none⟩, ?_, h3.other h2 hs ?_⟩
    · rw [← h4 _ _ _ ht', (contents_iff ht).1 (hA _ ha)]
    · intro e
      cases e
      exact Nat.lt_irrefl _ hsp
  · intro hg
    exact good_step h2 hI.ready ⟨hg.some, hg.inj, hg.ctor, hg.past⟩ rfl

-- e.g. object 0 holds 1, 2, 3 but has the reverse order: insertion of 2, and erasure of 3 after its comparator became constant
example : ∃ x A, LReach natLt x ∧ LValid natLt x (.on (.multi (.base (.insert (.stk 0) 2)))) ∧ Shows x.w A ∧ x.cmp (.stk 0) = natGt ∧
    (A (.stk 0)).map Prod.snd = [1, 2, 3] ∧ LReach natLt ⟨x.w, fun _ _ _ => true⟩ ∧
    LValid natLt ⟨x.w, fun _ _ _ => true⟩ (.on (.multi (.base (.eraseKey (.stk 0) 3)))) := by
  obtain ⟨x, L, ⟨env, h⟩, hg, h2, h3, h4, h5, h6⟩ := ademo
  obtain ⟨A, hA⟩ := any_order_contents ⟨env, h⟩
  refine ⟨x, A, ⟨env, h⟩, h2, hA, h4, ?_, ⟨env, .change h⟩, h2⟩
  obtain ⟨i, o, t, e, _, ht, -⟩ := h.mem.tree h2
  rw [(contents_iff ht).1 (hA _ h2), ← (contents_iff ht).1 h5, h6]

/-- C94: every query terminates without any fault, writes nothing, and calls the comparator at most `4 log2(n+1) + 1` times; it
reads nothing but the object, its comparator and its elements. -/
theorem any_order_query {q : Query K} {L M : List (Ptr × K)} (hr : LReach dflt x) (hv : QValid x.w q)
    (hL : Contents x.w q.objects.1 L) (hM : Contents x.w q.objects.2 M) :
    ∃ r c, c ≤ 4 * Nat.log2 (L.length + 1) + 1 ∧
      ∀ x2 : OW K, x2.cmp q.objects.1 = x.cmp q.objects.1 → (∀ p, OwnCell x.w q p → x2.w.heap p = x.w.heap p) →
        Runs (oask q) x2 r ⟨x2.w.addCmp c, x2.cmp⟩ := by
  obtain ⟨r, c, h1, h2, h3⟩ := query_any (lt := x.cmp q.objects.1) hr.mem hv hL hM
  refine ⟨r, c, h2, fun x2 hc hp => ?_⟩
  have := h3 x2.w hp
  rw [← hc] at this
  unfold oask Runs
  show lift (ask (x2.cmp q.objects.1) q) x2 = _
  unfold lift
  rw [this]

example : ∃ x L, LReach natLt x ∧ QValid x.w (.find (.stk 0) 2) ∧ Contents x.w (.stk 0) L ∧ L.map Prod.snd = [1, 2, 3] ∧
    x.cmp (.stk 0) = natGt := by
  obtain ⟨x, L, h, hg, h2, h3, h4, h5, h6⟩ := ademo
  exact ⟨x, L, h, ⟨h2, h2, trivial⟩, h5, h6, h4⟩

/-- C94: nothing is ever leaked or shared: every allocated block is a node of exactly one live object. -/
theorem any_order_no_leak {a : Nat} (hr : LReach dflt x) (hm : x.w.heap (.dyn a) ≠ none) :
    ∃ s L k, Alive x.w s ∧ Contents x.w s L ∧ (.dyn a, k) ∈ L ∧
      ∀ s' L' k', Alive x.w s' → Contents x.w s' L' → (.dyn a, k') ∈ L' → s' = s := by
  have hI := hr.mem
  obtain ⟨i, o, t, ht, hin⟩ := hI.cover a hm
  obtain ⟨k, hk⟩ := mem_ptrs_iff.1 hin
  refine ⟨.stk i, t.nodes, k, ⟨i, rfl, ht.ne_none⟩, (contents_iff ht).2 rfl, hk, ?_⟩
  intro s' L' k' ha hc hk'
  obtain ⟨j, o2, t2, rfl, _, ht2, -⟩ := hI.tree ha
  obtain rfl := (contents_iff ht2).1 hc
  by_cases e : j = i
  · rw [e]
  · exact absurd hin (hI.disj ht2 ht e _ (mem_ptrs_iff.2 ⟨k', hk'⟩))

example : ∃ x L, LReach natLt x ∧ Contents x.w (.stk 0) L ∧ L ≠ [] ∧ ∀ y ∈ L, x.w.heap y.1 ≠ none := by
  obtain ⟨x, L, h, hg, h2, h3, h4, h5, h6⟩ := ademo
  refine ⟨x, L, h, h5, by rintro rfl; simp at h6, ?_⟩
  intro y hy
  obtain ⟨i, o, t, e, _, ht, -⟩ := h.mem.tree h2
  obtain rfl := (contents_iff ht).1 h5
  obtain ⟨n, hn, _⟩ := Rep_alloc ht.rep y.1 (by simp only [T.ptrs, List.mem_map]; exact ⟨y, hy, rfl⟩)
  rw [hn]; simp

end
end Nestl.Own
