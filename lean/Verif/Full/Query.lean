import Verif.Full.Props
import Verif.RBTree.Readers
set_option autoImplicit false
/-
Queries of a tree: what they answer, what they read, and that they write nothing.
-/
namespace Nestl.Full
open Nestl.RB Nestl.Set Nestl.Multi
variable {K : Type}

/-- The functions of a tree that do not change it (`const` member functions, the operations of iterators and the comparison
of two trees); iterators are passed together with the object that they belong to. -/
inductive Query (K : Type)
  | begin (s : Ptr)                                     -- `s.begin()`
  | fin (s : Ptr)                                       -- `s.end()`
  | size (s : Ptr)                                      -- `s.size()`
  | empty (s : Ptr)                                     -- `s.empty()`
  | find (s : Ptr) (k : K)                              -- `s.find(k)`
  | lower (s : Ptr) (k : K)                             -- `s.lower_bound(k)`
  | upper (s : Ptr) (k : K)                             -- `s.upper_bound(k)`
  | range (s : Ptr) (k : K)                             -- `s.equal_range(k)`
  | count (s : Ptr) (k : K)                             -- `s.count(k)`
  | value (s p : Ptr)                                   -- `*p`
  | next (s p : Ptr)                                    -- `++p`
  | prev (s p : Ptr)                                    -- `--p`
  | items (s : Ptr)                                     -- a loop from `begin()` to `end()`
  | itemsBack (s : Ptr)                                 -- a loop from `end()` to `begin()`
  | same (eq : K → K → Bool) (s t : Ptr)                -- `s == t`
  | before (less : K → K → Bool) (s t : Ptr)            -- `s < t`

/-- Answers of queries. -/
inductive Answer (K : Type)
  | pos (p : Ptr)
  | range (p q : Ptr)
  | num (n : Nat)
  | flag (b : Bool)
  | key (k : K)
  | items (L : List (Ptr × K))

/-- The program executed by a query (the functions cited in `RBTree/Model.lean`, `RBTree/ModelExtra.lean`,
`RBTree/ModelSwap.lean`). -/
def ask (lt : K → K → Bool) : Query K → M (W K) (Answer K)
  | .begin s => do pure (.pos (← begin_ s))
  | .fin s => do pure (.pos (← end_ s))
  | .size s => do pure (.num (← RB.size s))
  | .empty s => do pure (.flag (← RB.empty s))
  | .find s k => do pure (.pos (← RB.find lt s k))
  | .lower s k => do pure (.pos (← lowerBoundKey lt s k))
  | .upper s k => do pure (.pos (← upperBoundKey lt s k))
  | .range s k => do let r ← equalRange lt s k; pure (.range r.1 r.2)
  | .count s k => do pure (.num (← RB.count lt s k))
  | .value _ p => do pure (.key (← keyOf p))
  | .next _ p => do pure (.pos (← increment p))
  | .prev _ p => do pure (.pos (← decrement p))
  | .items s => do pure (.items (← walk s))
  | .itemsBack s => do pure (.items (← walkBack s))
  | .same eq s t => do pure (.flag (← treeEq eq s t))
  | .before less s t => do pure (.flag (← treeLess less s t))

/-- The objects that a query is about (the same one twice if there is only one). -/
def Query.objects : Query K → Ptr × Ptr
  | .begin s | .fin s | .size s | .empty s | .find s _ | .lower s _ | .upper s _ | .range s _ | .count s _ => (s, s)
  | .value s _ | .next s _ | .prev s _ | .items s | .itemsBack s => (s, s)
  | .same _ s t | .before _ s t => (s, t)

/-- Preconditions: the objects exist; only iterators to elements are dereferenced and incremented, and `begin()` is not
decremented. -/
def QValid (w : W K) (q : Query K) : Prop :=
  Alive w q.objects.1 ∧ Alive w q.objects.2 ∧
    match q with
    | .value s p | .next s p => ∃ L k, Contents w s L ∧ (p, k) ∈ L
    | .prev s p => ∃ A x B, Contents w s (A ++ x :: B) ∧ p = posOf s B
    | _ => True

/-- The right answer, given the elements `L` and `M` of the two objects. -/
def Right (lt : K → K → Bool) (L M : List (Ptr × K)) : Query K → Answer K → Prop
  | .begin s, .pos p => p = posOf s L
  | .fin s, .pos p => p = s
  | .size _, .num n => n = L.length
  | .empty _, .flag b => b = true ↔ L = []
  | .find s k, .pos p => (p = s ∧ ∀ x ∈ L, ¬ Equiv lt x.2 k) ∨
      ∃ A k' B, L = A ++ (p, k') :: B ∧ Equiv lt k' k ∧ ∀ x ∈ A, ¬ Equiv lt x.2 k
  | .lower s k, .pos p => ∃ A B, L = A ++ B ∧ p = posOf s B ∧ (∀ x ∈ A, lt x.2 k = true) ∧ ∀ x ∈ B, lt x.2 k = false
  | .upper s k, .pos p => ∃ A B, L = A ++ B ∧ p = posOf s B ∧ (∀ x ∈ A, lt k x.2 = false) ∧ ∀ x ∈ B, lt k x.2 = true
  | .range s k, .range p q => ∃ A E B, L = A ++ (E ++ B) ∧ p = posOf s (E ++ B) ∧ q = posOf s B ∧ (∀ x ∈ A, lt x.2 k = true) ∧
      (∀ x ∈ E, Equiv lt x.2 k) ∧ ∀ x ∈ B, lt k x.2 = true
  | .count _ k, .num n => n = (L.filter fun x => !lt x.2 k && !lt k x.2).length
  | .value _ p, .key k => (p, k) ∈ L
  | .next s p, .pos q => ∃ A k B, L = A ++ (p, k) :: B ∧ q = posOf s B
  | .prev s p, .pos q => ∃ A k B, L = A ++ (q, k) :: B ∧ p = posOf s B
  | .items _, .items X => X = L
  | .itemsBack _, .items X => X = L.reverse
  | .same eq _ _, .flag b => b = true ↔ L.length = M.length ∧
      ∀ (i : Nat) x y, L[i]? = some x → M[i]? = some y → eq x.2 y.2 = true
  | .before less _ _, .flag b => b = true ↔ Alg.LexBefore less (L.map Prod.snd) (M.map Prod.snd)
  | _, _ => False

/-- `p` is one of the memory cells of the objects of a query: an object itself or one of its elements. -/
def OwnCell (w : W K) (q : Query K) (p : Ptr) : Prop :=
  ∃ s L, (s = q.objects.1 ∨ s = q.objects.2) ∧ Contents w s L ∧ (p = s ∨ ∃ k, (p, k) ∈ L)

theorem ask_readOnly (lt : K → K → Bool) (q : Query K) : ReadOnly (ask lt q) := by
  cases q <;> unfold ask <;> reading

section
variable {lt : K → K → Bool} {w : W K} {s t : Ptr} {o o' : Nat} {u v : T K}

theorem isEqv_iff {eq : K → K → Bool} {L M : List (Ptr × K)} : (L.map Prod.snd).isEqv (M.map Prod.snd) eq = true ↔
    L.length = M.length ∧ ∀ (i : Nat) x y, L[i]? = some x → M[i]? = some y → eq x.2 y.2 = true := by
  induction L generalizing M with
  | nil =>
    cases M with
    | nil => simp
    | cons y M => simp
  | cons x L ih =>
    cases M with
    | nil => simp
    | cons y M =>
      simp only [List.map_cons, List.isEqv_cons_cons, Bool.and_eq_true, ih, List.length_cons, Nat.add_right_cancel_iff]
      constructor
      · rintro ⟨h1, h2, h3⟩
        refine ⟨h2, ?_⟩
        intro i a b ha hb
        cases i with
        | zero => simp at ha hb; subst ha hb; exact h1
        | succ i => exact h3 i a b (by simpa using ha) (by simpa using hb)
      · rintro ⟨h1, h2⟩
        exact ⟨h2 0 x y rfl rfl, h1, fun i a b ha hb => h2 (i + 1) a b (by simpa using ha) (by simpa using hb)⟩

/-- What a query must find out, with the number of comparisons it may need. -/
def Answered (lt : K → K → Bool) (u v : T K) (q : Query K) (w : W K) (r : Answer K) (w' : W K) : Prop :=
  (SWO lt → WSorted lt u.nodes → Right lt u.nodes v.nodes q r) ∧
    ∃ n, n ≤ 4 * Nat.log2 (u.nodes.length + 1) + 1 ∧ w' = w.addCmp n

theorem filter_ecut {k : K} {A E B : List (Ptr × K)} (h : ECut lt k A E B) :
    E = (A ++ (E ++ B)).filter fun x => !lt x.2 k && !lt k x.2 := by
  simp only [List.filter_append]
  rw [filter_none (L := A), filter_all (L := E), filter_none (L := B)]
  · simp
  · intro x hx; simp [h.2.2 x hx]
  · intro x hx; simp [h.2.1 x hx]
  · intro x hx; simp [h.1 x hx]

/-- The iterators of a query, given the elements. -/
def IterOk (L : List (Ptr × K)) : Query K → Prop
  | .value _ p | .next _ p => ∃ k, (p, k) ∈ L
  | .prev s p => ∃ A x B, L = A ++ x :: B ∧ p = posOf s B
  | _ => True

theorem ask_wp {q : Query K} (hu : Tree w.heap q.objects.1 o u) (hv : Tree w.heap q.objects.2 o' v)
    (hi : IterOk u.nodes q) : wp (ask lt q) w (Answered lt u v q w) := by
  have hh := hu.height_le
  cases q <;> dsimp only [Query.objects] at hu hv
  case begin s =>
    simp only [ask, begin_, wp_bind, wp_rd hu.cell hu.hdr_ne, wp_pure, hdCell]
    exact ⟨fun _ _ => (posOf_eq _ _).symm, 0, by omega, rfl⟩
  case fin s =>
    simp only [ask, end_, wp_bind, wp_pure]
    exact ⟨fun _ _ => rfl, 0, by omega, rfl⟩
  case size s =>
    simp only [ask, RB.size, wp_bind, wp_rd hu.cell hu.hdr_ne, wp_pure, hdCell]
    exact ⟨fun _ _ => rfl, 0, by omega, rfl⟩
  case empty s =>
    simp only [ask, RB.empty, wp_bind, wp_rd hu.cell hu.hdr_ne, wp_pure, hdCell]
    exact ⟨fun _ _ => by simp [Right], 0, by omega, rfl⟩
  case find s k =>
    simp only [ask, wp_bind]
    refine wp_find hu ?_ ?_
    · intro n A B hn hle hB hcut
      refine ⟨?_, n, by omega, rfl⟩
      intro hs hsort
      have hcut := hcut hs hsort
      refine Or.inl ⟨rfl, ?_⟩
      rw [hn]
      intro x hx he
      rw [List.mem_append] at hx
      rcases hx with hx | hx
      · exact Bool.noConfusion ((hcut.1 x hx).symm.trans he.1)
      · cases B with
        | nil => cases hx
        | cons b B =>
          have hb := hB b B rfl
          have : lt k x.2 = true := by
            rw [List.mem_cons] at hx
            rcases hx with rfl | hx
            · exact hb
            · refine hs.lt_of_lt_le hb ?_
              rw [hn] at hsort
              simp only [WSorted, List.pairwise_append, List.pairwise_cons] at hsort
              exact hsort.2.1.1 x hx
          exact Bool.noConfusion (this.symm.trans he.2)
    · intro n A p k' B hn hle e1 e2 hcut
      refine ⟨?_, n, by omega, rfl⟩
      intro hs hsort
      have hcut := hcut hs hsort
      refine Or.inr ⟨A, k', B, hn, ⟨e1, e2⟩, ?_⟩
      intro x hx he
      exact Bool.noConfusion ((hcut.1 x hx).symm.trans he.1)
  case lower s k =>
    simp only [ask, lowerBoundKey, wp_bind, wp_rd hu.cell hu.hdr_ne]
    refine wp_lowerBound hu.rep hu.null_notMem ?_
    intro n A B h1 h2 h3 h4
    exact ⟨fun hs hw => ⟨A, B, h1, (posOf_eq _ _).symm, (h4 hs hw).1, (h4 hs hw).2⟩, n, by omega, rfl⟩
  case upper s k =>
    simp only [ask, upperBoundKey, wp_bind, wp_rd hu.cell hu.hdr_ne]
    refine wp_upperBound hu.rep hu.null_notMem ?_
    intro n A B h1 h2 h3 h4
    exact ⟨fun hs hw => ⟨A, B, h1, (posOf_eq _ _).symm, (h4 hs hw).1, (h4 hs hw).2⟩, n, by omega, rfl⟩
  case range s k =>
    simp only [ask, wp_bind]
    refine wp_equalRange hu ?_
    intro n A E B h1 h2 h3
    exact ⟨fun hs hw => ⟨A, E, B, h1, (posOf_eq _ _).symm, (posOf_eq _ _).symm, (h3 hs hw).1, (h3 hs hw).2.1, (h3 hs hw).2.2⟩,
      n, by omega, rfl⟩
  case count s k =>
    simp only [ask, wp_bind]
    refine wp_count hu ?_
    intro n A E B h1 h2 h3
    refine ⟨fun hs hw => ?_, n, by omega, rfl⟩
    show _ = _
    rw [h2, ← filter_ecut (h3 hs hw)]
  case value s p =>
    obtain ⟨k, hk⟩ := hi
    obtain ⟨A, B, e⟩ := List.append_of_mem hk
    simp only [ask, wp_bind, wp_keyOf_mem hu e]
    exact ⟨fun _ _ => hk, 0, by omega, rfl⟩
  case next s p =>
    obtain ⟨k, hk⟩ := hi
    obtain ⟨A, B, e⟩ := List.append_of_mem hk
    simp only [ask, wp_bind]
    exact wp_increment' hu e ⟨fun _ _ => ⟨A, k, B, e, (posOf_eq _ _).symm⟩, 0, by omega, rfl⟩
  case prev s p =>
    obtain ⟨A, ⟨x, k⟩, B, e, rfl⟩ := hi
    simp only [ask, wp_bind]
    have hgoal : Answered lt u v (.prev s (posOf s B)) w (.pos x) w :=
      ⟨fun _ _ => ⟨A, k, B, e, rfl⟩, 0, by omega, rfl⟩
    cases B with
    | nil =>
      have htn : u ≠ .nil := by rintro rfl; simp [T.nodes] at e
      refine wp_decrement_end (Tree.toZ (ctx := []) hu) htn ?_
      simp only [plug, e]
      simpa [wp_pure] using hgoal
    | cons b B =>
      obtain ⟨q, kq⟩ := b
      refine wp_decrement' (A := A ++ [(x, k)]) hu (k := kq) (B := B) (by rw [e]; simp [posOf]) (by simp) ?_
      simpa [wp_pure] using hgoal
  case items s =>
    simp only [ask, wp_bind]
    exact wp_walk hu ⟨fun _ _ => rfl, 0, by omega, rfl⟩
  case itemsBack s =>
    simp only [ask, walkBack, end_, begin_, wp_bind, wp_pure, wp_rd hu.cell hu.hdr_ne]
    exact wp_walkBackFrom (A := u.nodes) (B := []) hu (by simp) ⟨fun _ _ => rfl, 0, by omega, rfl⟩
  case same eq s t =>
    simp only [ask, wp_bind]
    exact wp_treeEq hu hv ⟨fun _ _ => isEqv_iff, 0, by omega, rfl⟩
  case before less s t =>
    simp only [ask, wp_bind]
    exact wp_treeLess hu hv fun b hb => ⟨fun _ _ => hb, 0, by omega, rfl⟩

/-- The memory cells of a tree are determined by its shape. -/
theorem _root_.Nestl.RB.Rep_same {H H' : Ptr → Option (TNode K)} {o : Nat} {par : Ptr} {t : T K} (h : Rep H o par t)
    (h' : Rep H' o par t) : ∀ p ∈ t.ptrs, H' p = H p := by
  induction t generalizing par with
  | nil => intro p hp; simp [T.ptrs, T.nodes] at hp
  | node q c l k r ihl ihr =>
    obtain ⟨h1, h2, h3⟩ := h
    obtain ⟨h1', h2', h3'⟩ := h'
    intro p hp
    rw [ptrs_mk_L, mem_ptrs_mk] at hp
    rcases hp with rfl | hp | hp
    · exact h1'.trans h1.symm
    · exact ihl h2 h2' p hp
    · exact ihr h3 h3' p hp

theorem _root_.Nestl.RB.Tree.same {H H' : Ptr → Option (TNode K)} (h : Tree H s o u) (h' : Tree H' s o u) :
    H' s = H s ∧ ∀ p ∈ u.ptrs, H' p = H p :=
  ⟨h'.cell.trans h.cell.symm, Rep_same h.rep h'.rep⟩

theorem QValid.trees {P : List (Ptr × K) → Prop} {q : Query K} (hI : InvP P w) (hv : QValid w q) : ∃ o u o' v, Tree w.heap q.objects.1 o u ∧
    Tree w.heap q.objects.2 o' v ∧ Contents w q.objects.1 u.nodes ∧ Contents w q.objects.2 v.nodes ∧ IterOk u.nodes q := by
  obtain ⟨i, o, u, e1, _, hu, _⟩ := hI.tree hv.1
  obtain ⟨j, o', v, e2, _, hv', _⟩ := hI.tree hv.2.1
  refine ⟨o, u, o', v, hu, hv', (contents_iff hu).2 rfl, (contents_iff hv').2 rfl, ?_⟩
  obtain ⟨-, -, h3⟩ := hv
  cases q with
  | value s p => obtain ⟨L, k, h1, h2⟩ := h3; obtain rfl := (contents_iff hu).1 h1; exact ⟨k, h2⟩
  | next s p => obtain ⟨L, k, h1, h2⟩ := h3; obtain rfl := (contents_iff hu).1 h1; exact ⟨k, h2⟩
  | prev s p => obtain ⟨A, x, B, h1, h2⟩ := h3; exact ⟨A, x, B, ((contents_iff hu).1 h1).symm, h2⟩
  | _ => trivial

theorem query_any {P : List (Ptr × K) → Prop} {q : Query K} {L M : List (Ptr × K)} (hI : InvP P w) (hv : QValid w q) (hL : Contents w q.objects.1 L)
    (hM : Contents w q.objects.2 M) :
    ∃ r c, (SWO lt → WSorted lt L → Right lt L M q r) ∧ c ≤ 4 * Nat.log2 (L.length + 1) + 1 ∧
      ∀ w2 : W K, (∀ p, OwnCell w q p → w2.heap p = w.heap p) → Runs (ask lt q) w2 r (w2.addCmp c) := by
  obtain ⟨o, u, o', v, hu, hv', hcu, hcv, hi⟩ := hv.trees hI
  obtain rfl := (contents_iff hu).1 hL
  obtain rfl := (contents_iff hv').1 hM
  let S := q.objects.1 :: u.ptrs ++ q.objects.2 :: v.ptrs
  let w0 : W K := { w with heap := fun p => if p ∈ S then w.heap p else none }
  have hu0 : Tree w0.heap q.objects.1 o u := by
    refine hu.congr ?_ fun p hp => ?_
    · exact if_pos (by simp [S])
    · exact if_pos (by simp [S, hp])
  have hv0 : Tree w0.heap q.objects.2 o' v := by
    refine hv'.congr ?_ fun p hp => ?_
    · exact if_pos (by simp [S])
    · exact if_pos (by simp [S, hp])
  obtain ⟨r, w', h1, h2, n, h3, h4⟩ := (ask_wp (lt := lt) hu0 hv0 hi).runs
  obtain ⟨c, hc⟩ := (ask_readOnly lt q).local h1
  have hc0 := hc w0 fun p hp => if_pos hp
  obtain ⟨-, e⟩ := Runs.det h1 hc0
  have hcn : c = n := by
    have := congrArg World.nCmp (h4.symm.trans e)
    simp only [World.addCmp_nCmp] at this
    omega
  subst hcn
  refine ⟨r, c, h2, h3, fun w2 hw => hc w2 fun p hp => hw p ?_⟩
  simp only [S, List.cons_append, List.mem_cons, List.mem_append] at hp
  have mem : ∀ {t : T K}, p ∈ t.ptrs → ∃ k, (p, k) ∈ t.nodes := fun h => by simpa [T.ptrs] using h
  rcases hp with rfl | hp | rfl | hp
  · exact ⟨_, _, .inl rfl, hcu, .inl rfl⟩
  · exact ⟨_, _, .inl rfl, hcu, .inr (mem hp)⟩
  · exact ⟨_, _, .inr rfl, hcv, .inl rfl⟩
  · exact ⟨_, _, .inr rfl, hcv, .inr (mem hp)⟩

theorem query_in {P : List (Ptr × K) → Prop} {q : Query K} {L M : List (Ptr × K)} (hI : InvP P w)
    (hW : WeakIn lt w (some q.objects.1)) (hv : QValid w q) (hL : Contents w q.objects.1 L)
    (hM : Contents w q.objects.2 M) :
    ∃ r c, (SWO lt → Right lt L M q r) ∧ c ≤ 4 * Nat.log2 (L.length + 1) + 1 ∧
      ∀ w2 : W K, (∀ p, OwnCell w q p → w2.heap p = w.heap p) → Runs (ask lt q) w2 r (w2.addCmp c) := by
  obtain ⟨o, u, o', v, hu, hv', hcu, hcv, hi⟩ := hv.trees hI
  obtain rfl := (contents_iff hu).1 hL
  obtain ⟨r, c, h1, h2, h3⟩ := query_any (lt := lt) hI hv hL hM
  exact ⟨r, c, fun hs => h1 hs (hW _ _ _ rfl hu hs), h2, h3⟩

/-- C89: in every state that can be reached by any history of calls, every query terminates without any fault, writes nothing
(it only calls the comparator, at most `4 log2(n+1) + 1` times), and the answer is right.  The query reads nothing but the object
itself and its elements: in every other state in which these cells have the same content, whatever else happened there, it does
the same and gives the same answer. -/
theorem tree_query {q : Query K} {L M : List (Ptr × K)} (hr : FReach lt w) (hv : QValid w q) (hL : Contents w q.objects.1 L)
    (hM : Contents w q.objects.2 M) :
    ∃ r c, (SWO lt → Right lt L M q r) ∧ c ≤ 4 * Nat.log2 (L.length + 1) + 1 ∧
      ∀ w2 : W K, (∀ p, OwnCell w q p → w2.heap p = w.heap p) → Runs (ask lt q) w2 r (w2.addCmp c) :=
  query_in hr.inv (InvP.weakOf hr.inv).weakIn hv hL hM

example : ∃ w L M, FReach pairLt w ∧ QValid w (.range (.stk 0) (2, 5)) ∧ Contents w (.stk 0) L ∧ L.length = 4 ∧
    QValid w (.before pairLt (.stk 0) (.stk 1)) ∧ Contents w (.stk 1) M ∧ M.length = 1 := by
  obtain ⟨w, L, M, h1, _, h2, h3, h4, h5, h6, h7, h8, h9⟩ := fdemo 7
  exact ⟨w, L, M, h1, ⟨h2, h2, trivial⟩, h4, by simpa using congrArg List.length h6, ⟨h2, h3, trivial⟩, h5,
    by simpa using congrArg List.length h7⟩

/-- Which objects a call may modify. -/
def FTouches : FCall K → Ptr → Prop
  | .multi (.base c), x => Touches c x
  | .multi (.equal _ s _), x => x = s
  | .swap _ s t, x => x = s ∨ x = t
  | .assign _ d s, x => x = d ∨ x = s
  | .eraseKeys s _, x => x = s
  | .unique _ s _, x => x = s

theorem FEffectS.frame {S : Prop} {c : FCall K} {r : FRes K} {w' : W K} {x : Ptr} (h : FEffectS S lt w c r w') {P : List (Ptr × K) → Prop} (hI : InvP P w)
    (hx : Tree w.heap x o u) (hn : ¬ FTouches c x) : Tree w'.heap x o u := by
  obtain ⟨i, rfl⟩ := hx.ok.hdr
  cases h with
  | multi h =>
    cases h with
    | base he => exact he.frame hI hx hn
    | fail _ _ _ hh => rw [hh]; exact hx
    | new ht ht' _ _ _ hc => exact hc.other hI ht hn hx ht'
  | swapSelf => exact hx
  | swap _ h1 h2 _ _ hc => exact hc.other hI h1 h2 (fun e => hn (.inl e)) (fun e => hn (.inr e)) hx
  | assign _ _ h1 h2 _ _ hc => exact hc.other hI h1 h2 (fun e => hn (.inl e)) (fun e => hn (.inr e)) hx
  | assignSelf ht ht' hc => exact hc.other hI ht (fun e => hn (.inl e)) hx ht'
  | assignRefused => exact hx
  | eraseKeys ht ht' hc => exact hc.other hI ht hn hx ht'
  | uniqueOld _ _ _ _ hh => rw [hh]; exact hx
  | uniqueFail _ hh => rw [hh]; exact hx
  | uniqueNew ht ht' _ _ _ hc => exact hc.other hI ht hn hx ht'

/-- C89: a call on other objects does not change any cell of the objects of a query, so the query does and answers the same
before and after it, and at any moment at which these cells are as they were: threads that work on different objects do not
disturb each other. -/
theorem tree_query_undisturbed {q : Query K} {c : FCall K} {r : FRes K} {w' : W K} (hr : FReach lt w) (hq : QValid w q)
    (hv : FValid lt w c) (hrun : Runs (fexec lt c) (ready w) r w') (h1 : ¬ FTouches c q.objects.1)
    (h2 : ¬ FTouches c q.objects.2) :
    (∀ p, OwnCell w q p → w'.heap p = w.heap p) ∧ QValid w' q ∧
      ∃ a n, Runs (ask lt q) w a (w.addCmp n) ∧ Runs (ask lt q) w' a (w'.addCmp n) := by
  obtain ⟨o, u, o', v, hu, hv', hcu, hcv, hi⟩ := hq.trees hr.inv
  obtain ⟨r1, w1, k1, -, he⟩ := hr.step hv
  obtain ⟨rfl, rfl⟩ := Runs.det hrun k1
  have hu1 := he.frame hr.inv.ready (by exact hu) h1
  have hv1 := he.frame hr.inv.ready (by exact hv') h2
  have hcells : ∀ p, OwnCell w q p → w'.heap p = w.heap p := by
    rintro p ⟨s, L, hs, hL, hp⟩
    have key : ∀ {s : Ptr} {o : Nat} {u : T K}, Tree w.heap s o u → Tree w'.heap s o u → Contents w s L →
        (p = s ∨ ∃ k, (p, k) ∈ L) → w'.heap p = w.heap p := by
      intro s o u a b hL hp
      obtain rfl := (contents_iff a).1 hL
      rcases hp with rfl | ⟨k, hk⟩
      · exact (a.same b).1
      · exact (a.same b).2 p (by simp only [T.ptrs, List.mem_map]; exact ⟨_, hk, rfl⟩)
    rcases hs with rfl | rfl
    · exact key hu hu1 hL hp
    · exact key hv' hv1 hL hp
  refine ⟨hcells, ?_, ?_⟩
  · refine ⟨?_, ?_, ?_⟩
    · obtain ⟨i, e⟩ := hu.ok.hdr
      exact ⟨i, e, hu1.ne_none⟩
    · obtain ⟨i, e⟩ := hv'.ok.hdr
      exact ⟨i, e, hv1.ne_none⟩
    · have hcu1 : Contents w' q.objects.1 u.nodes := (contents_iff hu1).2 rfl
      cases q with
      | value s p => obtain ⟨k, h⟩ := hi; exact ⟨_, k, hcu1, h⟩
      | next s p => obtain ⟨k, h⟩ := hi; exact ⟨_, k, hcu1, h⟩
      | prev s p => obtain ⟨A, x, B, h, h'⟩ := hi; exact ⟨A, x, B, h ▸ hcu1, h'⟩
      | _ => trivial
  · obtain ⟨a, n, -, -, h3⟩ := tree_query hr hq hcu hcv
    exact ⟨a, n, h3 w fun _ _ => rfl, h3 w' hcells⟩

example : ∃ w, FReach pairLt w ∧ QValid w (.find (.stk 0) (2, 5)) ∧ FValid pairLt w (.multi (.base (.insert (.stk 1) (3, 3)))) ∧
    ¬ FTouches (.multi (.base (.insert (.stk 1) (3, 3)))) ((.find (.stk 0) (2, 5) : Query (Nat × Nat)).objects.1) := by
  obtain ⟨w, L, M, h1, _, h2, h3, h4, h5, h6, h7, h8, h9⟩ := fdemo 7
  exact ⟨w, h1, ⟨h2, h2, trivial⟩, h3, by simp [FTouches, Touches, Query.objects]⟩
end

end Nestl.Full
