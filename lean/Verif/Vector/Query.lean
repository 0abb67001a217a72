import Verif.Vector.Props5
import Verif.Vector.Readers
set_option autoImplicit false
/-
Queries of a vector: what they answer, what they read, and that they write nothing.
-/
namespace Nestl.VC
open Nestl.Vec
variable {V : Type}

/-- The functions of a vector that do not change it (`const` member functions, element access, iteration and the comparison of
two vectors). -/
inductive Query (V : Type)
  | size (s : Ptr)                                      -- `s.size()`
  | capacity (s : Ptr)                                  -- `s.capacity()`
  | empty (s : Ptr)                                     -- `s.empty()`
  | alloc (s : Ptr)                                     -- `s.get_allocator()`
  | begin (s : Ptr)                                     -- `s.begin()`
  | data (s : Ptr)                                      -- `s.data()`
  | elem (s : Ptr) (i : Nat)                            -- `s[i]`, `*(s.begin() + i)`
  | front (s : Ptr)                                     -- `s.front()`
  | back (s : Ptr)                                      -- `s.back()`
  | items (s : Ptr)                                     -- `s[0]`, ..., `s[s.size() - 1]`
  | iterate (s : Ptr)                                   -- a loop from `begin()` to `end()`
  | reversed (s : Ptr)                                  -- a loop from `rbegin()` to `rend()`
  | same (eq : V → V → Bool) (s t : Ptr)                -- `s == t`

/-- Answers of queries. -/
inductive Answer (V : Type)
  | num (n : Nat)
  | flag (b : Bool)
  | addr (p : Ptr)
  | val (v : V)
  | items (L : List V)

/-- The program executed by a query (the functions cited in `Vector/Model.lean` and `Vector/Client.lean`). -/
def ask : Query V → M (W V) (Answer V)
  | .size s => do pure (.num (← Vec.size s))
  | .capacity s => do pure (.num (← Vec.capacity s))
  | .empty s => do pure (.flag (← Vec.empty s))
  | .alloc s => do pure (.num (← getAlloc s))
  | .begin s => do pure (.addr (← begin_ s))
  | .data s => do pure (.addr (← Vec.data s))
  | .elem s i => do pure (.val (← at_ s i))
  | .front s => do pure (.val (← Vec.front s))
  | .back s => do pure (.val (← Vec.back s))
  | .items s => do pure (.items (← walk s))
  | .iterate s => do pure (.items (← VC.iterate s))
  | .reversed s => do pure (.items (← iterateBack s))
  | .same eq s t => do pure (.flag (← equal eq s t))

/-- The objects that a query is about (the same one twice if there is only one). -/
def Query.objects : Query V → Ptr × Ptr
  | .size s | .capacity s | .empty s | .alloc s | .begin s | .data s | .elem s _ | .front s | .back s | .items s | .iterate s | .reversed s => (s, s)
  | .same _ s t => (s, t)

/-- Preconditions: the objects exist; only elements that exist are accessed. -/
def QValid (w : W V) (q : Query V) : Prop :=
  Alive w q.objects.1 ∧ Alive w q.objects.2 ∧
    match q with
    | .front s | .back s | .data s => ¬ Contents w s []
    | .elem s i => ∃ L, Contents w s L ∧ i < L.length
    | _ => True

/-- What a client knows about a vector: allocator, capacity, address of the block, elements. -/
structure Known (V : Type) where
  alloc : Nat
  cap : Nat
  addr : Ptr
  els : List V

/-- `k` describes the vector `s`. -/
def Knows (w : W V) (s : Ptr) (k : Known V) : Prop :=
  HasAlloc w s k.alloc ∧ HasCap w s k.cap ∧ HasData w s k.addr ∧ Contents w s k.els

/-- The right answer, given what is known about the two objects. -/
def Right (k m : Known V) : Query V → Answer V → Prop
  | .size _, .num n => n = k.els.length
  | .capacity _, .num n => n = k.cap ∧ k.els.length ≤ n
  | .empty _, .flag b => b = true ↔ k.els = []
  | .alloc _, .num n => n = k.alloc
  | .begin _, .addr p => p = k.addr
  | .data _, .addr p => p = k.addr
  | .elem _ i, .val v => k.els[i]? = some v
  | .front _, .val v => ∃ T, k.els = v :: T
  | .back _, .val v => ∃ T, k.els = T ++ [v]
  | .items _, .items X => X = k.els
  | .iterate _, .items X => X = k.els
  | .reversed _, .items X => X = k.els.reverse
  | .same eq _ _, .flag b => b = true ↔ k.els.length = m.els.length ∧ ∀ z ∈ k.els.zip m.els, eq z.1 z.2 = true
  | _, _ => False

/-- `p` is one of the memory cells of the objects of a query: an object itself or its block. -/
def OwnCell (w : W V) (q : Query V) (p : Ptr) : Prop :=
  ∃ s, (s = q.objects.1 ∨ s = q.objects.2) ∧ (p = s ∨ p ≠ .null ∧ HasData w s p)

theorem ask_readOnly (q : Query V) : ReadOnly (ask q) := by
  cases q <;> unfold ask <;> reading

/-- The accessed elements exist. -/
def AccessOk (L : List V) : Query V → Prop
  | .front _ | .back _ | .data _ => L ≠ []
  | .elem _ i => i < L.length
  | _ => True

section
variable [ElemSize V] {w w' : W V} {σ σ' : Sg V} {s t : Ptr} {v u : Vec V}

/-- What is known about a vector in the abstract state. -/
def known (v : Vec V) : Known V := ⟨v.alloc, v.cap, v.start, v.els⟩

theorem knows_iff (h : Inv w σ) (hs : σ s = some v) {k : Known V} : Knows w s k ↔ k = known v := by
  unfold Knows
  rw [hasAlloc_iff h hs, hasCap_iff h hs, hasData_iff h hs, contents_iff h hs]
  constructor
  · obtain ⟨a, c, p, l⟩ := k
    rintro ⟨h1, h2, h3, h4⟩
    dsimp only at h1 h2 h3 h4
    rw [h1, h2, h3, h4]; rfl
  · rintro rfl; exact ⟨rfl, rfl, rfl, rfl⟩

theorem ask_wp {q : Query V} (h : Inv w σ) (hs : σ q.objects.1 = some v) (ht : σ q.objects.2 = some u)
    (hi : AccessOk v.els q) : wp (ask q) w fun r w' => Right (known v) (known u) q r ∧ w' = w := by
  cases q <;> dsimp only [Query.objects] at hs ht <;> simp only [ask, wp_bind]
  case size s =>
    simp only [Vec.size, wp_bind, wp_rdObj (h.st.obj _ _ hs).2 (h.st.ne_null hs), wp_pure]
    exact ⟨rfl, trivial⟩
  case capacity s =>
    simp only [Vec.capacity, wp_bind, wp_rdObj (h.st.obj _ _ hs).2 (h.st.ne_null hs), wp_pure]
    exact ⟨⟨rfl, (h.st.ok _ _ hs).len⟩, trivial⟩
  case empty s =>
    simp only [Vec.empty, wp_bind, wp_rdObj (h.st.obj _ _ hs).2 (h.st.ne_null hs), wp_pure]
    exact ⟨by simp [Right, known], trivial⟩
  case alloc s =>
    simp only [getAlloc, wp_bind, wp_rdObj (h.st.obj _ _ hs).2 (h.st.ne_null hs), wp_pure]
    exact ⟨rfl, trivial⟩
  case begin s =>
    simp only [begin_, wp_bind, wp_rdObj (h.st.obj _ _ hs).2 (h.st.ne_null hs), wp_pure]
    exact ⟨rfl, trivial⟩
  case data s =>
    have hi : v.els ≠ [] := hi
    simp only [Vec.data, Vec.empty, wp_bind, wp_rdObj (h.st.obj _ _ hs).2 (h.st.ne_null hs), wp_pure, wp_assertM]
    exact ⟨by simpa using hi, rfl, trivial⟩
  case elem s i =>
    have hi : i < v.els.length := hi
    exact wp_at h.st hs (List.getElem?_eq_getElem hi) ⟨List.getElem?_eq_getElem hi, rfl⟩
  case front s =>
    have hi : v.els ≠ [] := hi
    simp only [Vec.front, Vec.empty, wp_bind, wp_rdObj (h.st.obj _ _ hs).2 (h.st.ne_null hs), wp_pure, wp_assertM]
    refine ⟨by simpa using hi, ?_⟩
    cases hl : v.els with
    | nil => exact absurd hl hi
    | cons x T =>
      rw [wp_slot h.st hs (x := x) (by simp [hl])]
      exact ⟨⟨T, hl⟩, rfl⟩
  case back s =>
    have hi : v.els ≠ [] := hi
    simp only [Vec.back, Vec.empty, wp_bind, wp_rdObj (h.st.obj _ _ hs).2 (h.st.ne_null hs), wp_pure, wp_assertM]
    refine ⟨by simpa using hi, ?_⟩
    rcases List.eq_nil_or_concat v.els with hl | ⟨T, x, hl⟩
    · exact absurd hl hi
    · rw [List.concat_eq_append] at hl
      rw [wp_slot h.st hs (x := x) (by simp [hl])]
      exact ⟨⟨T, hl⟩, rfl⟩
  case items s =>
    refine wp_mono (wp_walk h hs) ?_
    rintro r w' ⟨rfl, rfl⟩
    exact ⟨rfl, rfl⟩
  case iterate s =>
    refine wp_mono (wp_iterate h hs) ?_
    rintro r w' ⟨rfl, rfl⟩
    exact ⟨rfl, rfl⟩
  case reversed s =>
    refine wp_mono (wp_iterateBack h hs) ?_
    rintro r w' ⟨rfl, rfl⟩
    exact ⟨rfl, rfl⟩
  case same eq s t =>
    exact wp_equal h.st hs ht eq ⟨by simp [Right, known], rfl⟩

/-- The memory cells of a vector. -/
def cells (s : Ptr) (v : Vec V) : List Ptr := if v.start = .null then [s] else [s, v.start]

omit [ElemSize V] in
theorem mem_cells {p : Ptr} : p ∈ cells s v ↔ p = s ∨ p ≠ .null ∧ p = v.start := by
  unfold cells
  split
  · next h => simp [h]
  · next h =>
    simp only [List.mem_cons, List.not_mem_nil, or_false]
    exact ⟨fun h' => h'.imp id fun e => ⟨by rw [e]; exact h, e⟩, fun h' => h'.imp id And.right⟩

/-- The vectors `s` and `t` alone. -/
theorem Inv.restrict (h : Inv w σ) (hs : σ s = some v) (ht : σ t = some u) :
    Inv { w with heap := fun p => if p ∈ cells s v ++ cells t u then w.heap p else none }
      fun p => if p = s ∨ p = t then σ p else none := by
  have key : ∀ x vx, (if x = s ∨ x = t then σ x else none) = some vx → σ x = some vx ∧
      ∀ p ∈ cells x vx, p ∈ cells s v ++ cells t u := by
    intro x vx hx
    split at hx
    · rename_i hc
      refine ⟨hx, fun p hp => ?_⟩
      rcases hc with rfl | rfl
      · rw [hs] at hx; cases hx; simp [hp]
      · rw [ht] at hx; cases hx; simp [hp]
    · cases hx
  refine ⟨⟨?_, ?_, ?_, ?_⟩, ?_⟩
  · intro x vx hx
    obtain ⟨h1, h2⟩ := key x vx hx
    exact ⟨(h.st.obj x vx h1).1, (if_pos (h2 x (mem_cells.2 (.inl rfl)))).trans (h.st.obj x vx h1).2⟩
  · intro x vx hx
    obtain ⟨h1, h2⟩ := key x vx hx
    obtain ⟨g1, g2, g3⟩ := h.st.ok x vx h1
    refine ⟨g1, g2, g3.imp id fun ⟨g4, g5⟩ => ⟨g4, (if_pos (h2 _ (mem_cells.2 (.inr ⟨?_, rfl⟩)))).trans g5⟩⟩
    obtain ⟨a, ha⟩ := g4
    rw [ha]; simp
  · intro x y vx vy hx hy
    exact h.st.disj x y vx vy (key x vx hx).1 (key y vy hy).1
  · intro p hp
    have hm : p ∈ cells s v ++ cells t u := by
      apply Classical.byContradiction
      intro hn
      exact hp (if_neg hn)
    rw [List.mem_append, mem_cells, mem_cells] at hm
    rcases hm with (rfl | ⟨hn, rfl⟩) | rfl | ⟨hn, rfl⟩
    · left; simp [hs]
    · right; exact ⟨s, v, by simp [hs], rfl, hn⟩
    · left; simp [ht]
    · right; exact ⟨t, u, by simp [ht], rfl, hn⟩
  · intro i hi
    have := h.top i hi
    show (if _ then _ else _) = none
    split
    · exact this
    · rfl

theorem QValid.vecs {q : Query V} (h : Inv w σ) (hv : QValid w q) : ∃ v u, σ q.objects.1 = some v ∧
    σ q.objects.2 = some u ∧ AccessOk v.els q := by
  obtain ⟨v, hs⟩ := (alive_iff h).1 hv.1
  obtain ⟨u, ht⟩ := (alive_iff h).1 hv.2.1
  refine ⟨v, u, hs, ht, ?_⟩
  obtain ⟨-, -, h3⟩ := hv
  cases q with
  | front s => exact fun he => h3 ((contents_iff h hs).2 he.symm)
  | back s => exact fun he => h3 ((contents_iff h hs).2 he.symm)
  | data s => exact fun he => h3 ((contents_iff h hs).2 he.symm)
  | elem s i => obtain ⟨L, h1, h2⟩ := h3; obtain rfl := (contents_iff h hs).1 h1; exact h2
  | _ => trivial

theorem ownCell_iff (h : Inv w σ) {q : Query V} (hs : σ q.objects.1 = some v) (ht : σ q.objects.2 = some u) {p : Ptr} :
    OwnCell w q p ↔ p ∈ cells q.objects.1 v ++ cells q.objects.2 u := by
  rw [List.mem_append, mem_cells, mem_cells]
  constructor
  · rintro ⟨s, rfl | rfl, hp⟩
    · rw [hasData_iff h hs] at hp; exact .inl hp
    · rw [hasData_iff h ht] at hp; exact .inr hp
  · rintro (hp | hp)
    · exact ⟨_, .inl rfl, by rw [hasData_iff h hs]; exact hp⟩
    · exact ⟨_, .inr rfl, by rw [hasData_iff h ht]; exact hp⟩

/-- C91: in every state that can be reached by any history of calls, every query terminates without any fault, writes nothing
and answers correctly.  It reads nothing but the objects it is about and their blocks: in every other state in which these
cells have the same content, whatever else happened there, it does the same and gives the same answer. -/
theorem vector_query {q : Query V} {k m : Known V} (hr : Reach w) (hv : QValid w q) (hk : Knows w q.objects.1 k)
    (hm : Knows w q.objects.2 m) :
    ∃ r, Right k m q r ∧ ∀ w2 : W V, (∀ p, OwnCell w q p → w2.heap p = w.heap p) → Runs (ask q) w2 r w2 := by
  obtain ⟨σ, h⟩ := hr.inv
  obtain ⟨v, u, hs, ht, hi⟩ := hv.vecs h
  obtain rfl := (knows_iff h hs).1 hk
  obtain rfl := (knows_iff h ht).1 hm
  have h0 := h.restrict hs ht
  obtain ⟨r, w', h1, h2, rfl⟩ := (ask_wp (u := u) h0 (by simp [hs]) (by simp [ht]) hi).runs
  obtain ⟨c, hc⟩ := (ask_readOnly q).local h1
  have hc0 := hc { w with heap := fun p => if p ∈ cells q.objects.1 v ++ cells q.objects.2 u then w.heap p else none }
    fun p hp => if_pos hp
  obtain ⟨-, e⟩ := Runs.det h1 hc0
  have hcn : c = 0 := by
    have := congrArg World.nCmp e
    simp only [World.addCmp_nCmp] at this
    omega
  subst hcn
  exact ⟨r, h2, fun w2 hw => hc w2 fun p hp => hw p ((ownCell_iff h hs ht).2 hp)⟩

example : ∃ (w : W Nat) (s t : Ptr) (k m : Known Nat), Reach w ∧ QValid w (.elem s 2) ∧ QValid w (.same (fun a b => a == b) s t) ∧
    Knows w s k ∧ k.els = [3, 1, 2] ∧ Knows w t m ∧ m.els = [2, 5] ∧ m.cap = 3 := by
  obtain ⟨w, s, t, u, hr, hg, h1, h2, h3, ha, hb, hu, c1, c2, c3, k1, k2, k3, a1, a2, a3⟩ := demo
  obtain ⟨σ, h⟩ := hr.inv
  obtain ⟨v, hs⟩ := (alive_iff h).1 ha
  obtain ⟨u, ht⟩ := (alive_iff h).1 hb
  exact ⟨w, s, t, _, _, hr, ⟨ha, ha, _, c1, by simp⟩, ⟨ha, hb, trivial⟩, (knows_iff h hs).2 rfl,
    ((contents_iff h hs).1 c1).symm, (knows_iff h ht).2 rfl, ((contents_iff h ht).1 c2).symm, ((hasCap_iff h ht).1 k2).symm⟩

/-- The memory cells of a vector are determined by its allocator, block, capacity and elements. -/
theorem same_cells (h : Inv w σ) (h' : Inv w' σ') (hs : σ s = some v) (hs' : σ' s = some v) :
    ∀ p ∈ cells s v, w'.heap p = w.heap p := by
  intro p hp
  rw [mem_cells] at hp
  rcases hp with rfl | ⟨hn, rfl⟩
  · rw [(h.st.obj _ _ hs).2, (h'.st.obj _ _ hs').2]
  · rcases (h.st.ok _ _ hs).blk with ⟨h1, -⟩ | ⟨-, h1⟩
    · exact absurd h1 hn
    · rcases (h'.st.ok _ _ hs').blk with ⟨h2, -⟩ | ⟨-, h2⟩
      · exact absurd h2 hn
      · rw [h1, h2]

/-- C91: a call on other objects does not change any cell of the objects of a query, so the query does and answers the same
before and after it, and at any moment at which these cells are as they were: threads that work on different objects do not
disturb each other. -/
theorem vector_query_undisturbed {q : Query V} {c : Call V} {r : Res} (hr : Reach w) (hq : QValid w q) (hv : Valid w c)
    (hrun : Runs (exec c) (ready w) r w') (h1 : ¬ Touches c q.objects.1) (h2 : ¬ Touches c q.objects.2) :
    (∀ p, OwnCell w q p → w'.heap p = w.heap p) ∧ QValid w' q ∧ ∃ a, Runs (ask q) w a w ∧ Runs (ask q) w' a w' := by
  obtain ⟨σ, h⟩ := hr.inv
  obtain ⟨v, u, hs, ht, hi⟩ := hq.vecs h
  obtain ⟨r', w1, hrun', σ', h', -, -, hfr⟩ := (exec_fsim h.ready rfl (valid_ready h hv)).runs
  obtain ⟨rfl, rfl⟩ := Runs.det hrun hrun'
  have hs' : σ' q.objects.1 = some v := (hfr _ h1 (by rw [hs]; simp)).trans hs
  have ht' : σ' q.objects.2 = some u := (hfr _ h2 (by rw [ht]; simp)).trans ht
  have hcells : ∀ p, OwnCell w q p → w'.heap p = w.heap p := by
    intro p hp
    rw [ownCell_iff h hs ht, List.mem_append] at hp
    rcases hp with hp | hp
    · exact same_cells h h' hs hs' p hp
    · exact same_cells h h' ht ht' p hp
  refine ⟨hcells, ⟨(alive_iff h').2 ⟨_, hs'⟩, (alive_iff h').2 ⟨_, ht'⟩, ?_⟩, ?_⟩
  · cases q with
    | front s => exact fun he => hi ((contents_iff h' hs').1 he).symm
    | back s => exact fun he => hi ((contents_iff h' hs').1 he).symm
    | data s => exact fun he => hi ((contents_iff h' hs').1 he).symm
    | elem s i => exact ⟨_, (contents_iff h' hs').2 rfl, hi⟩
    | _ => trivial
  · obtain ⟨a, -, h3⟩ := vector_query hr hq ((knows_iff h hs).2 rfl) ((knows_iff h ht).2 rfl)
    exact ⟨a, h3 w fun _ _ => rfl, h3 w' hcells⟩

example : ∃ (w : W Nat) (s t : Ptr), Reach w ∧ QValid w (.elem s 2) ∧ Valid w (.copy t s) ∧
    ¬ Touches (.copy t s : Call Nat) ((.elem s 2 : Query Nat).objects.1) := by
  obtain ⟨w, s, t, u, hr, hg, h1, h2, h3, ha, hb, hu, c1, c2, c3, k1, k2, k3, a1, a2, a3⟩ := demo
  exact ⟨w, s, t, hr, ⟨ha, ha, _, c1, by simp⟩, ⟨hb, ha⟩, h1⟩
end

end Nestl.VC
