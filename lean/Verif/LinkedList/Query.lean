import Verif.LinkedList.Props3
import Verif.LinkedList.Readers
set_option autoImplicit false
/-
Queries of a list: what they answer, what they read, and that they write nothing.
-/
namespace Nestl.LC
open Nestl.LL
variable {V : Type}

/-- The functions of a list that do not change it (`const` member functions, the operations of iterators and the comparison
of two lists); iterators are passed together with the object that they belong to. -/
inductive Query (V : Type)
  | begin (s : Ptr)                                     -- `s.begin()`
  | fin (s : Ptr)                                       -- `s.end()`
  | size (s : Ptr)                                      -- `s.size()`
  | empty (s : Ptr)                                     -- `s.empty()`
  | front (s : Ptr)                                     -- `s.front()`
  | back (s : Ptr)                                      -- `s.back()`
  | alloc (s : Ptr)                                     -- `s.get_allocator()`
  | value (s p : Ptr)                                   -- `*p`
  | next (s p : Ptr)                                    -- `++p`
  | prev (s p : Ptr)                                    -- `--p`
  | sameIt (s p q : Ptr)                                -- `p == q`
  | items (s : Ptr)                                     -- a loop from `begin()` to `end()`
  | itemsBack (s : Ptr)                                 -- a loop from `end()` to `begin()`
  | same (eq : V → V → Bool) (s t : Ptr)                -- `s == t`

/-- Answers of queries. -/
inductive Answer (V : Type)
  | pos (p : Ptr)
  | num (n : Nat)
  | flag (b : Bool)
  | val (v : V)
  | items (L : List (Ptr × V))

/-- The program executed by a query (the functions cited in `LinkedList/Model.lean` and `LinkedList/Client.lean`). -/
def ask : Query V → M (W V) (Answer V)
  | .begin s => do pure (.pos (← begin_ s))
  | .fin s => do pure (.pos (← end_ s))
  | .size s => do pure (.num (← LL.size s))
  | .empty s => do pure (.flag (← LL.empty s))
  | .front s => do pure (.val (← LL.front s))
  | .back s => do pure (.val (← LL.back s))
  | .alloc s => do pure (.num (← getAlloc s))
  | .value _ p => do pure (.val (← deref p))
  | .next _ p => do pure (.pos (← incr p))
  | .prev _ p => do pure (.pos (← decr p))
  | .sameIt _ p q => do pure (.flag (← itEq p q))
  | .items s => do pure (.items (← walk s))
  | .itemsBack s => do pure (.items (← walkBack s))
  | .same eq s t => do pure (.flag (← equal eq s t))

/-- The objects that a query is about (the same one twice if there is only one). -/
def Query.objects : Query V → Ptr × Ptr
  | .begin s | .fin s | .size s | .empty s | .front s | .back s | .alloc s => (s, s)
  | .value s _ | .next s _ | .prev s _ | .sameIt s _ _ | .items s | .itemsBack s => (s, s)
  | .same _ s t => (s, t)

/-- Preconditions: the objects exist; `front()` and `back()` only of a non-empty list; only iterators to elements are
dereferenced and incremented, and `begin()` is not decremented. -/
def QValid (w : W V) (q : Query V) : Prop :=
  Alive w q.objects.1 ∧ Alive w q.objects.2 ∧
    match q with
    | .front s | .back s => ¬ Contents w s []
    | .value s p | .next s p => ∃ L v, Contents w s L ∧ (p, v) ∈ L
    | .prev s p => ∃ X x Y, Contents w s (X ++ x :: Y) ∧ p = posOf s Y
    | .sameIt s p q => IsPos w s p ∧ IsPos w s q
    | _ => True

/-- The right answer, given the allocator `a` and the elements `L` of the first object and the elements `M` of the second. -/
def Right (a : Nat) (L M : List (Ptr × V)) : Query V → Answer V → Prop
  | .begin s, .pos p => p = posOf s L
  | .fin s, .pos p => p = s
  | .size _, .num n => n = L.length
  | .empty _, .flag b => b = true ↔ L = []
  | .front _, .val v => ∃ p T, L = (p, v) :: T
  | .back _, .val v => ∃ p T, L = T ++ [(p, v)]
  | .alloc _, .num n => n = a
  | .value _ p, .val v => (p, v) ∈ L
  | .next s p, .pos q => ∃ X v Y, L = X ++ (p, v) :: Y ∧ q = posOf s Y
  | .prev s p, .pos q => ∃ X v Y, L = X ++ (q, v) :: Y ∧ p = posOf s Y
  | .sameIt _ p q, .flag b => b = true ↔ p = q
  | .items _, .items X => X = L
  | .itemsBack _, .items X => X = L.reverse
  | .same eq _ _, .flag b => b = true ↔ L.length = M.length ∧ ∀ z ∈ L.zip M, eq z.1.2 z.2.2 = true
  | _, _ => False

/-- `p` is one of the memory cells of the objects of a query: an object itself or one of its elements. -/
def OwnCell (w : W V) (q : Query V) (p : Ptr) : Prop :=
  ∃ s L, (s = q.objects.1 ∨ s = q.objects.2) ∧ Contents w s L ∧ (p = s ∨ ∃ v, (p, v) ∈ L)

theorem ask_readOnly (q : Query V) : ReadOnly (ask q) := by
  cases q <;> unfold ask <;> reading

/-- The iterators of a query, given the elements. -/
def IterOk (L : List (Ptr × V)) : Query V → Prop
  | .front _ | .back _ => L ≠ []
  | .value _ p | .next _ p => ∃ v, (p, v) ∈ L
  | .prev s p => ∃ X x Y, L = X ++ x :: Y ∧ p = posOf s Y
  | .sameIt s p q => (∃ X Y, L = X ++ Y ∧ p = posOf s Y) ∧ ∃ X Y, L = X ++ Y ∧ q = posOf s Y
  | _ => True

section
variable {w w' : W V} {σ σ' : Sg V} {s t : Ptr} {ls l2 : Lst V}

theorem ask_wp {q : Query V} (h : Inv w σ) (hs : σ q.objects.1 = some ls) (ht : σ q.objects.2 = some l2)
    (hi : IterOk (view ls.els) q) :
    wp (ask q) w fun r w' => Right ls.alloc (view ls.els) (view l2.els) q r ∧ w' = w := by
  cases q <;> dsimp only [Query.objects] at hs ht <;> simp only [ask, wp_bind]
  case begin s => exact wp_begin h hs ⟨(posOf_view _ _).symm, rfl⟩
  case fin s => exact wp_end h hs ⟨rfl, rfl⟩
  case size s => exact wp_size h hs ⟨(length_view _).symm, rfl⟩
  case empty s => exact wp_empty h hs ⟨by simp [Right], rfl⟩
  case front s =>
    cases hl : ls.els with
    | nil => exact absurd (by simp [hl]) hi
    | cons e l => exact wp_front h hs hl ⟨⟨e.p, view l, rfl⟩, rfl⟩
  case back s =>
    rcases List.eq_nil_or_concat ls.els with hl | ⟨l, e, hl⟩
    · exact absurd (by simp [hl]) hi
    · rw [List.concat_eq_append] at hl
      exact wp_back h hs hl ⟨⟨e.p, view l, by simp [hl]⟩, rfl⟩
  case alloc s =>
    obtain ⟨c, hc, -, hd⟩ := dat_cell (h.st.hdr _ _ hs).2
    simp only [getAlloc, wp_bind, wp_rd hc (h.st.null_ne hs), wp_pure]
    exact ⟨hd, trivial⟩
  case value s p =>
    obtain ⟨v, hv⟩ := hi
    obtain ⟨e, he, h1⟩ := List.mem_map.1 hv
    cases h1
    exact wp_deref h hs he ⟨hv, rfl⟩
  case next s p =>
    obtain ⟨v, hv⟩ := hi
    obtain ⟨X, Y, e⟩ := List.append_of_mem hv
    obtain ⟨A, B', hA, rfl, h2⟩ := view_split e
    obtain ⟨x, B, rfl, h3, rfl⟩ := view_cons_inv h2
    cases h3
    exact wp_incr h hs hA ⟨⟨_, _, _, e, (posOf_view _ _).symm⟩, rfl⟩
  case prev s p =>
    obtain ⟨X, ⟨y, v⟩, Y, e, rfl⟩ := hi
    obtain ⟨A, B', hA, rfl, h2⟩ := view_split e
    obtain ⟨x, B, rfl, h3, rfl⟩ := view_cons_inv h2
    cases h3
    rw [posOf_view]
    exact wp_decr h hs hA ⟨⟨_, _, _, e, (posOf_view _ _).symm⟩, rfl⟩
  case sameIt s p q =>
    obtain ⟨⟨X, Y, e, rfl⟩, X', Y', e', rfl⟩ := hi
    obtain ⟨A, B, hA, rfl, rfl⟩ := view_split e
    obtain ⟨A', B', hA', rfl, rfl⟩ := view_split e'
    rw [posOf_view, posOf_view]
    exact wp_itEq (h.on_pos hs hA) (h.on_pos hs hA') ⟨by simp [Right], rfl⟩
  case items s => exact wp_walk h hs ⟨rfl, rfl⟩
  case itemsBack s => exact wp_walkBack h hs ⟨rfl, rfl⟩
  case same eq s t =>
    refine wp_equal eq h hs ht ⟨?_, rfl⟩
    show _ ↔ _
    rw [allEq_iff, ← view_snd, ← view_snd, List.zip_map, List.length_map, List.length_map]
    refine and_congr_right fun _ => ⟨fun h z hz => h _ (List.mem_map_of_mem hz), ?_⟩
    intro h z hz
    obtain ⟨y, hy, rfl⟩ := List.mem_map.1 hz
    exact h y hy

theorem _root_.Nestl.LL.Ch.congr {H H' : Heap V} {x : Ptr} {l : List Ptr} (h : Ch H (x :: l))
    (hf : ∀ p ∈ x :: l, H' p = H p) : Ch H' (x :: l) := by
  induction l generalizing x with
  | nil => trivial
  | cons y l ih =>
    refine ⟨?_, ih h.2 fun p hp => hf p (List.mem_cons_of_mem _ hp)⟩
    have h1 := h.1
    unfold Lk nxt prv at h1 ⊢
    rw [hf x (by simp), hf y (by simp)]
    exact h1

theorem _root_.Nestl.LL.Ring.congr {H H' : Heap V} {l : List Ptr} (h : Ring H s l) (hf : ∀ p ∈ s :: l, H' p = H p) :
    Ring H' s l := by
  refine Ch.congr h fun p hp => hf p ?_
  simp only [List.mem_cons, List.mem_append, List.not_mem_nil, or_false] at hp ⊢
  rcases hp with h | h | h
  · exact .inl h
  · exact .inr h
  · exact .inl h

/-- The memory cells of the list `s` with elements `l`. -/
def cells (s : Ptr) (l : List (El V)) : List Ptr := s :: ptrs l

/-- The lists `s` and `t` alone. -/
theorem _root_.Nestl.LL.Inv.restrict (h : Inv w σ) (hs : σ s = some ls) (ht : σ t = some l2) :
    Inv { w with heap := fun p => if p ∈ cells s ls.els ++ cells t l2.els then w.heap p else none }
      fun p => if p = s ∨ p = t then σ p else none := by
  have key : ∀ x lx, (if x = s ∨ x = t then σ x else none) = some lx → σ x = some lx ∧
      ∀ p ∈ cells x lx.els, p ∈ cells s ls.els ++ cells t l2.els := by
    intro x lx hx
    split at hx
    · rename_i hc
      refine ⟨hx, fun p hp => ?_⟩
      rcases hc with rfl | rfl
      · rw [hs] at hx; cases hx; simp [hp]
      · rw [ht] at hx; cases hx; simp [hp]
    · cases hx
  refine ⟨⟨?_, ?_, ?_, ?_, ?_, ?_⟩, ?_⟩
  · intro x lx hx
    obtain ⟨h1, h2⟩ := key x lx hx
    refine ⟨(h.st.hdr x lx h1).1, ?_⟩
    have := (h.st.hdr x lx h1).2
    simp only [dat] at this ⊢
    rw [if_pos (h2 x (by simp [cells]))]
    exact this
  · intro x lx hx
    obtain ⟨h1, h2⟩ := key x lx hx
    exact (h.st.ring x lx h1).congr fun p hp => if_pos (h2 p hp)
  · intro x lx hx e he
    obtain ⟨h1, h2⟩ := key x lx hx
    refine ⟨(h.st.el x lx h1 e he).1, ?_⟩
    have := (h.st.el x lx h1 e he).2
    simp only [dat] at this ⊢
    rw [if_pos (h2 e.p (by simp [cells, mem_ptrs_of he]))]
    exact this
  · intro x lx hx
    exact h.st.nodup x lx (key x lx hx).1
  · intro x y lx ly hx hy
    exact h.st.disj x y lx ly (key x lx hx).1 (key y ly hy).1
  · intro p hp
    have hm : p ∈ cells s ls.els ++ cells t l2.els := by
      apply Classical.byContradiction
      intro hn
      exact hp (by simp only [dat, if_neg hn]; rfl)
    simp only [cells, List.mem_append, List.mem_cons] at hm
    rcases hm with (rfl | hm) | rfl | hm
    · left; simp [hs]
    · right; exact ⟨s, ls, by simp [hs], hm⟩
    · left; simp [ht]
    · right; exact ⟨t, l2, by simp [ht], hm⟩
  · intro i hi
    refine h.sp i ?_
    intro h0
    apply hi
    show (if _ then _ else _) = none
    split
    · exact h0
    · rfl

theorem QValid.lists {q : Query V} (h : Inv w σ) (hv : QValid w q) : ∃ ls l2, σ q.objects.1 = some ls ∧
    σ q.objects.2 = some l2 ∧ IterOk (view ls.els) q := by
  obtain ⟨ls, hs⟩ := (alive_iff h).1 hv.1
  obtain ⟨l2, ht⟩ := (alive_iff h).1 hv.2.1
  refine ⟨ls, l2, hs, ht, ?_⟩
  obtain ⟨-, -, h3⟩ := hv
  have hc : ∀ {L}, Contents w q.objects.1 L → L = view ls.els := fun hL => (contents_iff h hs).1 hL
  cases q with
  | front s => exact fun he => h3 ((contents_iff h hs).2 he.symm)
  | back s => exact fun he => h3 ((contents_iff h hs).2 he.symm)
  | value s p => obtain ⟨L, v, h1, h2⟩ := h3; exact ⟨v, hc h1 ▸ h2⟩
  | next s p => obtain ⟨L, v, h1, h2⟩ := h3; exact ⟨v, hc h1 ▸ h2⟩
  | prev s p => obtain ⟨X, x, Y, h1, h2⟩ := h3; exact ⟨X, x, Y, (hc h1).symm, h2⟩
  | sameIt s p q =>
    obtain ⟨⟨X, Y, h1, h2⟩, X', Y', h3, h4⟩ := h3
    exact ⟨⟨X, Y, (hc h1).symm, h2⟩, X', Y', (hc h3).symm, h4⟩
  | _ => trivial

theorem ownCell_iff (h : Inv w σ) {q : Query V} (hs : σ q.objects.1 = some ls) (ht : σ q.objects.2 = some l2) {p : Ptr} :
    OwnCell w q p ↔ p ∈ cells q.objects.1 ls.els ++ cells q.objects.2 l2.els := by
  have hm : ∀ l : List (El V), (∃ v, (p, v) ∈ view l) ↔ p ∈ ptrs l := by
    intro l
    rw [← view_fst]; simp
  simp only [OwnCell, cells, List.mem_append, List.mem_cons, ← hm]
  constructor
  · rintro ⟨s, L, rfl | rfl, hL, hp⟩
    · rw [(contents_iff h hs).1 hL] at hp; exact .inl hp
    · rw [(contents_iff h ht).1 hL] at hp; exact .inr hp
  · rintro (hp | hp)
    · exact ⟨_, _, .inl rfl, (contents_iff h hs).2 rfl, hp⟩
    · exact ⟨_, _, .inr rfl, (contents_iff h ht).2 rfl, hp⟩

/-- C90: in every state that can be reached by any history of calls, every query terminates without any fault, writes nothing
and answers correctly.  It reads nothing but the objects it is about and their elements: in every other state in which these
cells have the same content, whatever else happened there, it does the same and gives the same answer. -/
theorem list_query {q : Query V} {a : Nat} {L M : List (Ptr × V)} (hr : Reach w) (hv : QValid w q)
    (hL : Contents w q.objects.1 L) (ha : HasAlloc w q.objects.1 a) (hM : Contents w q.objects.2 M) :
    ∃ r, Right a L M q r ∧ ∀ w2 : W V, (∀ p, OwnCell w q p → w2.heap p = w.heap p) → Runs (ask q) w2 r w2 := by
  obtain ⟨σ, h, ho⟩ := hr.inv
  obtain ⟨ls, l2, hs, ht, hi⟩ := hv.lists h
  obtain rfl := (contents_iff h hs).1 hL
  obtain rfl := (contents_iff h ht).1 hM
  obtain rfl := (hasAlloc_iff h hs).1 ha
  have h0 := h.restrict hs ht
  obtain ⟨r, w', h1, h2, rfl⟩ := (ask_wp (l2 := l2) h0 (by simp [hs]) (by simp [ht]) hi).runs
  obtain ⟨c, hc⟩ := (ask_readOnly q).local h1
  have hc0 := hc { w with heap := fun p => if p ∈ cells q.objects.1 ls.els ++ cells q.objects.2 l2.els then w.heap p else none }
    fun p hp => if_pos hp
  obtain ⟨-, e⟩ := Runs.det h1 hc0
  have hcn : c = 0 := by
    have := congrArg World.nCmp e
    simp only [World.addCmp_nCmp] at this
    omega
  subst hcn
  exact ⟨r, h2, fun w2 hw => hc w2 fun p hp => hw p ((ownCell_iff h hs ht).2 hp)⟩

example : ∃ (w : W Nat) (s t p q r x y : Ptr), Reach w ∧ QValid w (.prev s r) ∧ QValid w (.same (fun a b => a == b) s t) ∧
    Contents w s [(p, 3), (q, 1), (r, 2)] ∧ HasAlloc w s defaultAlloc ∧ Contents w t [(x, 2), (y, 5)] := by
  obtain ⟨w, s, t, u, p, q, r, x, y, z, hr, hg, hst, _, _, ha, hb, _, hc, hd, _, h1, _⟩ := demo
  exact ⟨w, s, t, p, q, r, x, y, hr, ⟨ha, ha, [(p, 3)], (q, 1), [(r, 2)], hc, rfl⟩, ⟨ha, hb, trivial⟩, hc, h1, hd⟩

/-- Which objects a call may modify.  (A list that is copied, or a range of which is assigned to another list, is only read.) -/
def Touches : Call V → Ptr → Prop
  | .create _, _ => False
  | .insert s _ _, x | .insertN s _ _ _, x | .insertRange s _ _, x | .erase s _, x | .eraseRange s _ _, x => x = s
  | .pushBack s _, x | .pushFront s _, x | .popBack s, x | .popFront s, x | .clear s, x => x = s
  | .assignN s _ _, x | .assignVals s _, x | .assignRange s _ _ _, x | .copy s _, x | .move s, x => x = s
  | .sort _ s, x | .destroy s, x => x = s
  | .moveAssign s t, x | .swap s t, x | .merge _ s t, x => x = s ∨ x = t
  | .spliceAll s _ t, x | .spliceOne s _ t _, x | .spliceRange s _ t _ _, x => x = s ∨ x = t

theorem Spec.frame {A A' : AState V} {c : Call V} {r : Res} {b : Bool} (h : Spec A c r b A') {x : Ptr} (hx : A x ≠ none)
    (hn : ¬ Touches c x) : A' x = A x := by
  cases c <;> simp only [Touches] at hn <;> simp only [Spec] at h
  case create a =>
    obtain ⟨-, s, -, h1, rfl⟩ := h
    exact upd_other _ _ fun e => hx (e ▸ h1)
  case insert =>
    obtain ⟨_, _, _, -, -, h⟩ := h
    split at h
    · rw [h.2]
    · obtain ⟨n, -, -, rfl⟩ := h; exact upd_other _ _ hn
  case insertN => obtain ⟨_, _, _, _, _, -, -, -, -, -, rfl⟩ := h; exact upd_other _ _ hn
  case insertRange => obtain ⟨_, _, _, _, _, -, -, -, -, -, rfl⟩ := h; exact upd_other _ _ hn
  case erase => obtain ⟨-, _, _, _, _, -, -, rfl⟩ := h; exact upd_other _ _ hn
  case eraseRange => obtain ⟨-, _, _, _, _, -, -, -, -, rfl⟩ := h; exact upd_other _ _ hn
  case pushBack =>
    obtain ⟨_, _, -, h⟩ := h
    split at h
    · rw [h]
    · obtain ⟨n, -, rfl⟩ := h; exact upd_other _ _ hn
  case pushFront =>
    obtain ⟨_, _, -, h⟩ := h
    split at h
    · rw [h]
    · obtain ⟨n, -, rfl⟩ := h; exact upd_other _ _ hn
  case popBack => obtain ⟨-, _, _, _, -, rfl⟩ := h; exact upd_other _ _ hn
  case popFront => obtain ⟨-, _, _, _, -, rfl⟩ := h; exact upd_other _ _ hn
  case clear => obtain ⟨-, _, _, -, rfl⟩ := h; exact upd_other _ _ hn
  case assignN => obtain ⟨_, _, _, _, -, -, -, -, rfl⟩ := h; exact upd_other _ _ hn
  case assignVals => obtain ⟨_, _, _, _, -, -, -, -, rfl⟩ := h; exact upd_other _ _ hn
  case assignRange => obtain ⟨_, _, _, _, _, _, _, _, -, -, -, -, -, -, -, rfl⟩ := h; exact upd_other _ _ hn
  case copy => obtain ⟨_, _, _, _, _, _, -, -, -, -, -, rfl⟩ := h; exact upd_other _ _ hn
  case move =>
    obtain ⟨-, d, _, _, -, h1, -, rfl⟩ := h
    have hd : x ≠ d := fun e => hx (e ▸ h1)
    rw [upd_other _ _ hd, upd_other _ _ hn]
  case moveAssign =>
    obtain ⟨-, _, _, _, -, -, rfl⟩ := h
    rw [not_or] at hn
    split
    · exact upd_other _ _ hn.1
    · rw [upd_other _ _ hn.2, upd_other _ _ hn.1]
  case swap => obtain ⟨-, _, _, _, -, -, rfl⟩ := h; rw [not_or] at hn; rw [upd_other _ _ hn.2, upd_other _ _ hn.1]
  case merge =>
    obtain ⟨-, _, _, _, -, -, -, _, -, -, rfl⟩ := h; rw [not_or] at hn; rw [upd_other _ _ hn.2, upd_other _ _ hn.1]
  case spliceAll =>
    obtain ⟨-, -, _, _, _, _, -, -, -, rfl⟩ := h; rw [not_or] at hn; rw [upd_other _ _ hn.2, upd_other _ _ hn.1]
  case spliceOne =>
    rw [not_or] at hn
    obtain ⟨-, _, ⟨-, _, _, _, _, _, -, -, -, -, rfl⟩ | ⟨-, _, _, _, _, -, -, -, rfl⟩ | ⟨-, _, _, _, _, -, -, -, rfl⟩⟩ := h
    · rw [upd_other _ _ hn.2, upd_other _ _ hn.1]
    · exact upd_other _ _ hn.1
    · exact upd_other _ _ hn.1
  case spliceRange =>
    rw [not_or] at hn
    obtain ⟨-, _, ⟨-, _, _, _, _, _, -, -, -, -, -, rfl⟩ | ⟨-, _, _, _, _, -, -, -, -, rfl⟩ | ⟨-, _, _, _, _, -, -, -, -, rfl⟩⟩ := h
    · rw [upd_other _ _ hn.2, upd_other _ _ hn.1]
    · exact upd_other _ _ hn.1
    · exact upd_other _ _ hn.1
  case sort => obtain ⟨-, _, _, _, -, -, rfl⟩ := h; exact upd_other _ _ hn
  case destroy => obtain ⟨-, _, _, -, rfl⟩ := h; exact upd_other _ _ hn

/-- A list whose sequence and allocator are the same in two states consists of the same elements. -/
theorem same_list (ho : Own σ) (ho' : Own σ') (h : abs σ' s = abs σ s) (hs : σ s = some ls) : σ' s = some ls := by
  rw [abs_some hs] at h
  obtain ⟨l, h1, h2⟩ := abs_inv h
  rw [h1]
  obtain ⟨a, l0⟩ := ls
  have key : ∀ l l0 : List (El V), (∀ e ∈ l, e.own = a) → (∀ e ∈ l0, e.own = a) → view l0 = view l → l = l0 := by
    intro l
    induction l with
    | nil => intro l0 _ _ h; simp at h; exact h.symm
    | cons e l ih =>
      intro l0 g1 g2 h
      obtain ⟨e', l', rfl, h3, h4⟩ := view_cons_inv h
      have h5 := g1 e (by simp)
      have h6 := g2 e' (by simp)
      rw [ih l' (fun e he => g1 e (by simp [he])) (fun e he => g2 e (by simp [he])) h4]
      obtain ⟨p, v, o⟩ := e
      obtain ⟨p', v', o'⟩ := e'
      cases h3
      dsimp only at h5 h6
      rw [h5, h6]
  have := key l l0 (fun e he => ho' s _ h1 e he) (fun e he => ho s _ hs e he) h2
  rw [this]

theorem _root_.Nestl.LL.Ch.lk {H : Heap V} {x p : Ptr} {l : List Ptr} (h : Ch H (x :: l)) (hp : p ∈ l) :
    ∃ a, a ∈ x :: l ∧ Lk H a p := by
  induction l generalizing x with
  | nil => cases hp
  | cons y l ih =>
    rcases List.mem_cons.1 hp with rfl | hp
    · exact ⟨x, by simp, h.1⟩
    · obtain ⟨a, h1, h2⟩ := ih h.2 hp
      exact ⟨a, List.mem_cons_of_mem _ h1, h2⟩

/-- Two memories that link the same cells in the same way. -/
theorem _root_.Nestl.LL.Ch.same {H H' : Heap V} {x : Ptr} {l : List Ptr} (h : Ch H (x :: l)) (h' : Ch H' (x :: l)) :
    (∀ p ∈ (x :: l).dropLast, nxt H' p = nxt H p) ∧ ∀ p ∈ l, prv H' p = prv H p := by
  induction l generalizing x with
  | nil => simp
  | cons y l ih =>
    obtain ⟨h1, h2⟩ := ih h.2 h'.2
    constructor
    · intro p hp
      rw [List.dropLast_cons_cons, List.mem_cons] at hp
      rcases hp with rfl | hp
      · exact h'.1.1.trans h.1.1.symm
      · exact h1 p hp
    · intro p hp
      rw [List.mem_cons] at hp
      rcases hp with rfl | hp
      · exact h'.1.2.trans h.1.2.symm
      · exact h2 p hp

/-- The memory cells of a list are determined by its elements. -/
theorem same_cells (h : Inv w σ) (h' : Inv w' σ') (hs : σ s = some ls) (hs' : σ' s = some ls) :
    ∀ p ∈ cells s ls.els, w'.heap p = w.heap p := by
  have e : s :: (ptrs ls.els ++ [s]) = (s :: ptrs ls.els) ++ [s] := rfl
  have hch := Ch.same (h.st.ring s ls hs) (h'.st.ring s ls hs')
  rw [e, List.dropLast_concat] at hch
  obtain ⟨g1, g2⟩ := hch
  intro p hp
  have hn := g1 p hp
  have hprv : prv w'.heap p = prv w.heap p := g2 p (by
    simp only [cells, List.mem_cons] at hp
    simp only [List.mem_append, List.mem_cons, List.not_mem_nil, or_false]
    exact hp.symm)
  have hd : dat w'.heap p = dat w.heap p := by
    simp only [cells, List.mem_cons] at hp
    rcases hp with rfl | hp
    · rw [(h.st.hdr _ _ hs).2, (h'.st.hdr _ _ hs').2]
    · obtain ⟨e, he, rfl⟩ := mem_ptrs.1 hp
      rw [(h.st.el s ls hs e he).2, (h'.st.el s ls hs' e he).2]
  have hnn : p ≠ .null := by
    simp only [cells, List.mem_cons] at hp
    rcases hp with rfl | hp
    · exact h.st.null_ne hs
    · obtain ⟨e, he, rfl⟩ := mem_ptrs.1 hp
      obtain ⟨a, ha⟩ := (h.st.el s ls hs e he).1
      rw [ha]; simp
  simp only [nxt, prv, dat, if_neg hnn] at hn hprv hd
  cases h1 : w.heap p <;> cases h2 : w'.heap p <;> simp [h1, h2] at hn hprv hd ⊢
  rename_i c c'
  obtain ⟨n, q, v, o⟩ := c
  obtain ⟨n', q', v', o'⟩ := c'
  simp_all

/-- C90: a call on other objects does not change any cell of the objects of a query, so the query does and answers the same
before and after it, and at any moment at which these cells are as they were: threads that work on different objects do not
disturb each other. -/
theorem list_query_undisturbed {q : Query V} {c : Call V} {r : Res} (hr : Reach w) (hq : QValid w q) (hv : Valid w c)
    (hrun : Runs (exec c) (ready w) r w') (h1 : ¬ Touches c q.objects.1) (h2 : ¬ Touches c q.objects.2) :
    (∀ p, OwnCell w q p → w'.heap p = w.heap p) ∧ QValid w' q ∧ ∃ a, Runs (ask q) w a w ∧ Runs (ask q) w' a w' := by
  obtain ⟨σ, h, ho⟩ := hr.inv
  obtain ⟨ls, l2, hs, ht, hi⟩ := hq.lists h
  obtain ⟨r', w1, hrun', A', hspec, ⟨σ', h', ho', rfl⟩, -, -⟩ := (exec_sim h.ready ho rfl (valid_ready h hv)).runs
  obtain ⟨rfl, rfl⟩ := Runs.det hrun hrun'
  have hs' : σ' q.objects.1 = some ls := same_list ho ho' (hspec.frame (by rw [abs_some hs]; simp) h1) hs
  have ht' : σ' q.objects.2 = some l2 := same_list ho ho' (hspec.frame (by rw [abs_some ht]; simp) h2) ht
  have hcells : ∀ p, OwnCell w q p → w'.heap p = w.heap p := by
    intro p hp
    rw [ownCell_iff h hs ht, List.mem_append] at hp
    rcases hp with hp | hp
    · exact same_cells h h' hs hs' p hp
    · exact same_cells h h' ht ht' p hp
  refine ⟨hcells, ⟨(alive_iff h').2 ⟨_, hs'⟩, (alive_iff h').2 ⟨_, ht'⟩, ?_⟩, ?_⟩
  · have hc := (contents_iff h' hs').2 rfl
    have hc2 : ∀ {L}, Contents w' q.objects.1 L ↔ L = view ls.els := contents_iff h' hs'
    cases q with
    | front s => exact fun he => hi ((contents_iff h' hs').1 he).symm
    | back s => exact fun he => hi ((contents_iff h' hs').1 he).symm
    | value s p => obtain ⟨v, h⟩ := hi; exact ⟨_, v, hc, h⟩
    | next s p => obtain ⟨v, h⟩ := hi; exact ⟨_, v, hc, h⟩
    | prev s p => obtain ⟨X, x, Y, h, h'⟩ := hi; exact ⟨X, x, Y, h ▸ hc, h'⟩
    | sameIt s p q =>
      obtain ⟨⟨X, Y, h1, h2⟩, X', Y', h3, h4⟩ := hi
      exact ⟨⟨X, Y, h1 ▸ hc, h2⟩, X', Y', h3 ▸ hc, h4⟩
    | _ => trivial
  · obtain ⟨a, -, h3⟩ := list_query hr hq ((contents_iff h hs).2 rfl) ((hasAlloc_iff h hs).2 rfl) ((contents_iff h ht).2 rfl)
    exact ⟨a, h3 w fun _ _ => rfl, h3 w' hcells⟩

example : ∃ (w : W Nat) (s t p : Ptr), Reach w ∧ QValid w (.value s p) ∧ Valid w (.copy t s) ∧
    ¬ Touches (.copy t s : Call Nat) ((.value s p : Query Nat).objects.1) := by
  obtain ⟨w, s, t, u, p, q, r, x, y, z, hr, hg, hst, _, _, ha, hb, _, hc, hd, _, h1, h2, _⟩ := demo
  exact ⟨w, s, t, p, hr, ⟨ha, ha, _, 3, hc, by simp⟩, ⟨hb, ha, .inl h2, hst.symm⟩, hst⟩
end

end Nestl.LC
