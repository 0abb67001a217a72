import Verif.Quiet
import Verif.VectorOf.Rel
set_option autoImplicit false
/-
Containers of nodes whose elements are objects of any class (`VO.Elem`): a node holds the address of its element.  Programs that
only follow and change links do the same whatever the elements are.
-/
namespace Nestl.NO
open Lean.Order

/-- Nodes with room for one element. -/
class Cell (N : Type → Type) where
  get : {V : Type} → N V → Option V
  put : {V : Type} → Option V → N V → N V
  /-- Replace the object by its value. -/
  abs : {A : Type} → (Ptr → Option A) → N Ptr → N A
  get_put : ∀ {V : Type} (x : Option V) (c : N V), get (put x c) = x
  get_abs : ∀ {A : Type} (f : Ptr → Option A) (c : N Ptr), get (abs f c) = (get c).bind f
  abs_put : ∀ {A : Type} (f : Ptr → Option A) (x : Option Ptr) (c : N Ptr), abs f (put x c) = put (x.bind f) (abs f c)
  abs_congr : ∀ {A : Type} (f g : Ptr → Option A) (c : N Ptr), (∀ q, get c = some q → f q = g q) → abs f c = abs g c

open Cell

variable {N : Type → Type} [Cell N] {A α β : Type}

/-- The node `p` holds the object `q`. -/
def Held (o : World (N Ptr)) (p q : Ptr) : Prop := ∃ c, o.heap p = some c ∧ get c = some q

/-- `w` holds values where `o` holds objects; `f` are the values of the objects. -/
structure Same (f : Ptr → Option A) (o : World (N Ptr)) (w : World (N A)) : Prop where
  heap : ∀ p, w.heap p = (o.heap p).map (abs f)
  live : ∀ p q, Held o p q → f q ≠ none
  typed : ∀ p q, Held o p q → ∃ a, p = .dyn a
  addr : w.env.addr = o.env.addr
  junk : ∀ k, w.env.junk k = abs (fun _ => none) (o.env.junk k)
  nAlloc : w.nAlloc = o.nAlloc
  nCmp : w.nCmp = o.nCmp
  sp : w.sp = o.sp

/-- `m` does what `n` does, and does not touch the elements. -/
def NSim (m : M (World (N Ptr)) α) (n : M (World (N A)) α) (Q : α → Prop) : Prop :=
  ∀ f o w, Same f o w → ∀ r w', Runs n w r w' → ∃ o', Runs m o r o' ∧ Same f o' w' ∧ Q r ∧
    (∀ p q, Held o' p q ↔ Held o p q) ∧ o'.err = o.err ∧ Still w w'

variable {m m' : M (World (N Ptr)) α} {n n' : M (World (N A)) α} {Q Q' : α → Prop}

theorem NSim.weaken (h : NSim m n Q) (hq : ∀ r, Q r → Q' r) : NSim m n Q' := by
  intro f o w hS r w' hr
  obtain ⟨o', h1, h2, h3, h4⟩ := h f o w hS r w' hr
  exact ⟨o', h1, h2, hq _ h3, h4⟩

theorem NSim.pure {r : α} (hq : Q r) : NSim (pure r : M (World (N Ptr)) α) (pure r : M (World (N A)) α) Q := by
  intro f o w hS r w' hr
  cases hr
  exact ⟨o, rfl, hS, hq, fun _ _ => .rfl, rfl, .refl _⟩

theorem NSim.fault {e : Fault} : NSim (fault e : M (World (N Ptr)) α) (fault e : M (World (N A)) α) Q := by
  intro f o w hS r w' hr; cases hr

theorem NSim.bind {k : α → M (World (N Ptr)) β} {l : α → M (World (N A)) β} {R : β → Prop} (h1 : NSim m n Q)
    (h2 : ∀ r, Q r → NSim (k r) (l r) R) : NSim (m >>= k) (n >>= l) R := by
  intro f o w hS r w' hr
  obtain ⟨a, w1, k1, k2⟩ := runs_steps hr
  obtain ⟨o1, a1, a2, a3, a4, a5, a6⟩ := h1 f o w hS a w1 k1
  obtain ⟨o2, b1, b2, b3, b4, b5, b6⟩ := h2 a a3 f o1 w1 a2 r w' k2
  exact ⟨o2, VO.runs_bind_iff.2 ⟨_, _, a1, b1⟩, b2, b3, fun p q => (b4 p q).trans (a4 p q), b5.trans a5, a6.trans b6⟩

theorem NSim.ite {c : Prop} {i j : Decidable c} (h1 : c → NSim m n Q) (h2 : ¬ c → NSim m' n' Q) :
    NSim (@_root_.ite _ c i m m') (@_root_.ite _ c j n n') Q := by
  by_cases h : c
  · rw [if_pos h, if_pos h]; exact h1 h
  · rw [if_neg h, if_neg h]; exact h2 h

theorem NSim.assertM (b : Bool) : NSim (assertM b : M (World (N Ptr)) Unit) (assertM b : M (World (N A)) Unit) fun _ => True := by
  cases b
  · exact .fault
  · exact .pure trivial

omit [Cell N] in
theorem runs_rd {N : Type} {w w' : World N} {p : Ptr} {r : N} : Runs (rd p) w r w' ↔ p ≠ .null ∧ w.heap p = some r ∧ w' = w := by
  unfold Runs rd
  by_cases hs : p = .null
  · rw [if_pos hs]
    exact ⟨fun h => by (cases h), fun h => (h.1 hs).elim⟩
  · rw [if_neg hs]
    rcases h : w.heap p with _ | c
    · exact ⟨fun h => by (cases h), fun h => by (cases h.2.1)⟩
    · constructor
      · intro h; cases h; exact ⟨hs, rfl, rfl⟩
      · rintro ⟨-, h2, h3⟩; cases h2; rw [h3]

omit [Cell N] in
theorem runs_modCell {N : Type} {w w' : World N} {p : Ptr} {f : N → N} {r : Unit} : Runs (modCell p f) w r w' ↔
    p ≠ .null ∧ ∃ c, w.heap p = some c ∧ w' = w.setHeap (upd w.heap p (some (f c))) := by
  unfold Runs modCell
  by_cases hs : p = .null
  · rw [if_pos hs]
    exact ⟨fun h => by (cases h), fun h => (h.1 hs).elim⟩
  · rw [if_neg hs]
    rcases h : w.heap p with _ | c
    · exact ⟨fun h => by (cases h), fun ⟨_, _, h, _⟩ => by (cases h)⟩
    · constructor
      · intro h; cases h; exact ⟨hs, c, rfl, rfl⟩
      · rintro ⟨-, c', h2, h3⟩; cases h2; rw [h3]

omit [Cell N] in
theorem runs_freeCell {N : Type} {w w' : World N} {p : Ptr} {ok : N → Except Fault Unit} {r : Unit} :
    Runs (freeCell p ok) w r w' ↔ p = .null ∧ w' = w ∨
      ∃ a c, p = .dyn a ∧ w.heap p = some c ∧ ok c = .ok () ∧ w' = w.setHeap (upd w.heap p none) := by
  unfold Runs freeCell
  cases p with
  | null =>
    constructor
    · intro h; cases h; exact .inl ⟨rfl, rfl⟩
    · rintro (⟨-, rfl⟩ | ⟨d, b, h, -⟩)
      · rfl
      · cases h
  | stk k =>
    constructor
    · intro h; cases h
    · rintro (⟨h, -⟩ | ⟨d, b, h, -⟩) <;> cases h
  | dyn d =>
    simp only
    rcases h : w.heap (.dyn d) with _ | c
    · constructor
      · intro h; cases h
      · rintro (⟨h, -⟩ | ⟨d, b, -, h, -⟩) <;> cases h
    · rcases e : ok c with _ | _
      · simp only [e]
        constructor
        · intro h; cases h
        · rintro (⟨h, -⟩ | ⟨d, b, -, h, h', -⟩)
          · cases h
          · cases h; rw [e] at h'; cases h'
      · simp only [e]
        constructor
        · intro h; cases h; exact .inr ⟨d, c, rfl, rfl, e, rfl⟩
        · rintro (⟨h, -⟩ | ⟨d', b, h1, h2, h3, h4⟩)
          · cases h
          · cases h1; rw [h4]

omit [Cell N] in
theorem runs_dropObj {N : Type} {w w' : World N} {p : Ptr} {r : Unit} :
    Runs (dropObj p) w r w' ↔ w.heap p ≠ none ∧ w' = w.setHeap (upd w.heap p none) := by
  unfold Runs dropObj
  rcases h : w.heap p with _ | c
  · exact ⟨fun h => by (cases h), fun h => (h.1 rfl).elim⟩
  · constructor
    · intro h; cases h; exact ⟨by simp, rfl⟩
    · rintro ⟨-, h2⟩; rw [h2]

theorem Same.some {f : Ptr → Option A} {o : World (N Ptr)} {w : World (N A)} (h : Same f o w) {p : Ptr} {c : N A}
    (hc : w.heap p = some c) : ∃ c', o.heap p = some c' ∧ c = abs f c' := by
  rw [h.heap] at hc
  obtain ⟨c', h1, h2⟩ := Option.map_eq_some_iff.1 hc
  exact ⟨c', h1, h2.symm⟩

theorem Same.none {f : Ptr → Option A} {o : World (N Ptr)} {w : World (N A)} (h : Same f o w) (p : Ptr) :
    w.heap p = none ↔ o.heap p = none := by
  rw [h.heap]; cases o.heap p <;> simp

/-- Reading a node. -/
theorem NSim.rd {p : Ptr} {k : N Ptr → M (World (N Ptr)) α} {l : N A → M (World (N A)) α}
    (h : ∀ f c, NSim (k c) (l (abs f c)) Q) : NSim (rd p >>= k) (rd p >>= l) Q := by
  intro f o w hS r w' hr
  obtain ⟨c, w1, h1, h2⟩ := runs_steps hr
  obtain ⟨h3, h4, rfl⟩ := runs_rd.1 h1
  obtain ⟨c', h5, rfl⟩ := hS.some h4
  obtain ⟨o', h6⟩ := h f c' f o _ hS r w' h2
  exact ⟨o', VO.runs_bind_iff.2 ⟨_, _, runs_rd.2 ⟨h3, h5, rfl⟩, h6.1⟩, h6.2⟩

theorem held_upd {o o' : World (N Ptr)} {p : Ptr} {d : Option (N Ptr)} (ho : o'.heap = upd o.heap p d)
    (h : (o.heap p).bind get = d.bind get) (x q : Ptr) : Held o' x q ↔ Held o x q := by
  unfold Held
  rw [ho, upd_apply]
  split
  · rename_i e; subst e
    constructor
    · rintro ⟨c, h1, h2⟩
      rw [h1] at h
      simp only [Option.bind_some, h2] at h
      obtain ⟨c', h3, h4⟩ := Option.bind_eq_some_iff.1 h
      exact ⟨c', h3, h4⟩
    · rintro ⟨c, h1, h2⟩
      rw [h1] at h
      simp only [Option.bind_some, h2] at h
      obtain ⟨c', h3, h4⟩ := Option.bind_eq_some_iff.1 h.symm
      exact ⟨c', h3, h4⟩
  · rfl

/-- A change of one node that leaves the elements alone. -/
theorem Same.upd {f : Ptr → Option A} {o o' : World (N Ptr)} {w w' : World (N A)} (h : Same f o w) {p : Ptr} {d : Option (N Ptr)}
    (ho : o'.heap = upd o.heap p d) (hw : w'.heap = upd w.heap p (d.map (abs f)))
    (hd : (o.heap p).bind get = d.bind get) (e1 : o'.env = o.env) (e2 : w'.env = w.env) (e3 : w'.nAlloc = o'.nAlloc)
    (e4 : w'.nCmp = o'.nCmp) (e5 : w'.sp = o'.sp) : Same f o' w' := by
  have hh := held_upd ho hd
  refine ⟨?_, fun p q hq => h.live p q ((hh p q).1 hq), fun p q hq => h.typed p q ((hh p q).1 hq), by rw [e1, e2]; exact h.addr,
    by rw [e1, e2]; exact h.junk, e3, e4, e5⟩
  intro x
  rw [ho, hw, upd_apply, upd_apply]
  split
  · rfl
  · exact h.heap x

theorem NSim.modCell {p : Ptr} {g : N Ptr → N Ptr} {g' : N A → N A} (hg : ∀ c, get (g c) = get c)
    (ha : ∀ f c, g' (abs f c) = abs f (g c)) : NSim (modCell p g) (modCell p g') fun _ => True := by
  intro f o w hS r w' hr
  obtain ⟨h1, c, h2, rfl⟩ := runs_modCell.1 hr
  obtain ⟨c', h3, rfl⟩ := hS.some h2
  have hd : (o.heap p).bind get = (some (g c')).bind get := by rw [h3]; simp [hg]
  exact ⟨_, runs_modCell.2 ⟨h1, c', h3, rfl⟩, hS.upd rfl (by simp [ha]) hd rfl rfl hS.nAlloc hS.nCmp hS.sp, trivial,
    held_upd rfl hd, rfl, .upd h2 _⟩

theorem NSim.newObj {mk : Ptr → N Ptr} {mk' : Ptr → N A} (hm : ∀ p, get (mk p) = none) (ha : ∀ f p, mk' p = abs f (mk p)) :
    NSim (newObj mk) (newObj mk') fun r => ∃ k, r = .stk k := by
  intro f o w hS r w' hr
  cases hr
  have hd : (o.heap (.stk o.sp)).bind get = (some (mk (.stk o.sp))).bind get := by
    simp only [Option.bind_some, hm]
    rcases e : (o.heap (.stk o.sp)).bind get with _ | q
    · rfl
    · obtain ⟨c, h1, h2⟩ := Option.bind_eq_some_iff.1 e
      obtain ⟨a, ha⟩ := hS.typed _ _ ⟨c, h1, h2⟩
      cases ha
  refine ⟨{ o with sp := o.sp + 1, heap := Nestl.upd o.heap (.stk o.sp) (some (mk (.stk o.sp))) }, by rw [hS.sp]; rfl,
    hS.upd rfl ?_ hd rfl rfl hS.nAlloc hS.nCmp (by simp [hS.sp]), ⟨_, rfl⟩, held_upd rfl hd, rfl, ?_⟩
  · simp only [hS.sp, Option.map_some, ha f]
  · exact ⟨rfl, rfl, rfl, rfl, fun a h => by simpa [Nestl.upd] using h⟩

theorem NSim.dropObj (k : Nat) : NSim (dropObj (.stk k) : M (World (N Ptr)) Unit) (dropObj (.stk k) : M (World (N A)) Unit) fun _ => True := by
  intro f o w hS r w' hr
  obtain ⟨h1, rfl⟩ := runs_dropObj.1 hr
  have hd : (o.heap (.stk k)).bind get = (none : Option (N Ptr)).bind get := by
    rcases e : (o.heap (.stk k)).bind get with _ | q
    · rfl
    · obtain ⟨c, h1, h2⟩ := Option.bind_eq_some_iff.1 e
      obtain ⟨a, ha⟩ := hS.typed _ _ ⟨c, h1, h2⟩
      cases ha
  obtain ⟨c, hc⟩ := Option.ne_none_iff_exists'.1 h1
  exact ⟨_, runs_dropObj.2 ⟨fun e => h1 ((hS.none _).2 e), rfl⟩, hS.upd rfl rfl hd rfl rfl hS.nAlloc hS.nCmp hS.sp, trivial,
    held_upd rfl hd, rfl, .upd hc _⟩

/-- Releasing a node. -/
theorem NSim.freeCell {p : Ptr} {ok : N Ptr → Except Fault Unit} {ok' : N A → Except Fault Unit}
    (h : ∀ f c, (∀ q, get c = some q → f q ≠ none) → ok' (abs f c) = .ok () → ok c = .ok () ∧ get c = none) :
    NSim (freeCell p ok) (freeCell p ok') fun _ => True := by
  intro f o w hS r w' hr
  rcases runs_freeCell.1 hr with ⟨rfl, rfl⟩ | ⟨a, c, rfl, h2, h3, rfl⟩
  · exact ⟨o, runs_freeCell.2 (.inl ⟨rfl, rfl⟩), hS, trivial, fun _ _ => .rfl, rfl, .refl _⟩
  · obtain ⟨c', h4, rfl⟩ := hS.some h2
    obtain ⟨h5, h6⟩ := h f c' (fun q hq => hS.live _ q ⟨c', h4, hq⟩) h3
    have hd : (o.heap (.dyn a)).bind get = (none : Option (N Ptr)).bind get := by rw [h4]; simp [h6]
    exact ⟨_, runs_freeCell.2 (.inr ⟨a, c', rfl, h4, h5, rfl⟩), hS.upd rfl rfl hd rfl rfl hS.nAlloc hS.nCmp hS.sp, trivial,
      held_upd rfl hd, rfl, .upd h2 _⟩

theorem NSim.admissible (m : M (World (N Ptr)) α) (Q : α → Prop) :
    admissible (fun n : M (World (N A)) α => NSim m n Q) := by
  have h1 : ∀ w : World (N A), Lean.Order.admissible (fun r : Option (Except Fault (α × World (N A))) =>
      ∀ f o, Same f o w → ∀ a w', r = some (.ok (a, w')) → ∃ o', Runs m o a o' ∧ Same f o' w' ∧ Q a ∧
        (∀ p q, Held o' p q ↔ Held o p q) ∧ o'.err = o.err ∧ Still w w') :=
    fun w => admissible_flatOrder _ (by intro f o hS a w' h; cases h)
  have h2 := admissible_pi_apply _ h1
  intro c hc hQ
  have := h2 c hc (fun x hx w f o hS a w' hr => hQ x hx f o w hS a w' hr)
  exact fun f o w hS r w' hr => this w f o hS r w' hr

theorem NSim.admissible1 {B : Type} (m : B → M (World (N Ptr)) α) (Q : B → α → Prop) :
    Lean.Order.admissible (fun n : B → M (World (N A)) α => ∀ b, NSim (m b) (n b) (Q b)) :=
  admissible_pi_apply _ fun b => NSim.admissible (m b) (Q b)

end Nestl.NO
