import Verif.ListOf.Step
set_option autoImplicit false
/-
Lemmas for the theorems about lists of objects: the invariant holds in all reachable states.
-/
namespace Nestl.LO
open Nestl.VO (Elem ElemOps)
open Nestl.NO
open Nestl.LL (LNode Lst Sg)
variable {S A X : Type} {E : Elem S A X} {s s' : ST S} {σ : Sg Ptr} {c : Call S} {c' : LC.Call A} {r : LC.Res}

theorem NInv.view_live (h : NInv E s σ) {t : Ptr} {ls : Lst Ptr} (ht : σ t = some ls) : ∀ x ∈ LC.view ls.els, E.val s.i x.2 ≠ none := by
  intro y hy
  obtain ⟨e, he, rfl⟩ := List.mem_map.1 hy
  exact h.live _ _ _ ht he

theorem seqs_some {i : S} {t : Ptr} {ls : Lst Ptr} (h : σ t = some ls) : seqs E i σ t = some (ls.alloc, lv (E.val i) (LC.view ls.els)) := by
  simp [seqs, LC.abs, LO.lift, h, lv_view]

theorem seqs_none {i : S} {t : Ptr} (h : σ t = none) : seqs E i σ t = none := by
  simp [seqs, LC.abs, LO.lift, h]

theorem NInv.values (h : NInv E s σ) {t : Ptr} {ls : Lst Ptr} (ht : σ t = some ls) {L : List (Ptr × A)} :
    Values E s t L ↔ L = lv (E.val s.i) (LC.view ls.els) := by
  have hm := lv_map (h.view_live ht)
  constructor
  · rintro ⟨qs, h1, h2⟩
    obtain rfl := (LC.contents_iff h.outer ht).1 h1
    rw [← hm] at h2
    refine ((List.map_inj_right ?_).1 h2).symm
    rintro ⟨_, _⟩ ⟨_, _⟩ e
    simpa using e
  · rintro rfl
    exact ⟨_, (LC.contents_iff h.outer ht).2 rfl, hm.symm⟩

theorem NInv.shows (h : NInv E s σ) {B : LC.AState A} : Shows E s B ↔ B = seqs E s.i σ := by
  constructor
  · rintro ⟨h1, h2⟩
    funext v
    cases hx : σ v with
    | none =>
      rw [seqs_none hx]
      apply Classical.byContradiction; intro hn
      obtain ⟨x, hx'⟩ := (LC.alive_iff h.outer).1 ((h1 v).2 hn)
      rw [hx] at hx'; cases hx'
    | some x =>
      obtain ⟨⟨al, L⟩, hB⟩ := Option.ne_none_iff_exists'.1 ((h1 v).1 ((LC.alive_iff h.outer).2 ⟨x, hx⟩))
      obtain ⟨h3, h4⟩ := h2 v al L hB
      rw [hB, (h.values hx).1 h4, (LC.hasAlloc_iff h.outer hx).1 h3, seqs_some hx]
  · rintro rfl
    constructor
    · intro v
      rw [LC.alive_iff h.outer]
      cases hx : σ v with
      | none => rw [seqs_none hx]; simp
      | some x => rw [seqs_some hx]; simp
    · intro v al L hv
      cases hx : σ v with
      | none => rw [seqs_none hx] at hv; cases hv
      | some x =>
        rw [seqs_some hx] at hv
        cases hv
        exact ⟨(LC.hasAlloc_iff h.outer hx).2 rfl, (h.values hx).2 rfl⟩

theorem NInv.ready (h : NInv E s σ) : NInv E (ready s) σ := ⟨h.outer.ready, h.own, h.inv, h.live, h.uniq⟩

/-- Every call has a meaning. -/
theorem Call.Means.exists {f : Ptr → Option A} (h1 : ∀ q, c.copies q → f q ≠ none) (h2 : ∀ q, c.moves q → f q ≠ none)
    (h3 : ∀ f, c.compares f → ∃ lt, Compares E f lt) : ∃ c', c.Means E f c' := by
  have ha : ∀ a : CArg, (∀ q, a.uses q → f q ≠ none) → ∃ x, a.Means E.blank f x := by
    intro a h
    cases a with
    | obj t => obtain ⟨x, hx⟩ := Option.ne_none_iff_exists'.1 (h t rfl); exact ⟨x, hx⟩
    | fresh => exact ⟨E.blank, rfl⟩
  have hl : ∀ ts : List Ptr, (∀ q ∈ ts, f q ≠ none) → ∃ xs : List A, ts.map f = xs.map some := by
    intro ts
    induction ts with
    | nil => intro _; exact ⟨[], rfl⟩
    | cons t ts ih =>
      intro h
      obtain ⟨xs, hx⟩ := ih fun q hq => h q (by simp [hq])
      obtain ⟨x, hx'⟩ := Option.ne_none_iff_exists'.1 (h t (by simp))
      exact ⟨x :: xs, by simp [hx, hx']⟩
  have hmv : ∀ t, c.moves t → ∃ x, f t = some x := fun t ht => Option.ne_none_iff_exists'.1 (h2 t ht)
  cases c with
  | create a => exact ⟨_, rfl⟩
  | insert s pos a => obtain ⟨x, hx⟩ := ha a h1; exact ⟨_, x, hx, rfl⟩
  | insertMove s pos t => obtain ⟨x, hx⟩ := hmv t rfl; exact ⟨_, x, hx, rfl⟩
  | insertN s pos n a => obtain ⟨x, hx⟩ := ha a h1; exact ⟨_, x, hx, rfl⟩
  | insertRange s pos ts => obtain ⟨x, hx⟩ := hl ts h1; exact ⟨_, x, hx, rfl⟩
  | erase s pos => exact ⟨_, rfl⟩
  | eraseRange s f l => exact ⟨_, rfl⟩
  | pushBack s a => obtain ⟨x, hx⟩ := ha a h1; exact ⟨_, x, hx, rfl⟩
  | pushBackMove s t => obtain ⟨x, hx⟩ := hmv t rfl; exact ⟨_, x, hx, rfl⟩
  | pushFront s a => obtain ⟨x, hx⟩ := ha a h1; exact ⟨_, x, hx, rfl⟩
  | pushFrontMove s t => obtain ⟨x, hx⟩ := hmv t rfl; exact ⟨_, x, hx, rfl⟩
  | popBack s => exact ⟨_, rfl⟩
  | popFront s => exact ⟨_, rfl⟩
  | clear s => exact ⟨_, rfl⟩
  | assignN s n a => obtain ⟨x, hx⟩ := ha a h1; exact ⟨_, x, hx, rfl⟩
  | assignObjs s ts => obtain ⟨x, hx⟩ := hl ts h1; exact ⟨_, x, hx, rfl⟩
  | assignRange s t f l => exact ⟨_, rfl⟩
  | copy d s => exact ⟨_, rfl⟩
  | move s => exact ⟨_, rfl⟩
  | moveAssign s t => exact ⟨_, rfl⟩
  | swap s t => exact ⟨_, rfl⟩
  | merge less s t => obtain ⟨lt, hlt⟩ := h3 less rfl; exact ⟨_, lt, hlt, rfl⟩
  | spliceAll s pos t => exact ⟨_, rfl⟩
  | spliceOne s pos t it => exact ⟨_, rfl⟩
  | spliceRange s pos t f l => exact ⟨_, rfl⟩
  | sort less s => obtain ⟨lt, hlt⟩ := h3 less rfl; exact ⟨_, lt, hlt, rfl⟩
  | destroy s => exact ⟨_, rfl⟩

theorem Valid.means (hv : Valid E s c) : ∃ c', c.Means E (E.val s.i) c' :=
  Call.Means.exists hv.2.1 (fun q hq => (hv.2.2.1 q hq).1) hv.2.2.2

theorem NInv.out (h : NInv E s σ) {q : Ptr} (hq : ¬ IsElem s q) : (outside E s).1 q = E.val s.i q := by
  unfold outside
  simp only
  rw [if_neg (fun hn => hq (h.isElem.2 hn))]

theorem NInv.out_elem (h : NInv E s σ) {q : Ptr} (hq : IsElem s q) : (outside E s).1 q = none := by
  unfold outside
  simp only
  rw [if_pos (h.isElem.1 hq)]

/-- The effect of a valid call in a reachable state. -/
theorem NInv.call (h : NInv E s σ) (hv : Valid E s c) (hm : c.Means E (E.val s.i) c') :
    ∃ r s' σ', Runs (exec E.toElemOps c) (LO.ready s) r s' ∧ NInv E s' σ' ∧ Effect E (outside E s) c s' ∧
      LC.Spec (seqs E s.i σ) c' r s'.o.err.isSome (seqs E s'.i σ') := by
  have hva : LC.Valid (LO.ready s).o c.addr := LC.valid_ready h.outer hv.1
  exact h.ready.step rfl hva hm fun q hq => h.out (hv.2.2.1 q hq).2

theorem Reach.inv (hr : Reach E s) : ∃ σ, NInv E s σ := by
  induction hr with
  | start hi =>
    refine ⟨fun _ => none, ⟨⟨⟨?_, ?_, ?_, ?_, ?_, ?_⟩, ?_⟩, ?_, hi, ?_, ?_⟩⟩
    · intro s v h; cases h
    · intro s v h; cases h
    · intro s v h; cases h
    · intro s v h; cases h
    · intro s t v u h; cases h
    · intro p h; exact (h rfl).elim
    · intro i h; exact (h rfl).elim
    · intro s v h; cases h
    · intro s v q h; cases h
    · intro t v j t' v' j' h; cases h
  | call _ hv hrun ih =>
    obtain ⟨σ, h⟩ := ih
    obtain ⟨c', hm⟩ := hv.means
    obtain ⟨r, s', σ', h1, h2, -⟩ := h.call hv hm
    obtain ⟨-, rfl⟩ := Runs.det hrun h1
    exact ⟨σ', h2⟩
  | client _ hi hl ih =>
    obtain ⟨σ, h⟩ := ih
    exact ⟨σ, h.outer, h.own, hi, fun t v q h1 h2 => hl q.v (h.isElem.2 (h.owned.2 ⟨t, v, q, h1, h2, rfl⟩)), h.uniq⟩

end Nestl.LO
