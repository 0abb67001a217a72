import Verif.ListOf.Demo
import Verif.LinkedList.Props2
set_option autoImplicit false
/-
C97: lists of objects of any class.  The element class is a parameter (`Elem`, Verif/VectorOf/Rel.lean); the calls and their
preconditions are in Verif/ListOf/Client.lean, their specification is `LC.Spec` (Verif/LinkedList/Client.lean).
-/
namespace Nestl.LO
open Nestl.VO (Elem ElemOps boxOps)
open Nestl.NO
open Nestl.LL (Sg)
variable {S A X : Type} {E : Elem S A X} {s s' : ST S} {σ : Sg Ptr} {c : Call S} {c' : LC.Call A} {r : LC.Res}

/-- C97: every call whose precondition holds terminates without undefined behaviour: the list uses the objects of its element
class only within their lifetime, constructs them only in raw storage, and destroys each of them exactly once. -/
theorem listOf_calls_safe (hr : Reach E s) (hv : Valid E s c) : ∃ r s', Runs (exec E.toElemOps c) (ready s) r s' ∧ Reach E s' := by
  obtain ⟨σ, h⟩ := hr.inv
  obtain ⟨c', hm⟩ := hv.means
  obtain ⟨r, s', σ', h1, -⟩ := h.call hv hm
  exact ⟨r, s', h1, .call hr hv h1⟩

/-- Copying an element of the list into the list, sorting, copying the list. -/
example : Reach Elem.box Demo.s4 ∧ IsElem Demo.s4 (.stk 2) ∧ Valid Elem.box Demo.s4 (.pushFront Demo.v (.obj (.stk 2))) ∧
    Reach Elem.box Demo.s6 ∧ Valid Elem.box Demo.s6 (.sort Demo.boxLess Demo.v) ∧ Valid Elem.box Demo.s6 (.copy Demo.u Demo.v) :=
  ⟨Demo.r4, Demo.isElem4, Demo.v4, Demo.r6, Demo.v6, Demo.v6'⟩

/-- C97: in every reachable state each list has a sequence of values. -/
theorem listOf_shows (hr : Reach E s) : ∃ B, Shows E s B ∧ ∀ B', Shows E s B' → B' = B := by
  obtain ⟨σ, h⟩ := hr.inv
  exact ⟨_, h.shows.2 rfl, fun B' hB => h.shows.1 hB⟩

example : Reach Elem.box Demo.s5 ∧ Values Elem.box Demo.s5 Demo.v [(.dyn 2, 7), (.dyn 1, 8), (.dyn 0, 7)] := ⟨Demo.r5, Demo.vals5⟩

/-- C97: on the values of the elements, calls do what the specification of lists of values says, whatever fails. -/
theorem listOf_calls_refine (hr : Reach E s) (hv : Valid E s c) (hrun : Runs (exec E.toElemOps c) (ready s) r s')
    (hm : c.Means E (E.val s.i) c') {B : LC.AState A} (hB : Shows E s B) :
    ∃ B', Shows E s' B' ∧ LC.Spec B c' r s'.o.err.isSome B' := by
  obtain ⟨σ, h⟩ := hr.inv
  obtain ⟨r1, s1, σ', h1, h2, -, h3⟩ := h.call hv hm
  obtain ⟨rfl, rfl⟩ := Runs.det hrun h1
  obtain rfl := h.shows.1 hB
  exact ⟨_, h2.shows.2 rfl, h3⟩

/-- A call that fails: the boxes refuse to be copied, and the list stays as it is; and a call that compares boxes. -/
example : Reach Elem.box Demo.s5 ∧ Valid Elem.box Demo.s5 (.pushBack Demo.v (.obj (.stk 0))) ∧
    (∃ r, Runs (exec boxOps (.pushBack Demo.v (.obj (.stk 0)))) (ready Demo.s5) r Demo.s6) ∧
    Call.Means Elem.box Demo.s5.i.box (.pushBack Demo.v (.obj (.stk 0))) (.pushBack Demo.v 7) ∧ Demo.s6.o.err.isSome = true ∧
    Values Elem.box Demo.s6 Demo.v [(.dyn 2, 7), (.dyn 1, 8), (.dyn 0, 7)] ∧
    (∃ r, Runs (exec boxOps (.sort Demo.boxLess Demo.v)) (ready Demo.s6) r Demo.s7) ∧
    Call.Means Elem.box Demo.s6.i.box (.sort Demo.boxLess Demo.v) (.sort (fun x y => x < y) Demo.v) :=
  ⟨Demo.r5, Demo.v5, Demo.run5, ⟨7, show Demo.s5.i.box (.stk 0) = some 7 by decide +kernel, rfl⟩, by decide +kernel, Demo.vals6, Demo.run6, ⟨_, Demo.boxLess_ok, rfl⟩⟩

theorem isSome_of_err {s : ST S} (h : ¬ NoErr s) : s.o.err.isSome = true := by
  unfold NoErr at h
  cases e : s.o.err with
  | none => exact (h e).elim
  | some x => rfl

/-- C97: outside of the lists nothing happens: the objects of the client still exist and have the values they had, except that
an object that was moved into a list without an error is empty now; and no object is left behind. -/
theorem listOf_calls_outside (hr : Reach E s) (hv : Valid E s c) (hrun : Runs (exec E.toElemOps c) (ready s) r s') :
    E.rest s'.i = E.rest s.i ∧
      (∀ q, ¬ IsElem s' q ∧ E.val s'.i q ≠ none ↔ ¬ IsElem s q ∧ E.val s.i q ≠ none) ∧
      ∀ q x y, ¬ IsElem s q → E.val s.i q = some x → E.val s'.i q = some y → c.After E.blank s'.o.err.isSome q x y := by
  obtain ⟨σ, h⟩ := hr.inv
  obtain ⟨c', hm⟩ := hv.means
  obtain ⟨r1, s1, σ', h1, h2, h3, -⟩ := h.call hv hm
  obtain ⟨rfl, rfl⟩ := Runs.det hrun h1
  have hfree : ∀ {s : ST S} {σ : Sg Ptr}, NInv E s σ → ∀ q, ¬ IsElem s q ∧ E.val s.i q ≠ none ↔ (outside E s).1 q ≠ none := by
    intro s σ h q
    by_cases hq : IsElem s q
    · rw [h.out_elem hq]; simp [hq]
    · rw [h.out hq]; simp [hq]
  have main : ∀ t, (outside E s').2 = (outside E s).2 → (∀ q, q ≠ t → (outside E s').1 q = (outside E s).1 q) →
      ((outside E s').1 t ≠ none ↔ (outside E s).1 t ≠ none) →
      (∀ x y, (outside E s).1 t = some x → (outside E s').1 t = some y → c.After E.blank s'.o.err.isSome t x y) →
      (∀ q x, q ≠ t → c.After E.blank s'.o.err.isSome q x x) →
    E.rest s'.i = E.rest s.i ∧
      (∀ q, ¬ IsElem s' q ∧ E.val s'.i q ≠ none ↔ ¬ IsElem s q ∧ E.val s.i q ≠ none) ∧
      ∀ q x y, ¬ IsElem s q → E.val s.i q = some x → E.val s'.i q = some y → c.After E.blank s'.o.err.isSome q x y := by
    intro t k1 k2 k3 k4 k5
    have k6 : ∀ q, ¬ IsElem s' q ∧ E.val s'.i q ≠ none ↔ ¬ IsElem s q ∧ E.val s.i q ≠ none := by
      intro q
      rw [hfree h q, hfree h2 q]
      by_cases e : q = t
      · rw [e]; exact k3
      · rw [k2 q e]
    refine ⟨k1, k6, ?_⟩
    intro q x y a1 a2 a3
    have a4 : (outside E s).1 q = some x := (h.out a1).trans a2
    have a5 : ¬ IsElem s' q := ((k6 q).2 ⟨a1, by rw [a2]; simp⟩).1
    have a6 : (outside E s').1 q = some y := (h2.out a5).trans a3
    by_cases e : q = t
    · subst e; exact k4 x y a4 a6
    · rw [k2 q e, a4] at a6
      cases a6
      exact k5 q x e
  have keep : Keep E (outside E s) s' → (∀ q x, c.After E.blank s'.o.err.isSome q x x) →
    E.rest s'.i = E.rest s.i ∧
      (∀ q, ¬ IsElem s' q ∧ E.val s'.i q ≠ none ↔ ¬ IsElem s q ∧ E.val s.i q ≠ none) ∧
      ∀ q x y, ¬ IsElem s q → E.val s.i q = some x → E.val s'.i q = some y → c.After E.blank s'.o.err.isSome q x y := by
    intro hk hc
    have hk : outside E s' = outside E s := hk
    refine main .null (by rw [hk]) (fun _ _ => by rw [hk]) (by rw [hk]) ?_ (fun q x _ => hc q x)
    intro x y a1 a2
    rw [hk, a1] at a2
    cases a2
    exact hc _ _
  have move : ∀ t, (∀ q, c.moves q ↔ q = t) → Tried (Keep E (outside E s)) (fun s' => Keep E (movedOut E (outside E s) t) s' ∧ NoErr s') s' →
    E.rest s'.i = E.rest s.i ∧
      (∀ q, ¬ IsElem s' q ∧ E.val s'.i q ≠ none ↔ ¬ IsElem s q ∧ E.val s.i q ≠ none) ∧
      ∀ q x y, ¬ IsElem s q → E.val s.i q = some x → E.val s'.i q = some y → c.After E.blank s'.o.err.isSome q x y := by
    intro t ht h3
    rcases h3 with ⟨h3, h4⟩ | ⟨h3, h4⟩
    · refine keep h3 fun q x => ⟨?_, fun _ => rfl⟩
      rintro ⟨-, h5⟩
      rw [isSome_of_err h4] at h5
      cases h5
    · have h4 : s'.o.err = none := h4
      have hk : outside E s' = movedOut E (outside E s) t := h3
      have hvt := hv.2.2.1 t ((ht t).2 rfl)
      have htn := (hfree h t).1 ⟨hvt.2, hvt.1⟩
      refine main t (by rw [hk]; rfl) (fun q hq => ?_) ?_ ?_ ?_
      · rw [hk]; exact upd_other _ _ hq
      · rw [hk]; simp [movedOut, htn]
      · intro x y a1 a2
        rw [hk] at a2
        simp only [movedOut, upd_same, Option.some.injEq] at a2
        exact ⟨fun _ => a2.symm, fun hn => (hn ⟨(ht t).2 rfl, by rw [h4]; rfl⟩).elim⟩
      · intro q x hq
        exact ⟨fun hn => (hq ((ht q).1 hn.1)).elim, fun _ => rfl⟩
  cases c with
  | insertMove l pos t => exact move t (fun _ => .rfl) h3
  | pushBackMove l t => exact move t (fun _ => .rfl) h3
  | pushFrontMove l t => exact move t (fun _ => .rfl) h3
  | _ => exact keep h3 fun _ _ => ⟨fun hn => hn.1.elim, fun _ => rfl⟩

/-- The box with the value 8 is moved into a list. -/
example : Reach Elem.box Demo.s3 ∧ Valid Elem.box Demo.s3 (.pushFrontMove Demo.v (.stk 1)) ∧
    (∃ r, Runs (exec boxOps (.pushFrontMove Demo.v (.stk 1))) (ready Demo.s3) r Demo.s4) ∧ ¬ IsElem Demo.s3 (.stk 1) ∧
    Demo.s3.i.box (.stk 1) = some 8 ∧ Demo.s4.i.box (.stk 1) = some 0 ∧ Demo.s4.i.box (.stk 0) = some 7 :=
  ⟨Demo.r3, Demo.v3, Demo.run3, Demo.notElem Demo.r3 (by decide +kernel), by decide +kernel, by decide +kernel,
    by decide +kernel⟩

/-- C97: the elements of the lists are live objects, and no two elements are the same object. -/
theorem listOf_elements (hr : Reach E s) {t t' p p' q : Ptr} {qs qs' : List (Ptr × Ptr)} (ha : LC.Alive s.o t)
    (ha' : LC.Alive s.o t') (hv : Objs s t qs) (hv' : Objs s t' qs') (hq : (p, q) ∈ qs) :
    E.val s.i q ≠ none ∧ ((p', q) ∈ qs' → t' = t ∧ p' = p) ∧ (qs.map Prod.snd).Nodup := by
  obtain ⟨σ, h⟩ := hr.inv
  obtain ⟨x, hx⟩ := (LC.alive_iff h.outer).1 ha
  obtain ⟨x', hx'⟩ := (LC.alive_iff h.outer).1 ha'
  obtain rfl := (LC.contents_iff h.outer hx).1 hv
  obtain rfl := (LC.contents_iff h.outer hx').1 hv'
  obtain ⟨e, he, he'⟩ := List.mem_map.1 hq
  cases he'
  refine ⟨h.live _ _ _ hx he, fun hq' => ?_, ?_⟩
  · obtain ⟨e', he2, he3⟩ := List.mem_map.1 hq'
    simp only [Prod.mk.injEq] at he3
    obtain ⟨rfl, he3⟩ := he3
    have hp := h.uniq _ _ _ _ _ _ hx' hx he2 he he3
    refine ⟨Classical.byContradiction fun hne => ?_, hp⟩
    exact h.outer.st.disj _ _ _ _ hx' hx hne _ (LL.mem_ptrs.2 ⟨e', he2, rfl⟩) (LL.mem_ptrs.2 ⟨e, he, hp.symm⟩)
  · have hn := h.outer.st.nodup _ _ hx
    rw [LC.view_snd]
    rw [LL.ptrs, List.Nodup, List.pairwise_map] at hn
    rw [List.Nodup, List.pairwise_map]
    exact hn.imp_of_mem fun ha hb hne e => hne (h.uniq _ _ _ _ _ _ hx hx ha hb e)

example : Reach Elem.box Demo.s5 ∧ LC.Alive Demo.s5.o Demo.v ∧ LC.Alive Demo.s5.o Demo.u ∧
    Objs Demo.s5 Demo.v [(.dyn 2, .stk 4), (.dyn 1, .stk 3), (.dyn 0, .stk 2)] ∧ Objs Demo.s5 Demo.u [] :=
  ⟨Demo.r5, Demo.alive (by decide +kernel), Demo.alive (by decide +kernel), Demo.o5, Demo.o5u⟩

/-- C97: when all lists have been destroyed, no element is left and no node. -/
theorem listOf_all_destroyed (hr : Reach E s) (hd : ∀ t, ¬ LC.Alive s.o t) : (∀ p, s.o.heap p = none) ∧ ∀ q, ¬ IsElem s q := by
  obtain ⟨σ, h⟩ := hr.inv
  refine ⟨?_, fun q hq => ?_⟩
  · intro p
    refine Classical.byContradiction fun h0 => ?_
    rcases h.outer.st.cover p (by rw [Ne, LL.dat_none]; exact h0) with h1 | ⟨t, ls, h1, _⟩
    · exact hd _ ((LC.alive_iff h.outer).2 (Option.ne_none_iff_exists'.1 h1))
    · exact hd _ ((LC.alive_iff h.outer).2 ⟨ls, h1⟩)
  · obtain ⟨v, qs, p, h1, -⟩ := hq
    exact hd _ h1

example : Reach Elem.box Demo.s10 ∧ ∀ t, ¬ LC.Alive Demo.s10.o t := ⟨Demo.r10, Demo.gone10⟩

/-- C97: between the calls the client may change elements in place (through references and iterators); the lists then have
the new values. -/
theorem listOf_client (hr : Reach E s) {i : S} (hi : E.inv i) (hl : ∀ q, IsElem s q → E.val i q ≠ none) :
    Reach E ⟨s.o, i⟩ ∧ ∀ t qs, Objs s t qs → Objs (⟨s.o, i⟩ : ST S) t qs :=
  ⟨.client hr hi hl, fun _ _ h => h⟩

/-- The value of an element is changed. -/
example : Reach Elem.box Demo.s5 ∧ IsElem Demo.s5 (.stk 3) ∧
    Elem.box.inv { Demo.s5.i with box := upd Demo.s5.i.box (.stk 3) (some 1) } ∧
    ∀ q, IsElem Demo.s5 q → Elem.box.val { Demo.s5.i with box := upd Demo.s5.i.box (.stk 3) (some 1) } q ≠ none :=
  ⟨Demo.r5, Demo.isElem5, Demo.set Demo.r5 Demo.isElem5 1⟩

/-- The element at position `p` of some list is the object `q`. -/
theorem NInv.at (h : NInv E s σ) {p q : Ptr} : (∃ t qs, LC.Alive s.o t ∧ Objs s t qs ∧ (p, q) ∈ qs) ↔ Held s.o p q := by
  rw [h.held]
  constructor
  · rintro ⟨t, qs, h1, h2, h3⟩
    obtain ⟨x, hx⟩ := (LC.alive_iff h.outer).1 h1
    obtain rfl := (LC.contents_iff h.outer hx).1 h2
    obtain ⟨e, he, he'⟩ := List.mem_map.1 h3
    cases he'
    exact ⟨t, x, e, hx, he, rfl, rfl⟩
  · rintro ⟨t, x, e, hx, he, rfl, rfl⟩
    exact ⟨t, _, (LC.alive_iff h.outer).2 ⟨_, hx⟩, (LC.contents_iff h.outer hx).2 rfl, List.mem_map_of_mem he⟩

/-- Moving, exchanging, merging and splicing lists. -/
def Call.relinks : Call S → Prop
  | .move _ | .swap _ _ | .merge _ _ _ | .spliceAll _ _ _ | .spliceOne _ _ _ _ | .spliceRange _ _ _ _ _ => True
  | _ => False

theorem q_relinks {P : ST S → Prop} (hP : Calm E P) {f : Ptr → Option A} (hm : c.Means E f c') (hc : c.relinks) :
    QSim E P (exec E.toElemOps c) (LC.exec c') fun _ => P := by
  have hS := hP.stable
  have hq : ∀ {β γ : Type} {m : M (ST S) β} {n : M (LL.W A) β} (r : β → γ), QSim E P m n (fun _ => P) →
      QSim E P (m >>= fun x => pure (r x)) (n >>= fun x => pure (r x)) fun _ => P :=
    fun r h => .bind h fun _ => .pure _ fun _ h => h
  cases c with
  | move s => obtain rfl := hm; exact hq _ ((n_moveCtor s).quiet' hS)
  | swap s t => obtain rfl := hm; exact hq _ ((n_swap s t).quiet' hS)
  | merge less s t =>
    obtain ⟨lt, hc, rfl⟩ := hm
    exact hq _ (q_merge hc hP s t)
  | spliceAll s pos t => obtain rfl := hm; exact hq _ ((n_spliceAll pos t).quiet' hS)
  | spliceOne s pos t it => obtain rfl := hm; exact hq _ ((n_spliceOne pos it).quiet' hS)
  | spliceRange s pos t f l => obtain rfl := hm; exact hq _ ((n_spliceRange pos f l).quiet' hS)
  | _ => exact hc.elim

/-- C97: move construction, `swap`, `merge` and `splice` neither copy nor move elements: the elements of the lists are the
objects they were, at the positions where they were, though possibly in another list, and the value of every object is what it was.
References and iterators to elements stay valid. -/
theorem listOf_relinks (hr : Reach E s) (hv : Valid E s c) (hc : c.relinks) (hrun : Runs (exec E.toElemOps c) (ready s) r s') :
    (∀ p q, (∃ t qs, LC.Alive s'.o t ∧ Objs s' t qs ∧ (p, q) ∈ qs) ↔ ∃ t qs, LC.Alive s.o t ∧ Objs s t qs ∧ (p, q) ∈ qs) ∧
      E.val s'.i = E.val s.i ∧ E.rest s'.i = E.rest s.i ∧ s'.o.err = none := by
  obtain ⟨σ, h⟩ := hr.inv
  obtain ⟨c', hm⟩ := hv.means
  have hva : LC.Valid (LO.ready s).o c.addr := LC.valid_ready h.outer hv.1
  obtain ⟨r1, s1, σ', h1, h2, -⟩ := h.call hv hm
  obtain ⟨rfl, rfl⟩ := Runs.det hrun h1
  obtain ⟨hi, ho⟩ := h.ready.lift
  obtain ⟨r2, w2, k1, -⟩ := (LC.exec_sim hi ho rfl (valid_lift h.ready hva hm hi)).runs
  obtain ⟨s2, k2, -, k3, -⟩ := q_relinks (Frozen.calm (E := E) (s₀ := ready s)) hm hc (ready s) (absW E (ready s)) h.ready.rel
    ⟨fun _ _ => .rfl, rfl, rfl, rfl⟩ _ _ k1
  obtain ⟨rfl, rfl⟩ := Runs.det k2 hrun
  exact ⟨fun p q => h2.at.trans ((k3.1 p q).trans h.at.symm), k3.2.2.1, k3.2.2.2, k3.2.1⟩

/-- The elements of one list become those of another one. -/
example : Reach Elem.box Demo.s7 ∧ Valid Elem.box Demo.s7 (.merge Demo.boxLess Demo.u Demo.v) ∧
    Call.relinks (.merge Demo.boxLess Demo.u Demo.v) ∧ Reach Elem.box Demo.s5 ∧ Valid Elem.box Demo.s5 (.swap Demo.u Demo.v) ∧
    Objs Demo.s5 Demo.v [(.dyn 2, .stk 4), (.dyn 1, .stk 3), (.dyn 0, .stk 2)] :=
  ⟨Demo.r7, Demo.v7, trivial, Demo.r5, Demo.v5', Demo.o5⟩

/-- C97: `operator==` compares the elements with the comparison of their class: it holds iff the lists are equally long and
corresponding elements are equal, and it changes nothing. -/
theorem listOf_equal (hr : Reach E s) {eqv : Ptr → Ptr → M S Bool} {eq : A → A → Bool} (hc : Compares E eqv eq) {t t' : Ptr}
    {L L' : List (Ptr × A)} (ha : LC.Alive s.o t) (ha' : LC.Alive s.o t') (hL : Values E s t L) (hL' : Values E s t' L') :
    ∃ b s', Runs (equal eqv t t') s b s' ∧ (b = true ↔ L.length = L'.length ∧ ∀ z ∈ L.zip L', eq z.1.2 z.2.2 = true) ∧
      E.val s'.i = E.val s.i ∧ E.rest s'.i = E.rest s.i ∧ (∀ B, Shows E s' B ↔ Shows E s B) ∧
      ∀ p q, (∃ t qs, LC.Alive s'.o t ∧ Objs s' t qs ∧ (p, q) ∈ qs) ↔ ∃ t qs, LC.Alive s.o t ∧ Objs s t qs ∧ (p, q) ∈ qs := by
  obtain ⟨σ, h⟩ := hr.inv
  obtain ⟨ls, hs⟩ := (LC.alive_iff h.outer).1 ha
  obtain ⟨ls', hs'⟩ := (LC.alive_iff h.outer).1 ha'
  obtain rfl := (h.values hs).1 hL
  obtain rfl := (h.values hs').1 hL'
  obtain ⟨hi, ho⟩ := h.lift
  have hl : LO.lift (E.val s.i) σ t = some ⟨ls.alloc, ls.els.filterMap (liftE (E.val s.i))⟩ := by simp [LO.lift, hs]
  have hl' : LO.lift (E.val s.i) σ t' = some ⟨ls'.alloc, ls'.els.filterMap (liftE (E.val s.i))⟩ := by simp [LO.lift, hs']
  obtain ⟨b, w', h1, rfl, rfl⟩ := (LL.wp_equal eq hi hl hl' (Q := fun r w' => r = _ ∧ w' = _) ⟨rfl, rfl⟩).runs
  obtain ⟨s', k1, k2, k3, -⟩ := q_equal hc (Frozen.calm (E := E) (s₀ := s)) t t' s (absW E s) h.rel ⟨fun _ _ => .rfl, rfl, rfl, rfl⟩ _ _ h1
  obtain ⟨σ', k4, k5⟩ := NInv.of_rel k2 hi ho
  have hsq : seqs E s'.i σ' = seqs E s.i σ := by unfold seqs; rw [k5]
  refine ⟨_, s', k1, ?_, k3.2.2.1, k3.2.2.2, fun B => by rw [k4.shows, h.shows, hsq], fun p q => k4.at.trans ((k3.1 p q).trans h.at.symm)⟩
  rw [LC.allEq_iff, ← LC.view_snd, ← LC.view_snd, List.zip_map, List.length_map, List.length_map, lv_view, lv_view]
  refine and_congr_right fun _ => ⟨fun h z hz => h _ (List.mem_map_of_mem hz), ?_⟩
  intro h z hz
  obtain ⟨y, hy, rfl⟩ := List.mem_map.1 hz
  exact h y hy

example : Reach Elem.box Demo.s5 ∧ Compares Elem.box Demo.boxEq (fun x y => x == y) ∧ LC.Alive Demo.s5.o Demo.v ∧
    LC.Alive Demo.s5.o Demo.u ∧ Values Elem.box Demo.s5 Demo.v [(.dyn 2, 7), (.dyn 1, 8), (.dyn 0, 7)] ∧
    Values Elem.box Demo.s5 Demo.u [] :=
  ⟨Demo.r5, Demo.boxEq_ok, Demo.alive (by decide +kernel), Demo.alive (by decide +kernel), Demo.vals5, Demo.values Demo.o5u rfl⟩

end Nestl.LO
