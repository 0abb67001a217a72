import Verif.TreeOf.Demo
import Verif.RBTree.CompareOps
import Verif.Multi.Steps
import Verif.Full.Query
set_option autoImplicit false
/-
C98: trees (sets and multisets) of objects of any class.  The element class is a parameter (`Elem`, Verif/VectorOf/Rel.lean); the
calls, their preconditions and their specification `Spec` are in Verif/TreeOf/Client.lean.
-/
namespace Nestl.TO
open Nestl.VO (Elem ElemOps boxOps)
open Nestl.NO
open Nestl.RB (TNode T Tree WSorted Sorted LCut UCut ECut Cut WCut)
open Nestl.Set (Alive Contents contents_iff posOf posOf_eq put Equiv)
open Nestl.Full (FCall UsesAlloc)
variable {S A X : Type} {E : Elem S A X} {s s' : ST S} {c : Call S A} {c' : FCall A} {r : Res}

/-- C98: every call whose precondition holds terminates without undefined behaviour: the tree uses the objects of its element
class only within their lifetime, constructs them only in raw storage, and destroys each of them exactly once. -/
theorem treeOf_calls_safe (hr : Reach E s) (hv : Valid E s c) : ∃ r s', Runs (exec E.toElemOps c) (ready s) r s' ∧ Reach E s' := by
  obtain ⟨c', hm⟩ := hv.means
  obtain ⟨B, hB, -⟩ := hr.inv.shows
  obtain ⟨r, s', B', h1, -⟩ := hr.inv.call hB hv hm
  exact ⟨r, s', h1, .call hr hv h1⟩

/-- Copying an element of one tree into another tree, erasing an element, copying a tree. -/
example : Reach Elem.box Demo.s4 ∧ IsElem Demo.s4 (.stk 2) ∧ Valid Elem.box Demo.s4 (.insert Demo.ord .upper Demo.u (.obj (.stk 2))) ∧
    Reach Elem.box Demo.s5 ∧ Valid Elem.box Demo.s5 (.eraseAt Demo.v (.dyn 1)) ∧ Valid Elem.box Demo.s5 (.copy false Demo.u Demo.v) :=
  ⟨Demo.r4, Demo.isElem4, Demo.v4, Demo.r5, Demo.v5e, Demo.v5''⟩

/-- C98: in every reachable state each tree has a sequence of values. -/
theorem treeOf_shows (hr : Reach E s) : ∃ B, Shows E s B ∧ ∀ B', Shows E s B' → B' = B := hr.inv.shows

example : Reach Elem.box Demo.s5 ∧ Values Elem.box Demo.s5 Demo.v [(.dyn 0, 7), (.dyn 1, 8)] ∧
    Values Elem.box Demo.s5 Demo.u [(.dyn 2, 7)] := ⟨Demo.r5, Demo.vals5, Demo.vals5u⟩

/-- C98: on the values of the elements, calls do what the specification of trees of values says, whatever fails. -/
theorem treeOf_calls_refine (hr : Reach E s) (hv : Valid E s c) (hrun : Runs (exec E.toElemOps c) (ready s) r s')
    (hm : c.Means E.blank (E.val s.i) c') {B : AState A} (hB : Shows E s B) :
    ∃ B', Shows E s' B' ∧ Spec c.lt B c' r s'.o.err.isSome B' := by
  obtain ⟨r1, s1, B', h1, -, -, h2, h3⟩ := hr.inv.call hB hv hm
  obtain ⟨rfl, rfl⟩ := Runs.det hrun h1
  exact ⟨B', h2, h3⟩

/-- A call that fails: the boxes refuse to be copied, and the tree stays as it is; and an element that is inserted into its own
tree. -/
example : Reach Elem.box Demo.s5 ∧ Valid Elem.box Demo.s5 (.insert Demo.ord .upper Demo.u (.obj (.stk 0))) ∧
    Runs (exec boxOps (.insert Demo.ord .upper Demo.u (.obj (.stk 0)))) (ready Demo.s5) (.pos Demo.u) Demo.s6 ∧
    Call.Means Elem.box.blank Demo.s5.i.box (.insert Demo.ord .upper Demo.u (.obj (.stk 0))) (.multi (.equal .upper Demo.u 7)) ∧
    Demo.s6.o.err.isSome = true ∧ Values Elem.box Demo.s6 Demo.u [(.dyn 2, 7)] ∧
    Valid Elem.box Demo.s3 (.insert Demo.ord .plain Demo.v (.obj (.stk 2))) ∧ IsElem Demo.s3 (.stk 2) ∧
    Runs (exec boxOps (.insert Demo.ord .plain Demo.v (.obj (.stk 2)))) (ready Demo.s3) (.ins (.dyn 0) false)
      (Demo.go boxOps (.insert Demo.ord .plain Demo.v (.obj (.stk 2))) Demo.s3) :=
  ⟨Demo.r5, Demo.v5, Demo.run5, ⟨7, show Demo.s5.i.box (.stk 0) = some 7 by decide +kernel, rfl⟩, by decide +kernel, Demo.vals6u,
    Demo.v3', ⟨Demo.v, _, .dyn 0, Demo.alive (by decide +kernel), Demo.o3, by simp⟩, Demo.run3'⟩

theorem isSome_of_err {s : ST S} (h : ¬ NoErr s) : s.o.err.isSome = true := by
  unfold NoErr at h
  cases e : s.o.err with
  | none => exact (h e).elim
  | some x => rfl

/-- C98: outside of the trees nothing happens: the objects of the client still exist and have the values they had, except that
an object from which an element was built is empty now; and no object is left behind. -/
theorem treeOf_calls_outside (hr : Reach E s) (hv : Valid E s c) (hrun : Runs (exec E.toElemOps c) (ready s) r s') :
    E.rest s'.i = E.rest s.i ∧
      (∀ q, ¬ IsElem s' q ∧ E.val s'.i q ≠ none ↔ ¬ IsElem s q ∧ E.val s.i q ≠ none) ∧
      ∀ q x y, ¬ IsElem s q → E.val s.i q = some x → E.val s'.i q = some y → c.After E.blank r s'.o.err.isSome q x y := by
  have h := hr.inv
  obtain ⟨c', hm⟩ := hv.means
  obtain ⟨B, hB, -⟩ := h.shows
  obtain ⟨r1, s1, B', h1, h2, h3, -⟩ := h.call hB hv hm
  obtain ⟨rfl, rfl⟩ := Runs.det hrun h1
  have hfree : ∀ {s : ST S}, NInv E s → ∀ q, ¬ IsElem s q ∧ E.val s.i q ≠ none ↔ (outside E s).1 q ≠ none := by
    intro s h q
    by_cases hq : IsElem s q
    · rw [h.out_elem hq]; simp [hq]
    · rw [h.out hq]; simp [hq]
  have main : ∀ t, (outside E s').2 = (outside E s).2 → (∀ q, q ≠ t → (outside E s').1 q = (outside E s).1 q) →
      ((outside E s').1 t ≠ none ↔ (outside E s).1 t ≠ none) →
      (∀ x y, (outside E s).1 t = some x → (outside E s').1 t = some y → c.After E.blank r s'.o.err.isSome t x y) →
      (∀ q x, q ≠ t → c.After E.blank r s'.o.err.isSome q x x) →
    E.rest s'.i = E.rest s.i ∧
      (∀ q, ¬ IsElem s' q ∧ E.val s'.i q ≠ none ↔ ¬ IsElem s q ∧ E.val s.i q ≠ none) ∧
      ∀ q x y, ¬ IsElem s q → E.val s.i q = some x → E.val s'.i q = some y → c.After E.blank r s'.o.err.isSome q x y := by
    intro t k1 k2 k3 k4 k5
    have k6 : ∀ q, ¬ IsElem s' q ∧ E.val s'.i q ≠ none ↔ ¬ IsElem s q ∧ E.val s.i q ≠ none := by
      intro q
      rw [hfree h q, hfree h2 q]
      by_cases e : q = t
      · rw [e]; exact k3
      · rw [k2 q e]
    refine ⟨k1, k6, ?_⟩
    intro q x y a1 a2 a3
    have a4 : (outside E s).1 q = some x := (h.out a1).trans a2
    have a5 : ¬ IsElem s' q := ((k6 q).2 ⟨a1, by rw [a2]; simp⟩).1
    have a6 : (outside E s').1 q = some y := (h2.out a5).trans a3
    by_cases e : q = t
    · subst e; exact k4 x y a4 a6
    · rw [k2 q e, a4] at a6
      cases a6
      exact k5 q x e
  have keep : Keep E (outside E s) s' → (∀ q x, c.After E.blank r s'.o.err.isSome q x x) →
    E.rest s'.i = E.rest s.i ∧
      (∀ q, ¬ IsElem s' q ∧ E.val s'.i q ≠ none ↔ ¬ IsElem s q ∧ E.val s.i q ≠ none) ∧
      ∀ q x y, ¬ IsElem s q → E.val s.i q = some x → E.val s'.i q = some y → c.After E.blank r s'.o.err.isSome q x y := by
    intro hk hc
    have hk : outside E s' = outside E s := hk
    refine main .null (by rw [hk]) (fun _ _ => by rw [hk]) (by rw [hk]) ?_ (fun q x _ => hc q x)
    intro x y a1 a2
    rw [hk, a1] at a2
    cases a2
    exact hc _ _
  have move : ∀ t, (∀ q, c.moves q ↔ q = t) → ¬ c.kept r → Tried (Keep E (outside E s)) (Keep E (movedOut E (outside E s) t)) s' →
    E.rest s'.i = E.rest s.i ∧
      (∀ q, ¬ IsElem s' q ∧ E.val s'.i q ≠ none ↔ ¬ IsElem s q ∧ E.val s.i q ≠ none) ∧
      ∀ q x y, ¬ IsElem s q → E.val s.i q = some x → E.val s'.i q = some y → c.After E.blank r s'.o.err.isSome q x y := by
    intro t ht hkept h3
    rcases h3 with ⟨h3, h4⟩ | ⟨h3, h4⟩
    · refine keep h3 fun q x => ⟨?_, fun _ => rfl⟩
      rintro ⟨-, h5, -⟩
      rw [isSome_of_err h4] at h5
      cases h5
    · have h4 : s'.o.err = none := h4
      have hk : outside E s' = movedOut E (outside E s) t := h3
      have hvt := hv.2.2.2.1 t ((ht t).2 rfl)
      have htn := (hfree h t).1 ⟨hvt.2, hvt.1⟩
      refine main t (by rw [hk]; rfl) (fun q hq => ?_) ?_ ?_ ?_
      · rw [hk]; exact upd_other _ _ hq
      · rw [hk]; simp [movedOut, htn]
      · intro x y a1 a2
        rw [hk] at a2
        simp only [movedOut, upd_same, Option.some.injEq] at a2
        exact ⟨fun _ => a2.symm, fun hn => (hn ⟨(ht t).2 rfl, by rw [h4]; rfl, hkept⟩).elim⟩
      · intro q x hq
        exact ⟨fun hn => (hq ((ht q).1 hn.1)).elim, fun _ => rfl⟩
  have none_moves : (∀ q, ¬ c.moves q) → Keep E (outside E s) s' → _ := fun hn hk => keep hk fun q _ => ⟨fun h => (hn q h.1).elim, fun _ => rfl⟩
  cases c with
  | insert ord hw l a =>
    cases a with
    | mov t =>
      by_cases hk : (Call.insert ord hw l (.mov t)).kept r
      · have h4 : Keep E (outside E s) s' := by
          cases hw with
          | plain =>
            cases r with
            | ins p b =>
              cases b with
              | false => exact h3
              | true => exact hk.elim
            | _ => exact hk.elim
          | _ => exact hk.elim
        exact keep h4 fun _ _ => ⟨fun hn => (hn.2.2 hk).elim, fun _ => rfl⟩
      · refine move t (fun _ => .rfl) hk ?_
        cases hw with
        | plain =>
          cases r with
          | ins p b =>
            cases b with
            | false => exact (hk trivial).elim
            | true => exact h3
          | _ => exact h3
        | _ => exact h3
    | _ => exact none_moves (fun _ h => h) h3
  | _ => exact none_moves (fun _ h => h) h3

/-- The box with the value 8 is moved into a tree. -/
example : Reach Elem.box Demo.s3 ∧ Valid Elem.box Demo.s3 (.insert Demo.ord .plain Demo.v (.mov (.stk 1))) ∧
    Runs (exec boxOps (.insert Demo.ord .plain Demo.v (.mov (.stk 1)))) (ready Demo.s3) (.ins (.dyn 1) true) Demo.s4 ∧
    ¬ IsElem Demo.s3 (.stk 1) ∧ Demo.s3.i.box (.stk 1) = some 8 ∧ Demo.s4.i.box (.stk 1) = some 0 ∧ Demo.s4.i.box (.stk 0) = some 7 :=
  ⟨Demo.r3, Demo.v3, Demo.run3, Demo.notElem Demo.r3 (by decide +kernel), by decide +kernel, by decide +kernel, by decide +kernel⟩

/-- C98: the elements of the trees are live objects, and no two elements are the same object. -/
theorem treeOf_elements (hr : Reach E s) {t t' p p' q : Ptr} {qs qs' : List (Ptr × Ptr)} (ha : Alive s.o t)
    (ha' : Alive s.o t') (hv : Objs s t qs) (hv' : Objs s t' qs') (hq : (p, q) ∈ qs) :
    E.val s.i q ≠ none ∧ ((p', q) ∈ qs' → t' = t ∧ p' = p) ∧ (qs.map Prod.snd).Nodup := by
  have h := hr.inv
  obtain ⟨i, a, v, rfl, -, ht, -⟩ := h.outer.tree ha
  obtain ⟨i', a', v', rfl, -, ht', -⟩ := h.outer.tree ha'
  obtain rfl := (contents_iff ht).1 hv
  obtain rfl := (contents_iff ht').1 hv'
  refine ⟨h.live p q (rep_held ht.rep _ hq), fun hq' => ?_, ?_⟩
  · have hp := h.uniq p' p q (rep_held ht'.rep _ hq') (rep_held ht.rep _ hq)
    refine ⟨Classical.byContradiction fun hne => ?_, hp⟩
    exact h.outer.disj ht' ht (fun e => hne (by rw [e])) p' (List.mem_map.2 ⟨_, hq', rfl⟩) (List.mem_map.2 ⟨_, hq, hp.symm⟩)
  · have hn := ht.ok.nodup
    rw [RB.T.ptrs, List.Nodup, List.pairwise_map] at hn
    rw [List.Nodup, List.pairwise_map]
    refine hn.imp_of_mem fun {a b} ha hb hne e => hne (h.uniq _ _ b.2 ?_ (rep_held ht.rep _ hb))
    rw [← e]
    exact rep_held ht.rep _ ha

example : Reach Elem.box Demo.s5 ∧ Alive Demo.s5.o Demo.v ∧ Alive Demo.s5.o Demo.u ∧
    Objs Demo.s5 Demo.v [(.dyn 0, .stk 2), (.dyn 1, .stk 3)] ∧ Objs Demo.s5 Demo.u [(.dyn 2, .stk 4)] :=
  ⟨Demo.r5, Demo.alive (by decide +kernel), Demo.alive (by decide +kernel), Demo.o5, Demo.o5u⟩

/-- C98: when all trees have been destroyed, no element is left and no node. -/
theorem treeOf_all_destroyed (hr : Reach E s) (hd : ∀ t, ¬ Alive s.o t) : (∀ a, s.o.heap (.dyn a) = none) ∧ ∀ q, ¬ IsElem s q := by
  refine ⟨fun a => Classical.byContradiction fun h0 => ?_, fun q ⟨v, qs, p, h1, _⟩ => hd _ h1⟩
  obtain ⟨i, o, t, h1, -⟩ := hr.inv.outer.cover a h0
  exact hd _ ⟨i, rfl, h1.ne_none⟩

example : ∃ s, Reach Elem.box s ∧ ∀ t, ¬ Alive s.o t := Demo.gone

/-- C98: between the calls the client may change elements in place; the trees then have the new values. -/
theorem treeOf_client (hr : Reach E s) {i : S} (hi : E.inv i) (hl : ∀ q, IsElem s q → E.val i q ≠ none) :
    Reach E ⟨s.o, i⟩ ∧ ∀ t qs, Objs s t qs → Objs (⟨s.o, i⟩ : ST S) t qs :=
  ⟨.client hr hi hl, fun _ _ h => h⟩

/-- The value of an element is changed. -/
example : Reach Elem.box Demo.s5 ∧ IsElem Demo.s5 (.stk 3) ∧
    Elem.box.inv { Demo.s5.i with box := upd Demo.s5.i.box (.stk 3) (some 1) } ∧
    ∀ q, IsElem Demo.s5 q → Elem.box.val { Demo.s5.i with box := upd Demo.s5.i.box (.stk 3) (some 1) } q ≠ none :=
  ⟨Demo.r5, Demo.isElem5, Demo.set Demo.r5 Demo.isElem5 1⟩

/-- C98: move construction and `swap` neither copy nor move elements: the elements of the trees are the objects they were, at the
positions where they were, though in another tree, and the value of every object is what it was.  References and iterators to elements
stay valid. -/
theorem treeOf_relinks (hr : Reach E s) (hv : Valid E s c) (hc : (∃ t, c = .move t) ∨ ∃ b t t', c = .swap b t t')
    (hrun : Runs (exec E.toElemOps c) (ready s) r s') :
    (∀ p q, (∃ t qs, Alive s'.o t ∧ Objs s' t qs ∧ (p, q) ∈ qs) ↔ ∃ t qs, Alive s.o t ∧ Objs s t qs ∧ (p, q) ∈ qs) ∧
      E.val s'.i = E.val s.i ∧ E.rest s'.i = E.rest s.i ∧ s'.o.err = none := by
  have h := hr.inv
  obtain ⟨c', hm⟩ := hv.means
  obtain ⟨B, hB, -⟩ := h.shows
  obtain ⟨r1, s1, B', h1, h2, -⟩ := h.call hB hv hm
  obtain ⟨rfl, rfl⟩ := Runs.det hrun h1
  have hS := (Frozen.calm (E := E) (s₀ := ready s)).stable
  have hq : QSim E (Frozen E (ready s)) (exec E.toElemOps c) (vexec c.lt c') fun _ => Frozen E (ready s) := by
    rcases hc with ⟨t, rfl⟩ | ⟨b, t, t', rfl⟩
    · obtain rfl := hm
      exact .bind ((n_moveCtor t).quiet' hS) fun _ => .pure _ fun _ h => h
    · obtain rfl := hm
      exact .bind ((n_swapTrees b t t').quiet' hS) fun _ => .pure _ fun _ h => h
  obtain ⟨r2, w2, k1, -⟩ := (vexec_spec h.ready.lift ((shows_iff h.ready.rel h.ready.outer).1 (h.shows_ready hB))
    (valid_lift h.ready.rel h.ready.outer (hv.1.ready h.outer) hv.2.1 hm) rfl).runs
  obtain ⟨s2, k2, -, k3, -⟩ := hq (ready s) (absW E (ready s)) h.ready.rel ⟨fun _ _ => .rfl, rfl, rfl, rfl⟩ _ _ k1
  obtain ⟨rfl, rfl⟩ := Runs.det k2 hrun
  exact ⟨fun p q => h2.at.trans ((k3.1 p q).trans h.at.symm), k3.2.2.1, k3.2.2.2, k3.2.1⟩

/-- The elements of two trees are exchanged. -/
example : Reach Elem.box Demo.s5 ∧ Valid Elem.box Demo.s5 (.swap false Demo.u Demo.v) ∧
    Objs Demo.s5 Demo.v [(.dyn 0, .stk 2), (.dyn 1, .stk 3)] ∧ Objs Demo.s5 Demo.u [(.dyn 2, .stk 4)] :=
  ⟨Demo.r5, Demo.v5', Demo.o5, Demo.o5u⟩

/-! ### Queries -/

/-- The tree of values that belongs to a tree of objects. -/
theorem NInv.valueTree (h : NInv E s) {t : Ptr} {L : List (Ptr × A)} (ha : Alive s.o t) (hL : Values E s t L) :
    ∃ a u, Tree (absW E s).heap t a u ∧ u.nodes = L := by
  obtain ⟨i, a, v, rfl, -, ht, -⟩ := h.outer.tree ha
  obtain ⟨qs, h1, h2⟩ := hL
  obtain rfl := (contents_iff ht).1 h1
  obtain ⟨u, h3, h4⟩ := rel_lift h.rel ht
  exact ⟨a, u, h4, pairs_inj (h3.nodes.symm.trans h2)⟩

section
variable {less : Ptr → Ptr → M S Bool} {lt : A → A → Bool} {t k : Ptr} {x : A} {L : List (Ptr × A)}

/-- C98: `lower_bound` returns the position of the first element that is not before the key. -/
theorem treeOf_lower_bound (hr : Reach E s) (hc : Compares E less lt) (hk : E.val s.i k = some x) (ha : Alive s.o t) (hL : Values E s t L) :
    ∃ p s', Runs (lowerBoundKey less t k) s p s' ∧
      (∃ Y Z, L = Y ++ Z ∧ p = posOf t Z ∧ (Ordered lt L → LCut lt x Y Z)) ∧ Unchanged E s s' := by
  obtain ⟨a, u, ht, rfl⟩ := hr.inv.valueTree ha hL
  refine hr.inv.query (q_lowerBoundKey hc Frozen.calm (fun s' h => (congrFun h.2.2.1 k).trans hk) t) ?_
  unfold RB.lowerBoundKey
  rw [wp_bind, wp_rd ht.cell ht.hdr_ne]
  refine RB.wp_lowerBound ht.rep ht.null_notMem fun n Y Z h1 _ _ h2 => ⟨⟨Y, Z, h1, (posOf_eq _ _).symm, fun h => h2 h.1 h.2⟩, n, rfl⟩

/-- C98: `upper_bound` returns the position of the first element that is behind the key. -/
theorem treeOf_upper_bound (hr : Reach E s) (hc : Compares E less lt) (hk : E.val s.i k = some x) (ha : Alive s.o t) (hL : Values E s t L) :
    ∃ p s', Runs (upperBoundKey less t k) s p s' ∧
      (∃ Y Z, L = Y ++ Z ∧ p = posOf t Z ∧ (Ordered lt L → UCut lt x Y Z)) ∧ Unchanged E s s' := by
  obtain ⟨a, u, ht, rfl⟩ := hr.inv.valueTree ha hL
  refine hr.inv.query (q_upperBoundKey hc Frozen.calm (fun s' h => (congrFun h.2.2.1 k).trans hk) t) ?_
  unfold RB.upperBoundKey
  rw [wp_bind, wp_rd ht.cell ht.hdr_ne]
  refine RB.wp_upperBound ht.rep ht.null_notMem fun n Y Z h1 _ _ h2 => ⟨⟨Y, Z, h1, (posOf_eq _ _).symm, fun h => h2 h.1 h.2⟩, n, rfl⟩

/-- C98: `equal_range` returns the range of the elements that are equivalent to the key. -/
theorem treeOf_equal_range (hr : Reach E s) (hc : Compares E less lt) (hk : E.val s.i k = some x) (ha : Alive s.o t) (hL : Values E s t L) :
    ∃ p s', Runs (equalRange less t k) s p s' ∧
      (∃ Y M Z, L = Y ++ (M ++ Z) ∧ p = (posOf t (M ++ Z), posOf t Z) ∧ (Ordered lt L → ECut lt x Y M Z)) ∧ Unchanged E s s' := by
  obtain ⟨a, u, ht, rfl⟩ := hr.inv.valueTree ha hL
  refine hr.inv.query (q_equalRange hc Frozen.calm (fun s' h => (congrFun h.2.2.1 k).trans hk) t) ?_
  refine RB.wp_equalRange ht fun n Y M Z h1 _ h2 => ⟨⟨Y, M, Z, h1, ?_, fun h => h2 h.1 h.2⟩, n, rfl⟩
  rw [posOf_eq, posOf_eq]

/-- C98: `count` returns the number of the elements that are equivalent to the key. -/
theorem treeOf_count (hr : Reach E s) (hc : Compares E less lt) (hk : E.val s.i k = some x) (ha : Alive s.o t) (hL : Values E s t L) :
    ∃ n s', Runs (count less t k) s n s' ∧
      (Ordered lt L → n = L.countP fun y => !lt y.2 x && !lt x y.2) ∧ Unchanged E s s' := by
  obtain ⟨a, u, ht, rfl⟩ := hr.inv.valueTree ha hL
  refine hr.inv.query (q_count hc Frozen.calm (fun s' h => (congrFun h.2.2.1 k).trans hk) t) ?_
  refine RB.wp_count ht fun n Y M Z _ h1 h2 => ⟨fun h => ?_, n, rfl⟩
  obtain ⟨h3, h4, h5⟩ := h2 h.1 h.2
  have e1 : (Y.countP fun y => !lt y.2 x && !lt x y.2) = 0 := List.countP_eq_zero.2 fun y hy => by simp [h3 y hy]
  have e2 : (M.countP fun y => !lt y.2 x && !lt x y.2) = M.length := List.countP_eq_length.2 fun y hy => by simp [h4 y hy]
  have e3 : (Z.countP fun y => !lt y.2 x && !lt x y.2) = 0 := List.countP_eq_zero.2 fun y hy => by simp [h5 y hy]
  rw [h1, List.countP_append, List.countP_append, e1, e2, e3]
  omega

example : Reach Elem.box Demo.s5 ∧ Compares Elem.box Demo.ord.less Demo.ord.lt ∧ Elem.box.val Demo.s5.i (.stk 3) = some 8 ∧
    Alive Demo.s5.o Demo.v ∧ Values Elem.box Demo.s5 Demo.v [(.dyn 0, 7), (.dyn 1, 8)] ∧ Ordered Demo.ord.lt [(.dyn 0, 7), (.dyn 1, 8)] :=
  ⟨Demo.r5, Demo.ord_ok, by decide +kernel, Demo.alive (by decide +kernel), Demo.vals5, Demo.ord_swo, by simp [WSorted, Demo.ord]⟩

/-- C98: `size` is the number of the elements. -/
theorem treeOf_size (hr : Reach E s) (ha : Alive s.o t) (hL : Values E s t L) :
    ∃ n s', Runs (onO (RB.size t)) s n s' ∧ n = L.length ∧ Unchanged E s s' := by
  obtain ⟨a, u, ht, rfl⟩ := hr.inv.valueTree ha hL
  refine hr.inv.query ((n_size (A := A) t).quiet' (Frozen.calm (E := E)).stable) ?_
  unfold RB.size
  rw [wp_bind, wp_rd ht.cell ht.hdr_ne]
  exact ⟨rfl, 0, rfl⟩

example : Reach Elem.box Demo.s5 ∧ Alive Demo.s5.o Demo.v ∧ Values Elem.box Demo.s5 Demo.v [(.dyn 0, 7), (.dyn 1, 8)] :=
  ⟨Demo.r5, Demo.alive (by decide +kernel), Demo.vals5⟩

/-- C98: `operator==` compares the elements with the comparison of their class: it holds iff the trees have equally many elements and
corresponding elements are equal, and it changes nothing. -/
theorem treeOf_equal (hr : Reach E s) {eqv : Ptr → Ptr → M S Bool} {eq : A → A → Bool} (hc : Compares E eqv eq) {t t' : Ptr}
    {L L' : List (Ptr × A)} (ha : Alive s.o t) (ha' : Alive s.o t') (hL : Values E s t L) (hL' : Values E s t' L') :
    ∃ b s', Runs (treeEq eqv t t') s b s' ∧ (b = true ↔ L.length = L'.length ∧ ∀ (i : Nat) x y, L[i]? = some x → L'[i]? = some y → eq x.2 y.2 = true) ∧ Unchanged E s s' := by
  obtain ⟨a, u, ht, rfl⟩ := hr.inv.valueTree ha hL
  obtain ⟨a', u', ht', rfl⟩ := hr.inv.valueTree ha' hL'
  refine hr.inv.query (q_treeEq hc Frozen.calm t t') (RB.wp_treeEq ht ht' ⟨?_, 0, rfl⟩)
  exact Full.isEqv_iff

/-- C98: `operator<` compares the trees lexicographically with the comparison of the element class, and it changes nothing. -/
theorem treeOf_less (hr : Reach E s) {lss : Ptr → Ptr → M S Bool} (hc : Compares E lss lt) {t t' : Ptr}
    {L L' : List (Ptr × A)} (ha : Alive s.o t) (ha' : Alive s.o t') (hL : Values E s t L) (hL' : Values E s t' L') :
    ∃ b s', Runs (treeLess lss t t') s b s' ∧ (b = true ↔ Alg.LexBefore lt (L.map Prod.snd) (L'.map Prod.snd)) ∧ Unchanged E s s' := by
  obtain ⟨a, u, ht, rfl⟩ := hr.inv.valueTree ha hL
  obtain ⟨a', u', ht', rfl⟩ := hr.inv.valueTree ha' hL'
  exact hr.inv.query (q_treeLess hc Frozen.calm t t') (RB.wp_treeLess ht ht' fun b hb => ⟨hb, 0, rfl⟩)

example : Reach Elem.box Demo.s5 ∧ Compares Elem.box LO.Demo.boxEq (fun x y => x == y) ∧ Compares Elem.box Demo.ord.less Demo.ord.lt ∧
    Alive Demo.s5.o Demo.v ∧ Alive Demo.s5.o Demo.u ∧ Values Elem.box Demo.s5 Demo.v [(.dyn 0, 7), (.dyn 1, 8)] ∧
    Values Elem.box Demo.s5 Demo.u [(.dyn 2, 7)] :=
  ⟨Demo.r5, LO.Demo.boxEq_ok, Demo.ord_ok, Demo.alive (by decide +kernel), Demo.alive (by decide +kernel), Demo.vals5, Demo.vals5u⟩

end

/-! ### Order -/

/-- Calls of sets: no element is inserted next to equivalent ones. -/
def Call.unique : Call S A → Prop
  | .insert _ .upper _ _ | .insert _ .lower _ _ | .insert _ (.hint _) _ _ => False
  | _ => True

section
variable {lt : A → A → Bool} {B B' : AState A} {failed : Bool}

/-- Properties of sequences that the calls preserve. -/
structure Kept (lt : A → A → Bool) (eq : Prop) (P : List (Ptr × A) → Prop) : Prop where
  nil : P []
  sub : ∀ {L L'}, L'.Sublist L → P L → P L'
  keys : ∀ {L L' : List (Ptr × A)}, L'.map Prod.snd = L.map Prod.snd → P L → P L'
  ins : ∀ {Y Z p k}, P (Y ++ Z) → Cut lt k Y Z → P (Y ++ (p, k) :: Z)
  dup : eq → ∀ {Y Z p k}, P (Y ++ Z) → WCut lt k Y Z → P (Y ++ (p, k) :: Z)
  weak : ∀ {L}, P L → WSorted lt L

theorem kept_weak (hs : SWO lt) : Kept lt True (WSorted lt) where
  nil := by simp [WSorted]
  sub h h' := List.Pairwise.sublist h h'
  keys h h' := by
    have key : ∀ L : List (Ptr × A), WSorted lt L ↔ (L.map Prod.snd).Pairwise (fun a b => lt b a = false) := by
      intro L; rw [WSorted, List.pairwise_map]
    rw [key, h, ← key]; exact h'
  ins h h' := _root_.Nestl.Multi.WSorted.insert h ⟨fun a ha => hs.asymm (h'.1 a ha), fun b hb => hs.asymm (h'.2 b hb)⟩
  dup _ _ _ _ _ h h' := _root_.Nestl.Multi.WSorted.insert h h'
  weak h := h

theorem kept_strict (hs : SWO lt) : Kept lt False (Sorted lt) where
  nil := by simp [Sorted]
  sub h h' := List.Pairwise.sublist h h'
  keys h h' := by
    have key : ∀ L : List (Ptr × A), Sorted lt L ↔ (L.map Prod.snd).Pairwise (fun a b => lt a b = true) := by
      intro L; rw [Sorted, List.pairwise_map]
    rw [key, h, ← key]; exact h'
  ins {Y Z p k} h h' := by
    simp only [Sorted, List.pairwise_append, List.pairwise_cons, List.mem_cons] at h ⊢
    refine ⟨h.1, ⟨fun b hb => h'.2 b hb, h.2.1⟩, ?_⟩
    rintro a ha b (rfl | hb)
    · exact h'.1 a ha
    · exact h.2.2 a ha b hb
  dup h := h.elim
  weak h := h.weak hs

/-- Every tree satisfies `P`. -/
def Each (P : List (Ptr × A) → Prop) (B : AState A) : Prop := ∀ t a L, B t = some (a, L) → P L

theorem Each.put {P : List (Ptr × A) → Prop} (h : Each P B) {t : Ptr} {a : Nat} {L : List (Ptr × A)} (hL : P L) : Each P (Set.put B t (some (a, L))) := by
  intro t' a' L' h'
  unfold Set.put at h'
  split at h'
  · cases h'; exact hL
  · exact h _ _ _ h'

theorem Each.drop {P : List (Ptr × A) → Prop} (h : Each P B) {t : Ptr} : Each P (Set.put B t none) := by
  intro t' a' L' h'
  unfold Set.put at h'
  split at h'
  · cases h'
  · exact h _ _ _ h'

theorem Each.added {P : List (Ptr × A) → Prop} {eq : Prop} (hP : Kept lt eq P) (hs : SWO lt) (h : Each P B) {t p : Ptr} {k : A}
    {place : List (Ptr × A) → List (Ptr × A) → Prop} (ha : Added lt B t k p place B')
    (hp : (∀ Y Z, place Y Z → Cut lt k Y Z) ∨ eq ∧ ∀ Y Z, place Y Z → WCut lt k Y Z) : Each P B' := by
  obtain ⟨o, Y, Z, h1, rfl, -, h2⟩ := ha
  have h3 := h _ _ _ h1
  have h4 := h2 ⟨hs, hP.weak h3⟩
  refine h.put ?_
  rcases hp with hp | ⟨he, hp⟩
  · exact hP.ins h3 (hp _ _ h4)
  · exact hP.dup he h3 (hp _ _ h4)

theorem kept_step {P : List (Ptr × A) → Prop} {eq : Prop} (hP : Kept lt eq P) (hs : SWO lt) (hl : ∀ ord, c.ord = some ord → ord.lt = lt)
    (hu : eq ∨ c.unique) {f : Ptr → Option A} {blank : A} (hm : c.Means blank f c') (h : Spec c.lt B c' r failed B') (hB : Each P B) :
    Each P B' := by
  have hcut : ∀ k Y Z, Cut lt k Y Z → Cut lt k Y Z := fun _ _ _ h => h
  cases c with
  | create a => obtain rfl := hm; obtain ⟨p, -, -, -, rfl⟩ := h; exact hB.put hP.nil
  | insert ord how v a =>
    obtain ⟨x, -, rfl⟩ := hm
    rw [show (Call.insert ord how v a).lt = lt from hl ord rfl] at h
    cases how with
    | plain =>
      rcases h with ⟨p, -, -, -, rfl⟩ | ⟨-, -, -, rfl⟩ | ⟨p, -, -, h⟩
      · exact hB
      · exact hB
      · exact hB.added hP hs h (.inl (hcut x))
    | upper =>
      rcases h with ⟨-, -, -, rfl⟩ | ⟨p, -, -, h⟩
      · exact hB
      · exact hB.added hP hs h (.inr ⟨hu.resolve_right fun h => h, fun Y Z (h : UCut lt x Y Z) => h.weak hs⟩)
    | lower =>
      rcases h with ⟨-, -, -, rfl⟩ | ⟨p, -, -, h⟩
      · exact hB
      · exact hB.added hP hs h (.inr ⟨hu.resolve_right fun h => h, fun Y Z (h : LCut lt x Y Z) => h.weak hs⟩)
    | hint pos =>
      rcases h with ⟨-, -, -, rfl⟩ | ⟨p, -, -, h⟩
      · exact hB
      · exact hB.added hP hs h (.inr ⟨hu.resolve_right fun h => h, fun Y Z ⟨_, _, _, _, h⟩ => h.1⟩)
    | _ =>
      rcases h with ⟨p, -, -, -, rfl⟩ | ⟨-, -, -, rfl⟩ | ⟨p, -, -, h⟩
      · exact hB
      · exact hB
      · exact hB.added hP hs h (.inl (hcut x))
  | eraseKey ord v t =>
    obtain ⟨x, -, rfl⟩ := hm
    obtain ⟨o, Y, M, Z, h1, -, -, rfl, -⟩ := h
    exact hB.put (hP.sub (List.Sublist.append (.refl _) (List.sublist_append_right _ _)) (hB _ _ _ h1))
  | eraseKeys ord v ts =>
    obtain ⟨xs, -, rfl⟩ := hm
    obtain ⟨o, L, L', h1, -, -, rfl, h2, -⟩ := h
    exact hB.put (hP.sub h2 (hB _ _ _ h1))
  | eraseAt v it =>
    obtain rfl := hm
    obtain ⟨o, Y, k, Z, h1, -, -, rfl⟩ := h
    exact hB.put (hP.sub (List.Sublist.append (.refl _) (List.sublist_cons_self _ _)) (hB _ _ _ h1))
  | eraseRange v f l =>
    obtain rfl := hm
    obtain ⟨o, Y, M, Z, h1, -, -, -, -, rfl⟩ := h
    exact hB.put (hP.sub (List.Sublist.append (.refl _) (List.sublist_append_right _ _)) (hB _ _ _ h1))
  | clear v => obtain rfl := hm; obtain ⟨o, L, -, -, -, rfl⟩ := h; exact hB.put hP.nil
  | find ord v t => obtain ⟨x, -, rfl⟩ := hm; obtain ⟨-, rfl, -⟩ := h; exact hB
  | copy prop d v =>
    obtain rfl := hm
    obtain ⟨-, ⟨-, -, -, rfl⟩ | ⟨o, o', L, L', L2, -, h1, h2, rfl, h3⟩⟩ := h
    · exact hB
    · refine hB.put ?_
      cases failed with
      | true => exact hP.keys (L := []) h3 hP.nil
      | false => exact hP.keys h3 (hB _ _ _ h2)
  | move v =>
    obtain rfl := hm
    obtain ⟨p, o, L, -, -, h1, -, rfl⟩ := h
    exact (hB.put (hB _ _ _ h1)).put hP.nil
  | swap prop v t =>
    obtain rfl := hm
    obtain ⟨h1, h2, -, -, rfl⟩ := h
    obtain ⟨⟨a, L⟩, h1⟩ := Option.ne_none_iff_exists'.1 h1
    obtain ⟨⟨b, M⟩, h2⟩ := Option.ne_none_iff_exists'.1 h2
    rw [h1, h2]
    exact (hB.put (hB _ _ _ h2)).put (hB _ _ _ h1)
  | assign prop d v =>
    obtain rfl := hm
    obtain ⟨o, o', L, L', h1, h2, -, ⟨-, -, -, rfl⟩ | ⟨-, -, rfl⟩⟩ := h
    · exact hB
    · exact (hB.put (hB _ _ _ h2)).put hP.nil
  | destroy v => obtain rfl := hm; obtain ⟨-, -, -, rfl⟩ := h; exact hB.drop

theorem values_unique {t : Ptr} {L L' : List (Ptr × A)} (hL : Values E s t L) (hL' : Values E s t L') : L = L' := by
  obtain ⟨qs, h1, h2⟩ := hL
  obtain ⟨qs', h3, h4⟩ := hL'
  obtain rfl := (Runs.det h1 h3).1
  exact pairs_inj (h2.symm.trans h4)

theorem NInv.each_step {P : List (Ptr × A) → Prop} {eq : Prop} (h : NInv E s) (hv : Valid E s c) (hrun : Runs (exec E.toElemOps c) (TO.ready s) r s')
    (hP : Kept lt eq P) (hs : SWO lt) (hl : ∀ ord, c.ord = some ord → ord.lt = lt) (hu : eq ∨ c.unique)
    (hord : ∀ t L, Alive s.o t → Values E s t L → P L) {t : Ptr} {L : List (Ptr × A)} (ha : Alive s'.o t) (hL : Values E s' t L) : P L := by
  obtain ⟨c', hm⟩ := hv.means
  obtain ⟨B, hB, -⟩ := h.shows
  obtain ⟨r1, s1, B', h1, h2, -, h3, h4⟩ := h.call hB hv hm
  obtain ⟨rfl, rfl⟩ := Runs.det hrun h1
  have hE : Each P B := fun t a L e => hord t L ((hB.1 t).2 (by rw [e]; simp)) (hB.2 _ _ _ e).2
  have hE' := kept_step hP hs hl hu hm h4 hE
  obtain ⟨⟨a, L'⟩, e⟩ := Option.ne_none_iff_exists'.1 ((h3.1 t).1 ha)
  obtain rfl := values_unique hL (h3.2 _ _ _ e).2
  exact hE' _ _ _ e

/-- C98: as long as all calls use one strict weak order, the elements of every tree are in that order. -/
theorem treeOf_ordered (hr : Reach E s) (hv : Valid E s c) (hrun : Runs (exec E.toElemOps c) (ready s) r s') (hs : SWO lt)
    (hl : ∀ ord, c.ord = some ord → ord.lt = lt)
    (hord : ∀ t L, Alive s.o t → Values E s t L → L.Pairwise fun a b => lt b.2 a.2 = false) {t : Ptr} {L : List (Ptr × A)}
    (ha : Alive s'.o t) (hL : Values E s' t L) : L.Pairwise fun a b => lt b.2 a.2 = false :=
  hr.inv.each_step hv hrun (kept_weak hs) hs hl (.inl trivial) hord ha hL

/-- C98: as long as only calls of sets are made, with one strict weak order, no tree has equivalent elements: every element is
before the next one. -/
theorem treeOf_unique (hr : Reach E s) (hv : Valid E s c) (hrun : Runs (exec E.toElemOps c) (ready s) r s') (hs : SWO lt)
    (hl : ∀ ord, c.ord = some ord → ord.lt = lt) (hu : c.unique)
    (hord : ∀ t L, Alive s.o t → Values E s t L → L.Pairwise fun a b => lt a.2 b.2 = true) {t : Ptr} {L : List (Ptr × A)}
    (ha : Alive s'.o t) (hL : Values E s' t L) : L.Pairwise fun a b => lt a.2 b.2 = true :=
  hr.inv.each_step hv hrun (kept_strict hs) hs hl (.inr hu) hord ha hL

/-- The trees of `s3` are `u` and `v`; the element 8 is inserted. -/
example : Reach Elem.box Demo.s3 ∧ Valid Elem.box Demo.s3 (.insert Demo.ord .plain Demo.v (.mov (.stk 1))) ∧
    Runs (exec boxOps (.insert Demo.ord .plain Demo.v (.mov (.stk 1)))) (ready Demo.s3) (.ins (.dyn 1) true) Demo.s4 ∧
    SWO Demo.ord.lt ∧ (Call.insert Demo.ord .plain Demo.v (.mov (.stk 1))).unique ∧
    (∀ t L, Alive Demo.s3.o t → Values Elem.box Demo.s3 t L → L.Pairwise fun a b => Demo.ord.lt a.2 b.2 = true) ∧
    (∀ t L, Alive Demo.s3.o t → Values Elem.box Demo.s3 t L → L.Pairwise fun a b => Demo.ord.lt b.2 a.2 = false) ∧
    Alive Demo.s4.o Demo.v ∧ Values Elem.box Demo.s4 Demo.v [(.dyn 0, 7), (.dyn 1, 8)] := by
  have key : ∀ t L, Alive Demo.s3.o t → Values Elem.box Demo.s3 t L → L = [(.dyn 0, 7)] ∨ L = [] := by
    intro t L h1 h2
    rcases Demo.alive3 h1 with rfl | rfl
    · exact .inl (values_unique h2 Demo.vals3)
    · exact .inr (values_unique h2 Demo.vals3u)
  refine ⟨Demo.r3, Demo.v3, Demo.run3, Demo.ord_swo, trivial, ?_, ?_, Demo.alive (by decide +kernel), Demo.vals4⟩
  all_goals
    intro t L h1 h2
    rcases key t L h1 h2 with rfl | rfl
    all_goals simp

end

end Nestl.TO
