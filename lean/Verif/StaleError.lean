import Verif.Set.Props
import Verif.LinkedList.Props2
set_option autoImplicit false
/-
C45 for lists and sets: calls whose error object already holds an error.  (For vectors see `Verif/Vector/Props4.lean`.)
-/
namespace Nestl

/-- The caller passes an error object that already holds an error. -/
def World.stale {N : Type} (w : World N) : World N := { w with err := some .badAlloc }

/-- A cell that was not in use is allocated and nothing else is changed: nothing refers to it. -/
def Leaks {N : Type} (w w' : World N) : Prop :=
  ∃ a, w.heap (.dyn a) = none ∧ w'.heap (.dyn a) ≠ none ∧ ∀ q, q ≠ .dyn a → w'.heap q = w.heap q

namespace LC
open LL
variable {V : Type} {w : W V} {s pos : Ptr} {x : V}

/-- C45 is violated for lists: inserting with an error object that already holds an error, when memory is available,
allocates a node and forgets it. -/
theorem list_stale_error_violated (hr : Reach w) (hg : Good w) (ha : Alive w s) :
    ∃ w', Runs (exec (.insert s pos x)) w.stale (.pos s) w' ∧ Leaks w w' := by
  obtain ⟨σ, h, ho⟩ := hr.inv
  obtain ⟨ls, hs⟩ := (alive_iff h).1 ha
  obtain ⟨i, rfl, hc⟩ := ha
  obtain ⟨c, hc⟩ := Option.ne_none_iff_exists'.1 hc
  have : wp (exec (.insert (.stk i) pos x)) w.stale fun r w' => r = .pos (.stk i) ∧ Leaks w w' := by
    unfold exec emplace createNode; simp only [wp_bind]
    rw [wp_rd (w := w.stale) hc (by simp)]
    refine wp_allocCell ?_ ?_
    · intro h0
      exact absurd (Or.inl h0) hg.not_refused
    · intro a h1 h2
      simp only [World.stale, wp_hasErr, Option.isSome_some, if_true, wp_ite, wp_pure, wp_bind]
      unfold end_
      simp only [wp_bind]
      obtain ⟨b, d, l1, l2⟩ := h.st.on_hdr hs
      have fr : ∀ {x y c}, Lk w.heap x y → Lk (upd w.heap (.dyn a) c) x y := by
        intro x y c hxy
        obtain ⟨n1, n2⟩ := hxy.of_none h1
        unfold Lk; rw [nxt_upd (by simp), prv_upd (by simp), upd_other _ _ n1, upd_other _ _ n2]; exact hxy
      refine wp_checkNode (by exact ⟨b, d, fr l1, fr l2⟩) ?_
      simp only [wp_pure]
      refine ⟨trivial, a, h1, by simp, ?_⟩
      intro q hq
      simp [upd_other _ _ hq]
  obtain ⟨r, w', h1, rfl, h2⟩ := this.runs
  exact ⟨w', h1, h2⟩

example : ∃ (w : W Nat) (s p q r : Ptr), Reach w ∧ Good w ∧ Alive w s ∧ Contents w s [(p, 3), (q, 1), (r, 2)] := by
  obtain ⟨w, s, t, u, p, q, r, x, y, z, hr, hg, hst, _, _, ha, hb, _, hc, hd, _, h1, _⟩ := demo
  exact ⟨w, s, p, q, r, hr, hg, ha, hc⟩

end LC

namespace Set
open RB
variable {K : Type} {lt : K → K → Bool} {w w' : W K} {s : Ptr} {k : K} {L : List (Ptr × K)}

/-- C45 is violated for sets: inserting a new key with an error object that already holds an error, when memory is
available, allocates a node and forgets it. -/
theorem set_stale_error_violated (hr : Reach lt w) (hs : SWO lt) (hg : Good w) (ha : Alive w s) (hc : Contents w s L)
    (hk : ∀ x ∈ L, ¬ Equiv lt x.2 k) :
    ∃ w', Runs (exec lt (.insert s k)) w.stale (.ins s true) w' ∧ Leaks w w' := by
  obtain ⟨o, t, ht, rfl⟩ := hr.tree ha hc
  have hsort := hr.inv.sorted ht hs
  have : wp (exec lt (.insert s k)) w.stale fun r w' => r = .ins s true ∧ Leaks w w' := by
    unfold exec insertUnique; simp only [wp_bind]
    refine wp_getInsertUniquePos (w := w.stale) (t := t) (by exact ht) ?_ ?_
    · intro ctx n hpl hpath hn hlast
      have hpn : par s ctx ≠ .null := by
        cases ctx with
        | nil => exact ht.hdr_ne
        | cons f fs => rw [← hpl] at ht; exact ht.toZ.par_ne_null
      simp only [ne_eq, hpn, not_false_eq_true, if_true, wp_bind, wp_pure, wp_ite]
      have main : ∀ m b, wp (do
          let l ← createNode s k
          if (← hasErr) then pure s else do
          insertAndRebalance b l (par s ctx) s
          setCount s (· + 1)
          pure l) (w.stale.addCmp m) fun r w' => (Res.ins r true : Res K) = .ins s true ∧ Leaks w w' := by
        intro m b
        unfold createNode
        simp only [wp_bind]
        rw [wp_rd (w := w.stale.addCmp m) (by exact ht.cell) ht.hdr_ne]
        refine wp_allocCell ?_ ?_
        · intro h0
          exact absurd (Or.inl h0) hg.not_refused
        · intro a h1 h2
          simp only [World.stale, World.addCmp, wp_hasErr, Option.isSome_some, if_true, wp_ite, wp_pure, wp_bind]
          refine ⟨trivial, a, h1, by simp, ?_⟩
          intro q hq
          simp [upd_other _ _ hq]
      unfold insert_
      rw [wp_bind]
      simp only [ne_eq, not_true, if_false]
      cases ctx with
      | nil =>
        simp only [par_nil, if_true, wp_pure]
        exact main n true
      | cons f fs =>
        rw [← hpl] at ht
        have hne : ¬ f.p = s := ht.toZ.par_ne_hdr
        have hc := ht.toZ.parCell
        simp only [par_cons, hne, if_false, wp_bind]
        rw [wp_keyOf (by exact hc) ht.toZ.par_ne_null (cellS_val ..), wp_cmp]
        have := main (n + 1) (lt k f.k)
        simp only [wp_bind] at this
        exact this
    · intro ctx n A p k' hpl hpath hn hA hlt
      exfalso
      have hnod : t.nodes = pre ctx ++ post ctx := by rw [← hpl, plug_nodes]; simp [T.nodes]
      refine hk (p, k') (by rw [hnod, hA]; simp) ⟨hlt, ?_⟩
      rw [hnod] at hsort
      exact (hpath.cut hs hsort).1 (p, k') (by rw [hA]; simp)
  obtain ⟨r, w', h1, rfl, h2⟩ := this.runs
  exact ⟨w', h1, h2⟩

/-- C45 for sets, the part that holds: inserting a key that is present is not affected by a stale error.  Missing: inserting a
new key, copying. -/
theorem set_stale_error_partial (hr : Reach lt w) (hs : SWO lt) (ha : Alive w s) (hc : Contents w s L)
    (hk : ∃ x ∈ L, Equiv lt x.2 k) :
    ∃ p k' w', Runs (exec lt (.insert s k)) w.stale (.ins p false) w' ∧ (p, k') ∈ L ∧ Equiv lt k' k ∧ w'.heap = w.heap := by
  obtain ⟨o, t, ht, rfl⟩ := hr.tree ha hc
  have hsort := hr.inv.sorted ht hs
  have : wp (exec lt (.insert s k)) w.stale fun r w' => ∃ p k', r = .ins p false ∧ (p, k') ∈ t.nodes ∧ Equiv lt k' k ∧ w'.heap = w.heap := by
    unfold exec insertUnique; simp only [wp_bind]
    refine wp_getInsertUniquePos (w := w.stale) (t := t) (by exact ht) ?_ ?_
    · intro ctx n hpl hpath hn hlast
      exfalso
      have hnod : t.nodes = pre ctx ++ post ctx := by rw [← hpl, plug_nodes]; simp [T.nodes]
      rw [hnod] at hsort
      obtain ⟨x, hx, hxk⟩ := hk
      rw [hnod] at hx
      have hcut := (hpath.cut hs hsort).2
      rcases List.mem_append.1 hx with hx | hx
      · rcases List.eq_nil_or_concat (pre ctx) with h0 | ⟨A, y, h0⟩
        · rw [h0] at hx; simp at hx
        · rw [List.concat_eq_append] at h0
          have hy := hlast A y h0
          rw [h0] at hx hsort
          simp only [List.mem_append, List.mem_singleton] at hx
          rcases hx with hx | rfl
          · simp only [Sorted, List.pairwise_append] at hsort
            have := hs.trans _ _ _ (hsort.1.2.2 x hx y (by simp)) hy
            rw [hxk.1] at this; cases this
          · rw [hxk.1] at hy; cases hy
      · have := hcut x hx
        rw [hxk.2] at this; cases this
    · intro ctx n A p k' hpl hpath hn hA hlt
      have hnod : t.nodes = pre ctx ++ post ctx := by rw [← hpl, plug_nodes]; simp [T.nodes]
      simp only [ne_eq, not_true, if_false, wp_pure]
      rw [hnod] at hsort
      exact ⟨p, k', rfl, by rw [hnod, hA]; simp, ⟨hlt, (hpath.cut hs hsort).1 (p, k') (by rw [hA]; simp)⟩, rfl⟩
  obtain ⟨r, w', h1, p, k', rfl, h2⟩ := this.runs
  exact ⟨p, k', w', h1, h2⟩

example : ∃ (w : W Nat) (L : List (Ptr × Nat)), Reach natLt w ∧ SWO natLt ∧ Good w ∧ Alive w (.stk 0) ∧ Contents w (.stk 0) L ∧
    (∀ x ∈ L, ¬ Equiv natLt x.2 7) ∧ ∃ x ∈ L, Equiv natLt x.2 2 := by
  obtain ⟨w, p, q, r, h0, hg, h1, h2, h3, h4⟩ := demo3
  refine ⟨w, _, h0, natLt_swo, hg, h1, h3, ?_, (q, 2), by simp, ?_⟩
  · intro x hx
    simp at hx
    rcases hx with rfl | rfl | rfl <;> simp [Equiv, natLt]
  · simp [Equiv, natLt]

end Set
end Nestl
