import Verif.Vector.Asks
import Verif.Vector.Demo
set_option autoImplicit false
/-
C115: the number of requests and constructions of calls on vectors.
-/
namespace Nestl.VC
open Nestl.Vec
variable {V : Type} [ElemSize V] {w w' w1 : W V} {σ : Sg V} {s t : Ptr} {L : List V} {x : V} {c : Call V} {i j n d : Nat} {v v1 : Vec V} {r : Res}

/-! ### Programs that insert elements one by one -/

/-- An insertion `d` elements before the end. -/
theorem Grown.step {c0 k q m : Nat} (h : Grown c0 v.els.length v.cap k q) (hl : v.els.length ≤ v.cap) {pos : Nat}
    (hp : Put w σ s v pos x v1 m w1) (hs : Spent w w1 (Obj.full ⟨v.alloc, v.start, v.els.length, v.cap⟩)
      (Obj.full ⟨v.alloc, v.start, v.els.length, v.cap⟩ * v.els.length + d + 1)) :
    ∃ k' q' c', Grown c0 (v.els.length + 1) c' k' q' ∧ w1.nAlloc + k = w.nAlloc + k' ∧ w1.nCtor + q ≤ w.nCtor + (d + 1) + q' ∧
      (w1.err = none → w1.nCtor + q = w.nCtor + (d + 1) + q' ∧ c' = v1.cap) ∧
      (v.els.length < v.cap → k' = k ∧ q' = q ∧ v1.cap = v.cap) := by
  by_cases hf : v.cap = v.els.length
  · have e : Obj.full ⟨v.alloc, v.start, v.els.length, v.cap⟩ = 1 := if_pos hf
    rw [e] at hs
    rw [← hf] at h
    have h1 := hs.allocs
    have h2 := hs.upto
    refine ⟨k + 1, q + v.cap, growTo v.cap (v.cap + 1), hf ▸ h.grow, by omega, by omega, fun h3 => ?_, fun h3 => by omega⟩
    have := hs.all h3
    exact ⟨by omega, (hp.grown hf.symm h3).1.symm⟩
  · have e : Obj.full ⟨v.alloc, v.start, v.els.length, v.cap⟩ = 0 := if_neg hf
    rw [e] at hs
    have h1 := hs.allocs
    have h2 := hs.upto
    have h4 := (hp.keep (by omega)).2.1
    refine ⟨k, q, v.cap, h.push, by omega, by omega, fun h3 => ?_, fun _ => ⟨rfl, rfl, h4⟩⟩
    have := hs.all h3
    exact ⟨by omega, h4.symm⟩

/-- What inserting `n` elements into a vector of `z` elements, each one `d` elements before the end, costs. -/
def Bill (w w' : W V) (z cap n d : Nat) : Prop :=
  ∀ c0 k q, Grown c0 z cap k q → ∃ t k' q' c', t ≤ n ∧ Grown c0 (z + t) c' k' q' ∧ w'.nAlloc + k = w.nAlloc + k' ∧
    w'.nCtor + q ≤ w.nCtor + t * (d + 1) + q' ∧ (w'.err = none → t = n ∧ w'.nCtor + q = w.nCtor + t * (d + 1) + q') ∧
    (z + n ≤ cap → k' = k ∧ q' = q)

theorem Bill.nil (he : w.err = none) {z cap : Nat} : Bill w w z cap 0 d := by
  intro c0 k q h
  exact ⟨0, k, q, cap, Nat.le_refl _, h, rfl, by omega, fun _ => ⟨rfl, by omega⟩, fun _ => ⟨rfl, rfl⟩⟩

theorem Bill.cons {pos m : Nat} (hl : v.els.length ≤ v.cap) (hp : Put w σ s v pos x v1 m w1) (hpos : pos ≤ v.els.length)
    (hs : Spent w w1 (Obj.full ⟨v.alloc, v.start, v.els.length, v.cap⟩)
      (Obj.full ⟨v.alloc, v.start, v.els.length, v.cap⟩ * v.els.length + d + 1))
    (hn : w1.err = none → Bill w1 w' v1.els.length v1.cap n d) (hf : w1.err ≠ none → w' = w1) :
    Bill w w' v.els.length v.cap (n + 1) d := by
  intro c0 k q h
  obtain ⟨k1, q1, c1, g1, g2, g3, g4, g5⟩ := Grown.step h hl hp hs
  by_cases he : w1.err = none
  · obtain ⟨g6, rfl⟩ := g4 he
    have hlen : v1.els.length = v.els.length + 1 := by
      rw [(hp.ok he).1]; simp; omega
    obtain ⟨t, k2, q2, c2, f1, f2, f3, f4, f5, f6⟩ := hn he c0 k1 q1 (hlen ▸ g1)
    have e : (t + 1) * (d + 1) = t * (d + 1) + (d + 1) := Nat.succ_mul _ _
    refine ⟨t + 1, k2, q2, c2, by omega, ?_, by omega, by omega, fun h1 => ?_, fun h1 => ?_⟩
    · rw [hlen] at f2
      rw [show v.els.length + (t + 1) = v.els.length + 1 + t by omega]; exact f2
    · obtain ⟨f7, f8⟩ := f5 h1
      exact ⟨by omega, by omega⟩
    · obtain ⟨e1, e2, e3⟩ := g5 (by omega)
      obtain ⟨f7, f8⟩ := f6 (by omega)
      exact ⟨by omega, by omega⟩
  · obtain rfl := hf he
    refine ⟨1, k1, q1, c1, by omega, g1, g2, by omega, fun h1 => absurd h1 he, fun h1 => ?_⟩
    obtain ⟨e1, e2, e3⟩ := g5 (by omega)
    exact ⟨e1, e2⟩

theorem bill_assignIter {as : List (Arg V)} : ∀ {w : W V} {σ : Sg V} {v : Vec V} {xs : List V} {r : Unit}, St w.heap σ → w.err = none →
    σ s = some v → Vals w.heap as xs → (∀ a ∈ as, Far v a) → Runs (assignIter s as) w r w' →
    Bill w w' v.els.length v.cap as.length 0 := by
  induction as with
  | nil =>
    intro w σ v xs r hst he hs hv hf h
    cases h; exact .nil he
  | cons a as ih =>
    intro w σ v xs r hst he hs hv hf h
    cases hv with
    | @cons _ _ x xs hv1 hv2 =>
    unfold assignIter at h
    obtain ⟨_, w1, h1, h2⟩ := runs_steps h
    obtain ⟨b, w2, h3, h4⟩ := runs_steps h2
    cases h3
    obtain ⟨v1, hp⟩ := Runs.wp (wp_pushBack hst he hs hv1 (hf a (by simp)).apart) h1
    have hsp := (spent_pushBack he (hst.obj _ _ hs).2 h1).1
    refine Bill.cons (hst.ok _ _ hs).len hp (Nat.le_refl _) hsp (fun h0 => ?_) (fun h0 => ?_)
    · simp only [h0, Option.isSome_none, Bool.false_eq_true, if_false] at h4
      have hv2' := hv2.step hst hs (fun c hc => hf c (List.mem_cons_of_mem _ hc)) hp.start hp.frame
      exact ih hp.st h0 (upd_same _ _ _) hv2'.1 hv2'.2 h4
    · rw [if_pos (by cases hh : w1.err <;> simp_all)] at h4
      cases h4; rfl

theorem bill_insertRange (xs : List V) : ∀ {w : W V} {σ : Sg V} {v : Vec V} {pos : Nat} {r : Unit}, St w.heap σ → w.err = none →
    σ s = some v → pos ≤ v.els.length → (pos = v.els.length ∨ ∀ k, w.nCtor ≤ k → w.env.ctor k = true) → d = v.els.length - pos →
    Runs (insertRangeLoop s pos (xs.map Arg.lit)) w r w' → Bill w w' v.els.length v.cap xs.length d := by
  induction xs with
  | nil =>
    intro w σ v pos r hst he hs hpos hnb hd h
    cases h; exact .nil he
  | cons x xs ih =>
    intro w σ v pos r hst he hs hpos hnb hd h
    simp only [List.map_cons, insertRangeLoop] at h
    obtain ⟨m, w1, h1, h2⟩ := runs_steps h
    obtain ⟨b, w2, h3, h4⟩ := runs_steps h2
    cases h3
    obtain ⟨v1, hp⟩ := Runs.wp (wp_insert hst he hs hpos (a := .lit x) rfl trivial hnb) h1
    have hsp := (spent_insertValue he (hst.obj _ _ hs).2 h1).1
    rw [← hd] at hsp
    refine Bill.cons (hst.ok _ _ hs).len hp hpos hsp (fun h0 => ?_) (fun h0 => ?_)
    · simp only [h0, Option.isSome_none, Bool.false_eq_true, if_false] at h4
      have hlen : v1.els.length = v.els.length + 1 := by rw [(hp.ok h0).1]; simp; omega
      refine ih hp.st h0 (upd_same _ _ _) (by omega) ?_ (by omega) h4
      refine hnb.imp (by omega) ?_
      intro h2 k hk
      rw [hp.adv.env]; exact h2 k (Nat.le_trans hp.adv.nCtor hk)
    · rw [if_pos (by cases hh : w1.err <;> simp_all)] at h4
      cases h4; rfl

/-- The bill, in closed form. -/
theorem Bill.pay {z cap : Nat} (h : Bill w w' z cap n d) : w'.nAlloc - w.nAlloc ≤ 2 * Nat.log2 (z + n + 1) ∧
    w'.nCtor - w.nCtor ≤ n * (d + 1) + 3 * (z + n) ∧ (w'.err = none → w.nCtor + n * (d + 1) ≤ w'.nCtor) ∧
    (z + n ≤ cap → w'.nAlloc = w.nAlloc ∧ w'.nCtor ≤ w.nCtor + n * (d + 1)) := by
  obtain ⟨t, k, q, c, h1, h2, h3, h4, h5, h6⟩ := h cap 0 0 ⟨Nat.zero_le _, Nat.zero_le _, by simp, .inl rfl⟩
  have h7 := h2.size
  have h8 : t * (d + 1) ≤ n * (d + 1) := Nat.mul_le_mul_right _ h1
  refine ⟨?_, by omega, fun h9 => ?_, fun h9 => ?_⟩
  · have h9 : k ≤ 2 * Nat.log2 (z + n + 1) := by
      refine log_bound ?_
      rcases h2.last with h8 | ⟨_, h8⟩
      · exact .inl h8
      · refine .inr (Nat.le_trans (Nat.le_trans (Nat.mul_le_mul_left _ ?_) h8) (Nat.mul_le_mul_left _ ?_)) <;> omega
    omega
  · obtain ⟨rfl, h10⟩ := h5 h9
    omega
  · obtain ⟨rfl, rfl⟩ := h6 h9
    omega

/-- The steps of `assign_nothrow(err, first, last)` for input iterators. -/
theorem bill_assignInput (hst : St w.heap σ) (he : w.err = none) (hs : σ s = some v) (hd : σ (.stk w.sp) = none) (vs : List V) {r : Unit}
    (h : Runs (assignInput s (vs.map Arg.lit)) w r w') : Bill w w' 0 0 vs.length 0 := by
  unfold assignInput at h
  obtain ⟨t, w1, h1, h2⟩ := runs_steps h
  obtain ⟨_, w2, h3, h4⟩ := runs_steps h2
  have hsd : s ≠ .stk w.sp := St.ne_new hs hd
  have hq := (Quiet.newVec _ _ _ _ h1).trans (Quiet.swap _ _ _ _ _ h3)
  have h5 : ∃ σ2, St w2.heap σ2 ∧ σ2 s = some (bare defaultAlloc) := by
    have := Runs.wp (wp_newVec hst hd defaultAlloc (Q := fun r w1 => r = .stk w.sp ∧
      St w1.heap (upd σ (.stk w.sp) (some (bare defaultAlloc)))) (fun h1 hst1 _ => ⟨rfl, hst1⟩)) h1
    obtain ⟨rfl, hst1⟩ := this
    exact Runs.wp (wp_swap (s := .stk w.sp) (t := s) hst1 (upd_same _ _ _) (by rw [upd_other _ _ hsd]; exact hs) (Ne.symm hsd)
      (Q := fun _ w2 => ∃ σ2, St w2.heap σ2 ∧ σ2 s = some (bare defaultAlloc)) fun h2 hst2 _ => ⟨_, hst2, upd_same _ _ _⟩) h3
  obtain ⟨σ2, hst2, hs2⟩ := h5
  obtain ⟨o', w3, h6, h7⟩ := runs_steps h4
  obtain ⟨-, -, rfl⟩ := VO.runs_rdObj.1 h6
  obtain ⟨_, w4, h8, h9⟩ := runs_steps h7
  obtain ⟨-, rfl⟩ := VO.of_assert h8
  obtain ⟨_, w5, h10, h11⟩ := runs_steps h9
  have hb := bill_assignIter hst2 (hq.err.trans he) hs2 (vals_lit vs) (by simp [Far]) h10
  have hq' := Quiet.destroyVec _ _ _ _ h11
  intro c0 k q hg
  obtain ⟨t, k', q', c', g1, g2, g3, g4, g5, g6⟩ := hb c0 k q hg
  simp only [List.length_map] at g1 g5 g6
  refine ⟨t, k', q', c', g1, g2, ?_, ?_, ?_, g6⟩
  · rw [hq'.allocs, g3, hq.allocs]
  · rw [hq'.ctors, ← hq.ctors]; exact g4
  · rw [hq'.ctors, hq'.err, ← hq.ctors]; exact g5

theorem unchanged_evalArg {a : CArg V} {b : Arg V} (h : Runs (evalArg a) w b w') : w' = w := by
  cases a with
  | val x => cases h; rfl
  | elem t i =>
    obtain ⟨o', w1, h1, h2⟩ := runs_steps h
    obtain ⟨-, -, rfl⟩ := VO.runs_rdObj.1 h1
    obtain ⟨_, w2, h3, h4⟩ := runs_steps h2
    obtain ⟨-, rfl⟩ := VO.of_assert h3
    cases h4; rfl

/-! ### C115 -/

/-- Specification: if the call succeeds, it makes `i` requests and `j` constructions. -/
def Price (w : W V) : Call V → Nat → Nat → Prop
  | .pushBack s _, i, j => ∃ L c, Contents w s L ∧ HasCap w s c ∧ if L.length = c then i = 1 ∧ j = c + 1 else i = 0 ∧ j = 1
  | .insert s p _, i, j => ∃ L c, Contents w s L ∧ HasCap w s c ∧
      if L.length = c then i = 1 ∧ j = c + (c - p) + 1 else i = 0 ∧ j = (L.length - p) + 1
  | .reserve s n, i, j => ∃ L c, Contents w s L ∧ HasCap w s c ∧ if c < n then i = 1 ∧ j = L.length else i = 0 ∧ j = 0
  | .shrink s, i, j => ∃ L c, Contents w s L ∧ HasCap w s c ∧ if L.length < c then i = 1 ∧ j = L.length else i = 0 ∧ j = 0
  | .resize s n _, i, j => ∃ L, Contents w s L ∧ if L.length < n then i = 1 ∧ j = n else i = 0 ∧ j = 0
  | .assignN _ n _, i, j => i = 1 ∧ j = n
  | .assignVals _ vs, i, j => i = 1 ∧ j = vs.length
  | .assignSub _ _ _ n, i, j => i = 1 ∧ j = n
  | .copy _ s, i, j => ∃ L, Contents w s L ∧ i = 1 ∧ j = L.length
  | .create _, i, j | .clear _, i, j | .move _, i, j | .moveAssign _ _, i, j | .swap _ _, i, j | .destroy _, i, j => i = 0 ∧ j = 0
  | .insertVals _ _ _, _, _ | .assignInput _ _, _, _ => False

/-- C115: the number of requests and constructions of a call.  A call that fails makes the same number of requests and not more
constructions. -/
theorem vector_requests (hr : Reach w) (hv : Valid w c) (hp : Price w c i j) (hrun : Runs (exec c) (ready w) r w') :
    w'.nAlloc = w.nAlloc + i ∧ w'.nCtor ≤ w.nCtor + j ∧ (w'.err = none → w'.nCtor = w.nCtor + j) := by
  obtain ⟨σ, h⟩ := hr.inv
  have hst := h.ready.st
  have he : (ready w).err = none := rfl
  have fin : Spent (ready w) w' i j → w'.nAlloc = w.nAlloc + i ∧ w'.nCtor ≤ w.nCtor + j ∧ (w'.err = none → w'.nCtor = w.nCtor + j) :=
    fun h => ⟨h.allocs, h.upto, h.all⟩
  have new : ∀ {s v}, σ s = some v → s ≠ .stk (ready w).sp := fun hs => St.ne_new hs (h.ready.top _ (Nat.le_refl _))
  have quiet : Quiet (exec c) → i = 0 ∧ j = 0 → Spent (ready w) w' i j := by
    rintro hq ⟨rfl, rfl⟩; exact .still (hq _ _ _ hrun)
  apply fin
  cases c with
  | create a => exact quiet (.bind (Quiet.newVec _) fun _ => .pure _) hp
  | clear s => exact quiet (.bind (Quiet.clear _) fun _ => .pure _) hp
  | move s => exact quiet (.bind (Quiet.moveCtor _) fun _ => .pure _) hp
  | moveAssign s t => exact quiet (.bind (Quiet.moveAssign _ _) fun _ => .pure _) hp
  | swap s t => exact quiet (.bind (Quiet.swap _ _) fun _ => .pure _) hp
  | destroy s => exact quiet (.bind (Quiet.destroyVec _) fun _ => .pure _) hp
  | insertVals s p vs => exact hp.elim
  | assignInput s vs => exact hp.elim
  | pushBack s a =>
    obtain ⟨L, cap, hL, hc, hif⟩ := hp
    obtain ⟨v, hs⟩ := (alive_iff h).1 hv.1
    obtain rfl := (contents_iff h hs).1 hL
    obtain rfl := (hasCap_iff h hs).1 hc
    obtain ⟨b, w1, h1, h2⟩ := runs_steps hrun
    obtain rfl := unchanged_evalArg h1
    obtain ⟨_, w2, h3, h4⟩ := runs_steps h2
    cases h4
    have hsp := (spent_pushBack he (hst.obj _ _ hs).2 h3).1
    by_cases hf : v.els.length = v.cap
    · rw [if_pos hf] at hif
      obtain ⟨rfl, rfl⟩ := hif
      have e : Obj.full ⟨v.alloc, v.start, v.els.length, v.cap⟩ = 1 := if_pos hf.symm
      rw [e] at hsp
      exact hsp.cast rfl (by simp only; omega)
    · rw [if_neg hf] at hif
      obtain ⟨rfl, rfl⟩ := hif
      have e : Obj.full ⟨v.alloc, v.start, v.els.length, v.cap⟩ = 0 := if_neg fun h => hf h.symm
      rw [e] at hsp
      exact hsp.cast rfl (by simp only; omega)
  | insert s p a =>
    obtain ⟨L, cap, hL, hc, hif⟩ := hp
    obtain ⟨v, hs⟩ := (alive_iff h).1 hv.1
    obtain rfl := (contents_iff h hs).1 hL
    obtain rfl := (hasCap_iff h hs).1 hc
    obtain ⟨b, w1, h1, h2⟩ := runs_steps hrun
    obtain rfl := unchanged_evalArg h1
    obtain ⟨_, w2, h3, h4⟩ := runs_steps h2
    cases h4
    have hsp := (spent_insertValue he (hst.obj _ _ hs).2 h3).1
    by_cases hf : v.els.length = v.cap
    · rw [if_pos hf] at hif
      obtain ⟨rfl, rfl⟩ := hif
      have e : Obj.full ⟨v.alloc, v.start, v.els.length, v.cap⟩ = 1 := if_pos hf.symm
      rw [e] at hsp
      exact hsp.cast rfl (by simp only; omega)
    · rw [if_neg hf] at hif
      obtain ⟨rfl, rfl⟩ := hif
      have e : Obj.full ⟨v.alloc, v.start, v.els.length, v.cap⟩ = 0 := if_neg fun h => hf h.symm
      rw [e] at hsp
      exact hsp.cast rfl (by simp only; omega)
  | reserve s n =>
    obtain ⟨L, cap, hL, hc, hif⟩ := hp
    obtain ⟨v, hs⟩ := (alive_iff h).1 hv.1
    obtain rfl := (contents_iff h hs).1 hL
    obtain rfl := (hasCap_iff h hs).1 hc
    obtain ⟨_, w2, h3, h4⟩ := runs_steps hrun
    cases h4
    rcases spent_reserve he (hst.obj _ _ hs).2 h3 with ⟨h5, rfl⟩ | ⟨h5, h6, -⟩
    · rw [if_neg (Nat.not_lt.2 h5)] at hif
      obtain ⟨rfl, rfl⟩ := hif
      exact .still (.refl _)
    · rw [if_pos h5] at hif
      obtain ⟨rfl, rfl⟩ := hif
      exact h6
  | shrink s =>
    obtain ⟨L, cap, hL, hc, hif⟩ := hp
    obtain ⟨v, hs⟩ := (alive_iff h).1 hv
    obtain rfl := (contents_iff h hs).1 hL
    obtain rfl := (hasCap_iff h hs).1 hc
    obtain ⟨_, w2, h3, h4⟩ := runs_steps hrun
    cases h4
    rcases spent_shrink he (hst.obj _ _ hs).2 h3 with ⟨h5, rfl⟩ | ⟨h5, h6, -⟩
    · rw [if_neg (Nat.not_lt.2 h5)] at hif
      obtain ⟨rfl, rfl⟩ := hif
      exact .still (.refl _)
    · rw [if_pos h5] at hif
      obtain ⟨rfl, rfl⟩ := hif
      exact h6
  | resize s n a =>
    obtain ⟨L, hL, hif⟩ := hp
    obtain ⟨v, hs⟩ := (alive_iff h).1 hv.1
    obtain rfl := (contents_iff h hs).1 hL
    obtain ⟨b, w1, h1, h2⟩ := runs_steps hrun
    obtain rfl := unchanged_evalArg h1
    obtain ⟨_, w2, h3, h4⟩ := runs_steps h2
    cases h4
    have hsp := spent_resize he (hst.obj _ _ hs).2 h3
    by_cases hn : v.els.length < n
    · rw [if_pos hn] at hif
      obtain ⟨rfl, rfl⟩ := hif
      rwa [if_pos hn] at hsp
    · rw [if_neg hn] at hif
      obtain ⟨rfl, rfl⟩ := hif
      rwa [if_neg hn] at hsp
  | assignN s n a =>
    obtain ⟨rfl, rfl⟩ := hp
    obtain ⟨v, hs⟩ := (alive_iff h).1 hv.1
    obtain ⟨b, w1, h1, h2⟩ := runs_steps hrun
    obtain rfl := unchanged_evalArg h1
    obtain ⟨_, w2, h3, h4⟩ := runs_steps h2
    cases h4
    exact spent_assignN he (new hs) h3
  | assignVals s vs =>
    obtain ⟨rfl, rfl⟩ := hp
    obtain ⟨v, hs⟩ := (alive_iff h).1 hv.1
    obtain ⟨_, w2, h3, h4⟩ := runs_steps hrun
    cases h4
    exact (spent_assignRandom he (new hs) h3).cast rfl (by simp)
  | assignSub s t p n =>
    obtain ⟨rfl, rfl⟩ := hp
    obtain ⟨v, hs⟩ := (alive_iff h).1 hv.1
    obtain ⟨q, w1, h1, h2⟩ := runs_steps hrun
    obtain ⟨o', w3, h5, h6⟩ := runs_steps h1
    obtain ⟨-, -, rfl⟩ := VO.runs_rdObj.1 h5
    cases h6
    obtain ⟨_, w2, h3, h4⟩ := runs_steps h2
    cases h4
    exact (spent_assignRandom he (new hs) h3).cast rfl (refs_length _ _ _)
  | copy d s =>
    obtain ⟨L, hL, rfl, rfl⟩ := hp
    obtain ⟨v, hs⟩ := (alive_iff h).1 hv.1
    obtain ⟨u, ht⟩ := (alive_iff h).1 hv.2
    obtain rfl := (contents_iff h ht).1 hL
    obtain ⟨_, w2, h3, h4⟩ := runs_steps hrun
    cases h4
    obtain ⟨o', w3, h5, h6⟩ := runs_steps h3
    obtain ⟨-, h7, rfl⟩ := VO.runs_rdObj.1 h5
    rw [(hst.obj _ _ ht).2] at h7; cases h7
    exact (spent_assignRandom he (new hs) h6).cast rfl (refs_length _ _ _)

/-- The price of every call with a fixed price exists. -/
theorem price_total (hr : Reach w) (hv : Valid w c) (hc : ∀ s p vs, c ≠ .insertVals s p vs ∧ c ≠ .assignInput s vs) :
    ∃ i j, Price w c i j ∧ i ≤ 1 := by
  obtain ⟨σ, h⟩ := hr.inv
  have look : ∀ {s}, Alive w s → ∃ L c, Contents w s L ∧ HasCap w s c := by
    intro s hs
    obtain ⟨v, hs⟩ := (alive_iff h).1 hs
    exact ⟨_, _, (contents_iff h hs).2 rfl, (hasCap_iff h hs).2 rfl⟩
  have pick : ∀ (p : Prop) [Decidable p] (a b : Nat), ∃ i j, (if p then i = 1 ∧ j = a else i = 0 ∧ j = b) ∧ i ≤ 1 := by
    intro p _ a b
    by_cases hp : p
    · exact ⟨1, a, by rw [if_pos hp]; exact ⟨rfl, rfl⟩, Nat.le_refl _⟩
    · exact ⟨0, b, by rw [if_neg hp]; exact ⟨rfl, rfl⟩, Nat.zero_le _⟩
  cases c with
  | pushBack s a =>
    obtain ⟨L, cap, h1, h2⟩ := look hv.1
    obtain ⟨i, j, h3, h4⟩ := pick (L.length = cap) (cap + 1) 1
    exact ⟨i, j, ⟨L, cap, h1, h2, h3⟩, h4⟩
  | insert s p a =>
    obtain ⟨L, cap, h1, h2⟩ := look hv.1
    obtain ⟨i, j, h3, h4⟩ := pick (L.length = cap) (cap + (cap - p) + 1) (L.length - p + 1)
    exact ⟨i, j, ⟨L, cap, h1, h2, h3⟩, h4⟩
  | reserve s n =>
    obtain ⟨L, cap, h1, h2⟩ := look hv.1
    obtain ⟨i, j, h3, h4⟩ := pick (cap < n) L.length 0
    exact ⟨i, j, ⟨L, cap, h1, h2, h3⟩, h4⟩
  | shrink s =>
    obtain ⟨L, cap, h1, h2⟩ := look hv
    obtain ⟨i, j, h3, h4⟩ := pick (L.length < cap) L.length 0
    exact ⟨i, j, ⟨L, cap, h1, h2, h3⟩, h4⟩
  | resize s n a =>
    obtain ⟨L, cap, h1, h2⟩ := look hv.1
    obtain ⟨i, j, h3, h4⟩ := pick (L.length < n) n 0
    exact ⟨i, j, ⟨L, h1, h3⟩, h4⟩
  | copy d s =>
    obtain ⟨L, cap, h1, h2⟩ := look hv.2
    exact ⟨1, L.length, ⟨L, h1, rfl, rfl⟩, Nat.le_refl _⟩
  | insertVals s p vs => exact absurd rfl (hc s p vs).1
  | assignInput s vs => exact absurd rfl (hc s 0 vs).2
  | assignN s n a => exact ⟨1, n, ⟨rfl, rfl⟩, Nat.le_refl _⟩
  | assignVals s vs => exact ⟨1, _, ⟨rfl, rfl⟩, Nat.le_refl _⟩
  | assignSub s t p n => exact ⟨1, n, ⟨rfl, rfl⟩, Nat.le_refl _⟩
  | create a => exact ⟨0, 0, ⟨rfl, rfl⟩, Nat.zero_le _⟩
  | clear s => exact ⟨0, 0, ⟨rfl, rfl⟩, Nat.zero_le _⟩
  | move s => exact ⟨0, 0, ⟨rfl, rfl⟩, Nat.zero_le _⟩
  | moveAssign s t => exact ⟨0, 0, ⟨rfl, rfl⟩, Nat.zero_le _⟩
  | swap s t => exact ⟨0, 0, ⟨rfl, rfl⟩, Nat.zero_le _⟩
  | destroy s => exact ⟨0, 0, ⟨rfl, rfl⟩, Nat.zero_le _⟩

/-- C115: a call other than the insertion of a range or the assignment from input iterators makes at most one request. -/
theorem vector_one_request (hr : Reach w) (hv : Valid w c) (hc : ∀ s p vs, c ≠ .insertVals s p vs ∧ c ≠ .assignInput s vs)
    (hrun : Runs (exec c) (ready w) r w') : w'.nAlloc ≤ w.nAlloc + 1 := by
  obtain ⟨i, j, h1, h2⟩ := price_total hr hv hc
  have := (vector_requests hr hv h1 hrun).1
  omega

/-- C115: inserting `n` values before element `p` of a vector of `m` elements makes at most `2 * log2 (m + n + 1)` requests and
`n * (m - p + 1) + 3 * (m + n)` constructions; if the capacity suffices, there are no requests and `n * (m - p + 1)` constructions. -/
theorem vector_insert_range_requests {p : Nat} {vs : List V} {cap : Nat} (hr : Reach w) (hv : Valid w (.insertVals s p vs)) (hL : Contents w s L)
    (hc : HasCap w s cap) (hrun : Runs (exec (.insertVals s p vs)) (ready w) r w') :
    w'.nAlloc - w.nAlloc ≤ 2 * Nat.log2 (L.length + vs.length + 1) ∧
    w'.nCtor - w.nCtor ≤ vs.length * (L.length - p + 1) + 3 * (L.length + vs.length) ∧
    (L.length + vs.length ≤ cap → w'.nAlloc = w.nAlloc ∧ w'.nCtor - w.nCtor ≤ vs.length * (L.length - p + 1) ∧
      (w'.err = none → w'.nCtor = w.nCtor + vs.length * (L.length - p + 1))) := by
  obtain ⟨σ, h⟩ := hr.inv
  obtain ⟨v, hs⟩ := (alive_iff h).1 hv.1
  obtain rfl := (contents_iff h hs).1 hL
  obtain rfl := (hasCap_iff h hs).1 hc
  obtain ⟨-, L, hL', h1, h2⟩ := hv
  obtain rfl := (contents_iff h hs).1 hL'
  obtain ⟨_, w1, h3, h4⟩ := runs_steps hrun
  cases h4
  obtain ⟨o', w2, h5, h6⟩ := runs_steps h3
  obtain ⟨-, -, rfl⟩ := VO.runs_rdObj.1 h5
  obtain ⟨_, w3, h7, h8⟩ := runs_steps h6
  obtain ⟨-, rfl⟩ := VO.of_assert h7
  obtain ⟨h9, h10, h11, h12⟩ := (bill_insertRange vs h.ready.st rfl hs h1 h2 rfl h8).pay
  refine ⟨h9, h10, fun h13 => ?_⟩
  obtain ⟨h14, h15⟩ := h12 h13
  have h15 : w'.nCtor ≤ w.nCtor + vs.length * (v.els.length - p + 1) := h15
  refine ⟨h14, by omega, fun h16 => ?_⟩
  have h17 : w.nCtor + vs.length * (v.els.length - p + 1) ≤ w'.nCtor := h11 h16
  omega

/-- C115: assigning `n` values from input iterators makes at most `2 * log2 (n + 1)` requests and `4 * n` constructions. -/
theorem vector_assign_input_requests {vs : List V} (hr : Reach w) (hv : Valid w (.assignInput s vs))
    (hrun : Runs (exec (.assignInput s vs)) (ready w) r w') :
    w'.nAlloc - w.nAlloc ≤ 2 * Nat.log2 (vs.length + 1) ∧ w'.nCtor - w.nCtor ≤ 4 * vs.length := by
  obtain ⟨σ, h⟩ := hr.inv
  obtain ⟨v, hs⟩ := (alive_iff h).1 hv
  obtain ⟨_, w1, h3, h4⟩ := runs_steps hrun
  cases h4
  obtain ⟨h9, h10, -, -⟩ := (bill_assignInput h.ready.st rfl hs (h.ready.top _ (Nat.le_refl _)) vs h3).pay
  rw [Nat.zero_add] at h9
  exact ⟨h9, by have h10 : w'.nCtor - w.nCtor ≤ _ := h10; omega⟩

/-- An insertion that moves two elements and enlarges the block, the insertion of a range that does not, an assignment from input iterators. -/
example : ∃ (w : W Nat) (s t : Ptr), Reach w ∧ Valid w (.insert s 1 (.val 8)) ∧ Price w (.insert s 1 (.val 8)) 1 6 ∧
    Valid w (.insertVals t 0 [7]) ∧ Contents w t [2, 5] ∧ HasCap w t 3 ∧ Valid w (.assignInput s [1, 2, 3]) ∧
    Price w (.resize t 9 (.val 1)) 1 9 ∧ Price w (.copy t s) 1 3 := by
  obtain ⟨w, s, t, u, hr, hg, h1, h2, h3, ha, hb, hu, c1, c2, c3, k1, k2, k3, al⟩ := demo
  exact ⟨w, s, t, hr, ⟨ha, trivial, ⟨_, c1, by decide, .inr fun k _ => hg.ctor k⟩, .inl trivial⟩, ⟨_, _, c1, k1, rfl, rfl⟩,
    ⟨hb, _, c2, by decide, .inr fun k _ => hg.ctor k⟩, c2, k2, ha, ⟨_, c2, rfl, rfl⟩, ⟨_, c1, rfl, rfl⟩⟩

end Nestl.VC
