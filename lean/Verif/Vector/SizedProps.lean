import Verif.Vector.Sized
import Verif.Report
set_option autoImplicit false
/-
C85 (vectors): what a call asks the allocator for, and with that the exact causes of a report of missing memory.

Specification: `Asks w c n` says that the call `c` in the state `w` may ask for a block of `n` elements, in terms of what a client
can observe of the vector; `Report` (`Verif/Told.lean`) says what happened to the requests and constructions of the call.
-/
namespace Nestl.VC
open Nestl.Vec
variable {V : Type}

/-- The vectors the effect of a call depends on. -/
def Call.uses : Call V → List Ptr
  | .create _ => []
  | .pushBack s _ | .insert s _ _ | .insertVals s _ _ | .clear s | .reserve s _ | .shrink s | .resize s _ _ | .assignN s _ _ => [s]
  | .assignVals s _ | .assignInput s _ | .assignSub s _ _ _ | .move s | .destroy s => [s]
  | .copy d s | .moveAssign d s | .swap d s => [d, s]

/-- Specification: the numbers of elements a call may ask room for.  A full vector grows to 3/2 of one more than its capacity. -/
def Asks (w : W V) : Call V → Nat → Prop
  | .pushBack s _, n | .insert s _ _, n => ∃ L, Contents w s L ∧ HasCap w s L.length ∧ n = 3 * (L.length + 1) / 2
  | .insertVals s _ vs, n => ∃ L cap k, Contents w s L ∧ HasCap w s cap ∧ cap ≤ k ∧ k < L.length + vs.length ∧ n = 3 * (k + 1) / 2
  | .reserve s m, n => ∃ cap, HasCap w s cap ∧ cap < m ∧ n = m
  | .shrink s, n => ∃ L cap, Contents w s L ∧ HasCap w s cap ∧ L.length < cap ∧ n = L.length
  | .resize s m _, n => ∃ L cap, Contents w s L ∧ HasCap w s cap ∧ L.length < m ∧ n = max (3 * (cap + 1) / 2) m
  | .assignN _ m _, n | .assignSub _ _ _ m, n => n = max 1 m
  | .assignVals _ vs, n => n = max 1 vs.length
  | .assignInput _ vs, n => ∃ k, k < vs.length ∧ n = 3 * (k + 1) / 2
  | .copy _ s, n => ∃ L, Contents w s L ∧ n = max 1 L.length
  | _, _ => False

theorem _root_.Nestl.Outcome.mono {N : Type} {B B' : Prop} {w w' : World N} (h : Outcome B w w') (hB : B → B') : Outcome B' w w' := by
  refine ⟨h.env, h.allocs, h.ctors, h.heap, ?_⟩
  have := h.report
  generalize w'.err = e at this ⊢
  cases this with
  | success a b => exact .success a b
  | badAlloc k a b c d e => exact .badAlloc k a b c d (e.imp_right hB)
  | ctorFailed k a b c d e => exact .ctorFailed k a b c d e

theorem of_evalArg {a : CArg V} {b : Arg V} {w w' : W V} (h : Runs (evalArg a) w b w') : w' = w := by
  cases a with
  | val v => cases h; rfl
  | elem t i =>
    obtain ⟨o, w1, h1, h2⟩ := VO.runs_bind_iff.1 h
    obtain ⟨-, -, rfl⟩ := VO.runs_rdObj.1 h1
    obtain ⟨_, w2, h3, h4⟩ := VO.runs_bind_iff.1 h2
    obtain ⟨-, rfl⟩ := VO.of_assert h3
    cases h4; rfl

theorem of_ret {m : M (W V) Unit} {r : Res} {w w' : W V} (h : Runs (do m; pure Res.unit) w r w') : Runs m w () w' := by
  obtain ⟨_, w1, h1, h2⟩ := VO.runs_bind_iff.1 h
  cases h2; exact h1

variable [ElemSize V] {w w' : W V} {c : Call V} {r : Res}

/-- Some request of the call is for more memory than an allocator can have. -/
def TooMuch (w : W V) (c : Call V) : Prop := ∃ n, Asks w c n ∧ maxBytes < n * ElemSize.size V

theorem outcome_exec {σ : Sg V} (hi : Inv w σ) (hu : ∀ s, s ∈ c.uses → Alive w s) (h : Runs (exec c) (ready w) r w') :
    Outcome (TooMuch w c) (ready w) w' := by
  have get : ∀ {s : Ptr}, s ∈ c.uses → ∃ v, σ s = some v ∧ (ready w).heap s = some (.obj ⟨v.alloc, v.start, v.els.length, v.cap⟩) := by
    intro s hs
    obtain ⟨v, hv⟩ := (alive_iff hi).1 (hu s hs)
    exact ⟨v, hv, (hi.st.obj _ _ hv).2⟩
  have fresh : (ready w).heap (.stk (ready w).sp) = none := by
    apply Classical.byContradiction; intro hc
    rcases hi.st.cover _ hc with h1 | ⟨t, x, h1, h2, -⟩
    · exact h1 (hi.top _ (Nat.le_refl _))
    · rcases (hi.st.ok _ _ h1).blk with ⟨h3, -⟩ | ⟨⟨y, h3⟩, -⟩ <;> rw [h3] at h2 <;> cases h2
  have quiet : ∀ {m : M (W V) Res}, Quiet m → Runs m (ready w) r w' → Outcome (TooMuch w c) (ready w) w' :=
    fun hq hr => (hq _ _ _ hr).outcome rfl
  cases c with
  | create => exact quiet (.bind (Quiet.newVec _) fun _ => .pure _) h
  | clear => exact quiet (.bind (Quiet.clear _) fun _ => .pure _) h
  | move => exact quiet (.bind (Quiet.moveCtor _) fun _ => .pure _) h
  | moveAssign => exact quiet (.bind (Quiet.moveAssign _ _) fun _ => .pure _) h
  | swap => exact quiet (.bind (Quiet.swap _ _) fun _ => .pure _) h
  | destroy => exact quiet (.bind (Quiet.destroyVec _) fun _ => .pure _) h
  | pushBack s a =>
    obtain ⟨v, hv, ho⟩ := get (.head _)
    obtain ⟨b, w1, h1, h2⟩ := VO.runs_bind_iff.1 h
    obtain rfl := of_evalArg h1
    have hk := (hi.st.ok _ _ hv).len
    refine (pays_pushBack (k := v.els.length) (c := v.cap) b _ _ _ _ (of_ret h2) rfl ho ⟨rfl, Nat.le_refl _⟩).1.mono fun hb => ?_
    refine ⟨_, ⟨v.els, (contents_iff hi hv).2 rfl, (hasCap_iff hi hv).2 (Nat.le_antisymm hk hb.1), rfl⟩, ?_⟩
    rw [Nat.mul_comm 3]; exact hb.lt
  | insert s i a =>
    obtain ⟨v, hv, ho⟩ := get (.head _)
    obtain ⟨b, w1, h1, h2⟩ := VO.runs_bind_iff.1 h
    obtain rfl := of_evalArg h1
    obtain ⟨j, w2, h3, h4⟩ := VO.runs_bind_iff.1 h2
    cases h4
    have hk := (hi.st.ok _ _ hv).len
    refine (pays_insertValue (k := v.els.length) (c := v.cap) i b _ _ _ _ h3 rfl ho ⟨rfl, Nat.le_refl _⟩).1.mono fun hb => ?_
    refine ⟨_, ⟨v.els, (contents_iff hi hv).2 rfl, (hasCap_iff hi hv).2 (Nat.le_antisymm hk hb.1), rfl⟩, ?_⟩
    rw [Nat.mul_comm 3]; exact hb.lt
  | insertVals s i vs =>
    obtain ⟨v, hv, ho⟩ := get (.head _)
    have h1 := of_ret h
    have := Pays.rd (s := s) (K := Holds v.els.length v.cap) (B := BigLater V v.els.length v.cap (vs.map Arg.lit).length)
      (k := fun o => assertM (i ≤ o.fin) >>= fun _ => insertRangeLoop s i (vs.map .lit)) (R := fun _ => Holds _ v.cap)
      fun o ho => Pays.assert fun _ => (pays_insertRangeLoop (c := v.cap) _ i).mono (by rintro _ rfl; exact ho) (fun _ _ h => h) id
    refine (this _ _ _ _ h1 rfl ho ⟨rfl, Nat.le_refl _⟩).1.mono fun hb => ?_
    obtain ⟨k, hk1, hk2, hk3⟩ := hb
    rw [List.length_map] at hk2
    refine ⟨_, ⟨v.els, v.cap, k, (contents_iff hi hv).2 rfl, (hasCap_iff hi hv).2 rfl, hk3.1, hk2, rfl⟩, ?_⟩
    rw [Nat.mul_comm 3]; exact hk3.lt
  | reserve s n =>
    obtain ⟨v, hv, ho⟩ := get (.head _)
    refine (pays_reserve _ n _ _ _ _ (of_ret h) rfl ho rfl).1.mono fun hb => ?_
    exact ⟨_, ⟨v.cap, (hasCap_iff hi hv).2 rfl, hb.1, rfl⟩, hb.2.lt⟩
  | shrink s =>
    obtain ⟨v, hv, ho⟩ := get (.head _)
    refine (pays_shrink _ _ _ _ _ (of_ret h) rfl ho rfl).1.mono fun hb => ?_
    exact ⟨_, ⟨v.els, v.cap, (contents_iff hi hv).2 rfl, (hasCap_iff hi hv).2 rfl, hb.1, rfl⟩, hb.2.lt⟩
  | resize s n a =>
    obtain ⟨v, hv, ho⟩ := get (.head _)
    obtain ⟨b, w1, h1, h2⟩ := VO.runs_bind_iff.1 h
    obtain rfl := of_evalArg h1
    refine (pays_resize _ n b _ _ _ _ (of_ret h2) rfl ho rfl).1.mono fun hb => ?_
    refine ⟨_, ⟨v.els, v.cap, (contents_iff hi hv).2 rfl, (hasCap_iff hi hv).2 rfl, hb.1, rfl⟩, ?_⟩
    rw [Nat.mul_comm 3]; exact hb.2.grown
  | assignN s n a =>
    obtain ⟨v, hv, ho⟩ := get (.head _)
    obtain ⟨b, w1, h1, h2⟩ := VO.runs_bind_iff.1 h
    obtain rfl := of_evalArg h1
    exact (outcome_assign (fun t ht => pays_assignN n b ht) rfl ho fresh (of_ret h2)).mono fun hb => ⟨_, rfl, hb.lt⟩
  | assignVals s vs =>
    obtain ⟨v, hv, ho⟩ := get (.head _)
    refine (outcome_assign (fun t ht => pays_assignRandom (vs.map .lit) ht) rfl ho fresh (of_ret h)).mono fun hb => ?_
    rw [List.length_map] at hb
    exact ⟨_, rfl, hb.lt⟩
  | assignInput s vs =>
    obtain ⟨v, hv, ho⟩ := get (.head _)
    refine (outcome_assign (fun t ht => pays_assignInput (vs.map .lit) ht) rfl ho fresh (of_ret h)).mono fun hb => ?_
    obtain ⟨k, hk1, hk2, hk3⟩ := hb
    rw [List.length_map] at hk2
    refine ⟨_, ⟨k, by omega, rfl⟩, ?_⟩
    rw [Nat.mul_comm 3]; exact hk3.lt
  | assignSub s t i n =>
    obtain ⟨v, hv, ho⟩ := get (.head _)
    obtain ⟨b, w1, h1, h2⟩ := VO.runs_bind_iff.1 h
    obtain ⟨o, w2, h3, h4⟩ := VO.runs_bind_iff.1 h1
    obtain ⟨-, -, rfl⟩ := VO.runs_rdObj.1 h3
    cases h4
    refine (outcome_assign (fun t ht => pays_assignRandom (refs _ i n) ht) rfl ho fresh (of_ret h2)).mono fun hb => ?_
    simp only [refs, List.length_map, List.length_range'] at hb
    exact ⟨_, rfl, hb.lt⟩
  | copy d s =>
    obtain ⟨v, hv, ho⟩ := get (.head _)
    obtain ⟨u, hu, ho'⟩ := get (s := s) (.tail _ (.head _))
    obtain ⟨o, w2, h3, h4⟩ := VO.runs_bind_iff.1 (of_ret h)
    obtain ⟨-, h5, rfl⟩ := VO.runs_rdObj.1 h3
    rw [ho'] at h5; cases h5
    refine (outcome_assign (fun t ht => pays_assignRandom (refs _ 0 _) ht) rfl ho fresh h4).mono fun hb => ?_
    simp only [refs, List.length_map, List.length_range'] at hb
    exact ⟨_, ⟨u.els, (contents_iff hi hu).2 rfl, rfl⟩, hb.lt⟩

/-- C85 (vectors): every call reports what was refused, and nothing else; after a refusal it requests nothing more.  Memory is
reported to be missing only if the environment has none, or if the call needs more than an allocator can have: the possible
requests are those of `Asks`.  No other precondition of the calls is needed than that the vectors exist. -/
theorem vector_error_cause (hr : Reach w) (hu : ∀ s, s ∈ c.uses → Alive w s) (h : Runs (exec c) (ready w) r w') :
    Report (∃ n, Asks w c n ∧ maxBytes < n * ElemSize.size V) w w' w'.err := by
  obtain ⟨σ, hi⟩ := hr.inv
  exact (outcome_exec hi hu h).report.ready

theorem Valid.uses (hv : Valid w c) : ∀ s, s ∈ c.uses → Alive w s := by
  intro s hs
  cases c <;> simp only [Call.uses, List.mem_cons, List.not_mem_nil, or_false] at hs
  case copy => exact hs.elim (· ▸ hv.1) (· ▸ hv.2)
  case moveAssign => exact hs.elim (· ▸ hv.1) (· ▸ hv.2.1)
  case swap => exact hs.elim (· ▸ hv.1) (· ▸ hv.2)
  case clear => subst hs; exact hv
  case shrink => subst hs; exact hv
  case assignInput => subst hs; exact hv
  case move => subst hs; exact hv
  case destroy => subst hs; exact hv
  all_goals subst hs; exact hv.1

theorem Hist.handed {env : Env (VCell V)} {h : List (Entry V)} (hh : Hist env h w) : Handed w := by
  induction hh with
  | start => exact fun a ha => absurd rfl ha
  | call _ _ hr ih => exact (Told.exec _ _ _ _ hr rfl).handed ih

/-- C85 (vectors): if addresses are not reused and what the call needs is not more than an allocator can have, a call that is made
correctly returns, and it reports an error exactly if one of its allocation requests or element constructions was refused. -/
theorem vector_error_iff (hr : Reach w) (hv : Valid w c) (hd : Distinct w.env)
    (hn : ∀ n, Asks w c n → n * ElemSize.size V ≤ maxBytes) :
    ∃ r w', Runs (exec c) (ready w) r w' ∧ (w'.err = none ↔ Served w w'.nAlloc ∧ Built w w'.nCtor) := by
  obtain ⟨A, hs⟩ := hr.sim
  obtain ⟨r, w', h1, -⟩ := (hs.call hv).runs
  have h2 := vector_error_cause hr hv.uses h1
  have h3 : Report False w w' w'.err := by
    generalize w'.err = e at h2 ⊢
    cases h2 with
    | success a b => exact .success a b
    | badAlloc k a b c d e =>
      refine .badAlloc k a b c d (e.imp_right ?_)
      rintro ⟨n, h4, h5⟩
      exact absurd (hn n h4) (by omega)
    | ctorFailed k a b c d e => exact .ctorFailed k a b c d e
  obtain ⟨env, h, hh⟩ := hr
  exact ⟨r, w', h1, h3.none_iff hd hh.handed⟩

/-- Inserting two elements at the front of the full vector [3, 1, 2], and copying it. -/
example : ∃ (w : W Nat) (s t : Ptr), Reach w ∧ Distinct w.env ∧ Valid w (.insertVals s 0 [7, 8]) ∧
    Asks w (.insertVals s 0 [7, 8]) 6 ∧ (∀ n, Asks w (.insertVals s 0 [7, 8]) n → n * ElemSize.size Nat ≤ maxBytes) ∧
    Valid w (.copy t s) ∧ Asks w (.copy t s) 3 ∧ ∀ n, Asks w (.copy t s) n → n * ElemSize.size Nat ≤ maxBytes := by
  obtain ⟨w, s, t, u, hr, hg, h1, h2, h3, ha, hb, hu, c1, c2, c3, k1, k2, k3, al⟩ := demo
  refine ⟨w, s, t, hr, fun i j a h5 h6 => hg.inj i j (h5.trans h6.symm), ⟨ha, _, c1, by simp, (.inr fun k _ => hg.ctor k)⟩,
    ⟨_, _, 3, c1, k1, by simp, by simp, rfl⟩, ?_, ⟨hb, ha⟩, ⟨_, c1, rfl⟩, ?_⟩
  · rintro n ⟨L, cap, k, h4, h5, h6, h7, rfl⟩
    obtain ⟨rfl, -⟩ := Runs.det h4 c1
    simp at h7
    have : k = 3 ∨ k = 4 ∨ k < 3 := by omega
    exact Nat.le_trans (Nat.mul_le_mul_right _ (by omega : 3 * (k + 1) / 2 ≤ 8)) (by decide)
  · rintro n ⟨L, h4, rfl⟩
    obtain ⟨rfl, -⟩ := Runs.det h4 c1
    decide

/-- With nothing refused, a request that no allocator can serve is reported: its size is the only cause. -/
example : ∃ (w w' : W Nat) (s : Ptr) (r : Res), Reach w ∧ Good w ∧ Runs (exec (.reserve s (2 ^ 60))) (ready w) r w' ∧
    w'.err = some .badAlloc ∧ Asks w (.reserve s (2 ^ 60)) (2 ^ 60) := by
  obtain ⟨w, s, t, u, hr, hg, h1, h2, h3, ha, hb, hu, c1, c2, c3, k1, k2, k3, al⟩ := demo
  have hn : Countable Nat (2 ^ 60) := (by decide : 2 ^ 60 * 8 < 2 ^ 64)
  obtain ⟨w', h4, ha', -, -, h5, -⟩ := vector_reserve hr ha c1 k1 hn
  refine ⟨w, w', s, _, hr, hg, h4, ?_, _, k1, by decide, rfl⟩
  have h6 := vector_error_cause hr (Valid.uses (c := .reserve s (2 ^ 60)) ⟨ha, hn⟩) h4
  generalize h7 : w'.err = e at h6
  cases h6 with
  | success a b =>
    obtain ⟨σ, hi⟩ := (hr.next (c := .reserve s (2 ^ 60)) ⟨ha, hn⟩ h4).inv
    obtain ⟨v, hv⟩ := (alive_iff hi).1 ha'
    have h8 := (hasCap_iff hi hv).1 (h5 h7)
    have h9 := (hi.st.ok _ _ hv).fits
    rw [← h8] at h9
    exact absurd h9 (by unfold Fits; decide)
  | badAlloc k a b c d e => rfl
  | ctorFailed k a b c d e => rw [hg.ctor] at e; cases e

end Nestl.VC
