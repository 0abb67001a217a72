import Verif.Set.Refine
set_option autoImplicit false
/-
Helper lemmas of the set property theorems.
-/
namespace Nestl.Set
open Nestl.RB
variable {K : Type} {lt : K → K → Bool} {w w' : W K} {s : Ptr} {k : K} {L : List (Ptr × K)} {c : Call K} {r : Res K}

theorem Reach.step (h : Reach lt w) (hv : Valid w c) :
    ∃ r w', Runs (exec lt c) (ready w) r w' ∧ Reach lt w' ∧ Effect lt (ready w) c r w' := by
  have hI := h.inv
  obtain ⟨env, hh, h⟩ := h
  obtain ⟨r, w', hr, he⟩ := wp.runs (exec_effect hI.ready (Inv.weak hI.ready) (hv.ready hI) rfl)
  exact ⟨r, w', hr, ⟨env, _, .call h hv hr⟩, he⟩

theorem Reach.effect (h : Reach lt w) (hv : Valid w c) (hr : Runs (exec lt c) (ready w) r w') :
    Reach lt w' ∧ Effect lt (ready w) c r w' := by
  obtain ⟨r', w'', h1, h2, h3⟩ := h.step hv
  obtain ⟨rfl, rfl⟩ := Nestl.Runs.det hr h1
  exact ⟨h2, h3⟩

/-- The contents of a live set. -/
theorem Reach.contents (h : Reach lt w) (ha : Alive w s) : ∃ L, Contents w s L := by
  obtain ⟨i, o, t, rfl, _, ht, _⟩ := h.inv.tree ha
  exact ⟨_, (contents_iff ht).2 rfl⟩

theorem Reach.tree (h : Reach lt w) (ha : Alive w s) (hc : Contents w s L) :
    ∃ o t, Tree w.heap s o t ∧ L = t.nodes := by
  obtain ⟨i, o, t, rfl, _, ht, _⟩ := h.inv.tree ha
  exact ⟨o, t, ht, (contents_iff ht).1 hc⟩

/-- Only one element of a sorted sequence is equivalent to a key. -/
theorem ecut_le_one (hw : SWO lt) {A M B : List (Ptr × K)} (hs : Sorted lt (A ++ (M ++ B)))
    (hM : ∀ m ∈ M, lt m.2 k = false ∧ lt k m.2 = false) : M.length ≤ 1 := by
  match M with
  | [] => simp
  | [_] => simp
  | x :: y :: M =>
    exfalso
    simp only [Sorted, List.pairwise_append, List.cons_append, List.pairwise_cons, List.mem_cons] at hs
    have h1 := hs.2.1.1 y (Or.inl rfl)
    have hx := hM x (by simp)
    have hy := hM y (by simp)
    rcases hw.cotrans _ k _ h1 with h | h
    · rw [hx.1] at h; cases h
    · rw [hy.2] at h; cases h

/-- Which set objects a call may modify. -/
def Touches : Call K → Ptr → Prop
  | .create _, _ => False
  | .insert s _, x => x = s
  | .eraseKey s _, x => x = s
  | .eraseAt s _, x => x = s
  | .eraseRange s _ _, x => x = s
  | .clear s, x => x = s
  | .find _ _, _ => False
  | .copy _ d s, x => x = d ∧ d ≠ s
  | .move s, x => x = s
  | .destroy s, x => x = s

theorem EffectS.frame {S : Prop} {P : List (Ptr × K) → Prop} (h : EffectS S lt w c r w') (hI : InvP P w) {x : Ptr} {o : Nat} {t : T K} (hx : Tree w.heap x o t)
    (hn : ¬ Touches c x) : Tree w'.heap x o t := by
  obtain ⟨i, rfl⟩ := hx.ok.hdr
  cases h with
  | create hc he => exact hc.other hI hx
  | insertOld ht _ _ _ hh => rw [hh]; exact hx
  | insertFail ht _ _ hh => rw [hh]; exact hx
  | insertNew ht ht' _ _ _ hc => exact hc.other hI ht hn hx ht'
  | eraseKey ht ht' _ _ _ hc => exact hc.other hI ht hn hx ht'
  | eraseAt ht ht' _ _ hc => exact hc.other hI ht hn hx ht'
  | eraseRange ht ht' _ _ hc => exact hc.other hI ht hn hx ht'
  | clear ht ht' hc => exact hc.other hI ht hn hx ht'
  | findNone _ _ _ _ hh => rw [hh]; exact hx
  | findSome _ _ _ _ hh => rw [hh]; exact hx
  | copySelf he => subst he; exact hx
  | copyFail hne ht hs ht' hc => exact hc.other hI ht (fun e => hn ⟨e, hne⟩) hx ht'
  | copyOk hne ht hs ht' hl hc => exact hc.other hI ht (fun e => hn ⟨e, hne⟩) hx ht'
  | move ht hc => exact hc.other hI ht hx hn
  | destroy ht hc => exact hc.other hI ht hx hn

theorem _root_.Nestl.RB.Tree.ready {o : Nat} {t : T K} (h : Tree w.heap s o t) : Tree (Set.ready w).heap s o t := h

theorem wp_walkBackFrom {hdr : Ptr} {o : Nat} {t : T K} {A B : List (Ptr × K)} (h : Tree w.heap hdr o t)
    (hn : t.nodes = A ++ B) {Q : List (Ptr × K) → W K → Prop} (hQ : Q A.reverse w) :
    wp (walkBackFrom (firstP hdr B) (firstP hdr t.nodes)) w Q := by
  induction hlen : A.length generalizing A B Q with
  | zero =>
    obtain rfl := List.length_eq_zero_iff.1 hlen
    rw [List.nil_append] at hn
    rw [walkBackFrom, hn]
    simp only [if_true, wp_pure]
    exact hQ
  | succ n ih =>
    rcases List.eq_nil_or_concat A with rfl | ⟨A', ⟨p, kp⟩, rfl⟩
    · simp at hlen
    · rw [List.concat_eq_append] at hn hQ hlen
      have hn' : t.nodes = A' ++ (p, kp) :: B := by rw [hn]; simp
      have hne : firstP hdr B ≠ firstP hdr t.nodes := by
        have hnd := h.ok.nodup
        have hhd : hdr ∉ t.ptrs := by
          intro e
          obtain ⟨a, ha⟩ := h.ok.dyn _ e
          obtain ⟨i, hi⟩ := h.ok.hdr
          rw [ha] at hi; cases hi
        rw [T.ptrs, hn] at hnd hhd
        rw [hn]
        cases A' with
        | nil =>
          cases B with
          | nil => simp at hhd ⊢; exact fun e => hhd e
          | cons b B => simp at hnd ⊢; grind
        | cons a A' =>
          cases B with
          | nil => simp at hhd ⊢; exact hhd.1
          | cons b B => simp at hnd ⊢; grind
      rw [walkBackFrom]
      refine wp_if_neg hne ?_
      rw [wp_bind]
      have hdec : ∀ {Q : Ptr → W K → Prop}, Q p w → wp (decrement (firstP hdr B)) w Q := by
        intro Q hQ
        cases B with
        | nil =>
          have ht : t ≠ .nil := by rintro rfl; simp [T.nodes] at hn
          refine wp_decrement_end (Tree.toZ (ctx := []) h) ht ?_
          simp only [plug, hn]
          simpa using hQ
        | cons b B =>
          obtain ⟨q, kq⟩ := b
          refine wp_decrement' (A := A' ++ [(p, kp)]) h (k := kq) (B := B) hn (by simp) ?_
          simpa using hQ
      refine hdec ?_
      rw [wp_bind]
      rw [wp_keyOf_mem h hn', wp_bind]
      have := ih (A := A') (B := (p, kp) :: B) (Q := fun x w => Q ((p, kp) :: x) w) hn' (by simpa using hQ) (by simp at hlen; exact hlen)
      simpa using this

end Nestl.Set
