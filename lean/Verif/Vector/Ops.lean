import Verif.Vector.State
set_option autoImplicit false
/-
The effect of reallocation and insertion on a set of vectors.
-/
namespace Nestl.Vec
variable {V : Type} [ElemSize V] {w w' : W V} {σ : Sg V} {s t p : Ptr} {v u : Vec V} {n m pos : Nat} {x : V} {a : Arg V}

theorem Adv.same {w w' : W V} (he : w'.env = w.env) (hsp : w.sp ≤ w'.sp) (ha : w.nAlloc ≤ w'.nAlloc) (hc : w.nCtor ≤ w'.nCtor)
    (hh : ∀ a, w'.heap (.dyn a) ≠ none → w.heap (.dyn a) ≠ none) : Adv w w' :=
  ⟨he, hsp, ha, hc, fun a h => .inl (hh a h)⟩

omit [ElemSize V] in
theorem Vals.refs {h : Ptr → Option (VCell V)} {ow c : Nat} (hp : p ≠ .null) (xs : List V) :
    ∀ {X Y : List (Option V)} {i : Nat}, h p = some (.blk ⟨X ++ (xs.map some ++ Y), ow, c⟩) → i = X.length →
    Vals h (Vec.refs p i xs.length) xs := by
  induction xs with
  | nil => intro X Y i _ _; exact .nil
  | cons x xs ih =>
    intro X Y i hb hi
    have e : Vec.refs (V := V) p i (x :: xs).length = .ref p i :: Vec.refs p (i + 1) xs.length := by
      simp [Vec.refs, List.range'_succ]
    rw [e]
    refine .cons ⟨hp, _, hb, ?_⟩ (ih (X := X ++ [some x]) (Y := Y) (by simpa using hb) (by simp [hi]))
    simp [hi]

theorem St.refs {h : Ptr → Option (VCell V)} (hst : St h σ) (hs : σ s = some v) : Vals h (refs v.start 0 v.els.length) v.els := by
  have hok := hst.ok _ _ hs
  rcases hok.blk with ⟨h1, h2⟩ | ⟨⟨a, h1⟩, h2⟩
  · have hl := hok.len
    have : v.els = [] := List.length_eq_zero_iff.1 (by omega)
    rw [this]; exact .nil
  · exact Vals.refs (by rw [h1]; simp) v.els (X := []) (by exact h2) rfl

omit [ElemSize V] in
theorem slotsOf_full (xs : List V) : slotsOf xs xs.length = xs.map some := by simp [slotsOf]

/-- How an attempt to give the vector `s` a block for `n` elements ends. -/
inductive Reserved (w : W V) (σ : Sg V) (s : Ptr) (v : Vec V) (n : Nat) : W V → Prop
  | noRoom : NoRoom w n → Reserved w σ s v n { w with nAlloc := w.nAlloc + 1, err := some .badAlloc }
  | copyFailed (j : Nat) : j < v.els.length → ¬ NoRoom w n → CtorsOk w j → w.env.ctor (w.nCtor + j) = false →
      Reserved w σ s v n { w with nAlloc := w.nAlloc + 1, nCtor := w.nCtor + j + 1, err := some .ctorFailed }
  | ok (b : Nat) (h' : Ptr → Option (VCell V)) : ¬ NoRoom w n → CtorsOk w v.els.length → w.heap (.dyn b) = none →
      w.env.addr w.nAlloc = some b → St h' (upd σ s (some { v with start := .dyn b, cap := n })) →
      (∀ q, q ≠ s → q ≠ v.start → w.heap q ≠ none → h' q = w.heap q) →
      (∀ a, h' (.dyn a) ≠ none → w.heap (.dyn a) ≠ none ∨ a = b) →
      (v.start ≠ .null → h' v.start = none) →
      Reserved w σ s v n { w with heap := h', nAlloc := w.nAlloc + 1, nCtor := w.nCtor + v.els.length }

theorem Reserved.adv (h : Reserved w σ s v n w') : Adv w w' := by
  cases h with
  | noRoom _ => exact .same rfl (Nat.le_refl _) (Nat.le_succ _) (Nat.le_refl _) fun _ h => h
  | copyFailed j _ _ _ _ =>
    exact .same rfl (Nat.le_refl _) (Nat.le_succ _) (Nat.le_trans (Nat.le_add_right _ j) (Nat.le_succ _)) fun _ h => h
  | ok b h' _ _ _ h4 _ _ h7 _ =>
    refine ⟨rfl, Nat.le_refl _, Nat.le_succ _, Nat.le_add_right _ _, ?_⟩
    intro a ha
    rcases h7 a ha with h | rfl
    · exact .inl h
    · exact .inr ⟨w.nAlloc, Nat.le_refl _, Nat.lt_succ_self _, h4⟩

theorem wp_destroyAll {h : Ptr → Option (VCell V)} (hok : v.Ok h) (hh : w.heap v.start = h v.start)
    {Q : Unit → W V → Prop}
    (hq : (v.start = .null → Q () w) ∧ (v.start ≠ .null → Q () (w.setHeap (upd w.heap v.start
      (some (.blk ⟨List.replicate v.cap none, v.alloc, v.cap⟩)))))) :
    wp (destroyRange v.start 0 v.els.length) w Q := by
  rcases hok.blk with ⟨h1, h2⟩ | ⟨⟨a, h1⟩, h2⟩
  · have hl := hok.len
    have : v.els = [] := List.length_eq_zero_iff.1 (by omega)
    rw [this]; exact hq.1 h1
  · have hne : v.start ≠ .null := by rw [h1]; simp
    refine wp_destroyRange hne v.els (X := []) (Y := List.replicate (v.cap - v.els.length) none)
      (hh.trans h2) rfl ?_
    have := hq.2 hne
    have hl := hok.len
    simpa [List.replicate_append_replicate, Nat.add_sub_cancel' hl] using this

theorem wp_doReserve (hst : St w.heap σ) (he : w.err = none) (hs : σ s = some v) (hn : v.els.length ≤ n)
    (hw : NoWrap V n) : wp (doReserve s n) w fun _ w' => Reserved w σ s v n w' := by
  have hsn := hst.ne_null hs
  unfold doReserve; simp only [wp_bind]
  rw [wp_rdObj (hst.obj _ _ hs).2 hsn]
  refine wp_allocate hw ?_ ?_
  · intro hr
    simp only [wp_hasErr]
    exact wp_if_pos rfl (.noRoom hr)
  · intro b hroom hfits hb haddr
    simp only [wp_hasErr, he]
    refine wp_if_neg (by simp) ?_
    simp only [wp_bind]
    have hbs : s ≠ .dyn b := by
      obtain ⟨⟨i, rfl⟩, _⟩ := hst.obj _ _ hs; simp
    have hbv : v.start ≠ .dyn b := by
      intro h0
      rcases (hst.ok _ _ hs).blk with ⟨h1, _⟩ | ⟨_, h1⟩
      · rw [h1] at h0; cases h0
      · rw [h0, hb] at h1; cases h1
    refine wp_uninitCopy (p := .dyn b) (X := []) (Y := []) (m := n) (vs := v.els) (ow := v.alloc) (c := n) (by simp) ?_ rfl hn (by simp) rfl ?_ ?_
    · refine (hst.refs hs).imp ?_
      intro a x hx
      cases a with
      | lit y => exact hx
      | ref q i =>
        obtain ⟨h1, c, h2, h3⟩ := hx
        refine ⟨h1, c, ?_, h3⟩
        rw [← h2]; exact upd_other _ _ (fun h0 => by rw [h0, hb] at h2; cases h2)
    · intro hcs
      simp only [wp_hasErr]
      refine wp_if_neg (by simp) ?_
      simp only [wp_bind, List.nil_append, List.append_nil, upd_upd]
      have hcs' : CtorsOk w v.els.length := hcs
      have hok := hst.ok _ _ hs
      have e : (List.map some v.els ++ List.replicate (n - v.els.length) none) = slotsOf v.els n := rfl
      rw [e]
      refine wp_destroyAll hok (by exact upd_other _ _ hbv) ⟨?_, ?_⟩
      · intro h0
        simp only [h0, wp_deallocate_null]
        rw [wp_setObj (c := v.obj) (by simp only [upd_other _ _ hbs]; exact (hst.obj _ _ hs).2) hsn]
        refine he ▸ Reserved.ok b _ hroom hcs' hb haddr ?_ ?_ ?_ ?_
        · refine hst.replace hs (v' := { v with start := .dyn b, cap := n }) hn hfits (by simp) ?_ ?_ ?_ ?_ ?_ ?_
          · intro _; exact .inr ⟨⟨b, rfl⟩, hb⟩
          · exact upd_same _ _ _
          · intro _; show upd _ s _ (Ptr.dyn b) = _; rw [upd_other _ _ (Ne.symm hbs)]; exact upd_same _ _ _
          · intro h1; exact absurd h0 h1
          · intro q h1 _ h3; rw [upd_other _ _ h1]; exact upd_other _ _ h3
          · rw [upd_other _ _ (Ne.symm hsn)]; show upd w.heap (.dyn b) (some (.blk ⟨slotsOf v.els n, v.alloc, n⟩)) .null = none; rw [upd_other _ _ (by simp)]; exact hst.null
        · intro q h1 _ h3
          rw [upd_other _ _ h1]; exact upd_other _ _ (fun h4 => h3 (h4 ▸ hb))
        · intro a ha
          by_cases hab : a = b
          · exact .inr hab
          · rw [upd_other _ _ (by obtain ⟨⟨i, rfl⟩, _⟩ := hst.obj _ _ hs; simp)] at ha
            exact .inl fun h5 => ha ((upd_other _ _ (by simpa using hab)).trans h5)
        · intro h1; exact absurd h0 h1
      · intro h0
        obtain ⟨a0, h1⟩ : ∃ a, v.start = .dyn a := by
          rcases hok.blk with ⟨h1, _⟩ | ⟨h1, _⟩
          · exact absurd h1 h0
          · exact h1
        simp only [h1]
        rw [wp_deallocate (i := v.cap) (by simp)]
        have hsa : s ≠ .dyn a0 := by
          obtain ⟨⟨i, rfl⟩, _⟩ := hst.obj _ _ hs; simp
        have hba : (Ptr.dyn b) ≠ .dyn a0 := by rw [← h1]; exact Ne.symm hbv
        rw [wp_setObj (c := v.obj) (by simp only [World.setHeap_heap, upd_upd, upd_other _ _ hsa, upd_other _ _ hbs]; exact (hst.obj _ _ hs).2) hsn]
        simp only [World.setHeap_heap, upd_upd]
        refine he ▸ Reserved.ok b _ hroom hcs' hb haddr ?_ ?_ ?_ ?_
        · refine hst.replace hs (v' := { v with start := .dyn b, cap := n }) hn hfits (by simp) ?_ ?_ ?_ ?_ ?_ ?_
          · intro _; exact .inr ⟨⟨b, rfl⟩, hb⟩
          · simp [Vec.obj]
          · intro _; simp only [upd_other _ _ (Ne.symm hbs), upd_other _ _ hba, upd_same]; rfl
          · intro _ _; rw [h1, upd_other _ _ (Ne.symm hsa), upd_same]
          · intro q h2 h3 h4
            rw [upd_other _ _ h2, upd_other _ _ (by rw [← h1]; exact h3)]; exact upd_other _ _ h4
          · rw [upd_other _ _ (Ne.symm hsn), upd_other _ _ (by simp)]; show upd w.heap (.dyn b) _ .null = none; rw [upd_other _ _ (by simp)]; exact hst.null
        · intro q h2 h3 h4
          rw [upd_other _ _ h2, upd_other _ _ (by rw [← h1]; exact h3)]; exact upd_other _ _ (fun h5 => h4 (h5 ▸ hb))
        · intro a ha
          by_cases hab : a = b
          · exact .inr hab
          · left
            intro h5
            apply ha
            rw [upd_other _ _ (by obtain ⟨⟨i, rfl⟩, _⟩ := hst.obj _ _ hs; simp)]
            by_cases ha0 : a = a0
            · rw [ha0, upd_same]
            · rw [upd_other _ _ (by simpa using ha0), upd_other _ _ (by simpa using hab)]; exact h5
        · intro _; rw [h1, upd_other _ _ (Ne.symm hsa), upd_same]
    · intro j hj hcs hcf
      simp only [wp_hasErr]
      refine wp_if_pos rfl ?_
      rw [wp_deallocate (i := n) (by simp)]
      have : upd (upd w.heap (.dyn b) (some (.blk ⟨List.replicate n none, v.alloc, n⟩))) (.dyn b) none = w.heap := by
        rw [upd_upd]; exact upd_self _ _ _ hb
      simp only [World.setHeap, this]
      exact .copyFailed j hj hroom hcs hcf

/-- The capacity `grow` asks for. -/
def growTo (cap required : Nat) : Nat := max ((cap + 1) * 3 / 2) required

theorem growTo_gt {cap required : Nat} : cap < growTo cap required := by unfold growTo; omega

theorem growTo_noWrap {cap required : Nat} (hc : Fits V cap) (hr : NoWrap V required) : NoWrap V (growTo cap required) := by
  unfold growTo
  by_cases hle : (cap + 1) * 3 / 2 ≤ required
  · rw [Nat.max_eq_right hle]; exact hr
  · rw [Nat.max_eq_left (by omega)]
    unfold Fits maxBytes at hc; unfold NoWrap
    have hs := ElemSize.small (V := V)
    have h1 : 2 * ((cap + 1) * 3 / 2) * ElemSize.size V ≤ (cap + 1) * 3 * ElemSize.size V :=
      Nat.mul_le_mul_right _ (by omega)
    have h2 : (cap + 1) * 3 * ElemSize.size V = 3 * (cap * ElemSize.size V) + 3 * ElemSize.size V := by
      rw [Nat.add_mul, Nat.add_mul, Nat.mul_right_comm]; omega
    rw [Nat.mul_assoc] at h1
    omega

theorem wp_reserve (hst : St w.heap σ) (he : w.err = none) (hs : σ s = some v) (hw : NoWrap V n)
    {Q : Unit → W V → Prop} (hle : n ≤ v.cap → Q () w) (hgt : v.cap < n → ∀ w', Reserved w σ s v n w' → Q () w') :
    wp (reserve s n) w Q := by
  unfold reserve; simp only [wp_bind]
  rw [wp_rdObj (hst.obj _ _ hs).2 (hst.ne_null hs)]
  by_cases h : n ≤ v.cap
  · exact wp_if_pos h (hle h)
  · refine wp_if_neg h (wp_mono (wp_doReserve hst he hs ?_ hw) fun _ w' h' => hgt (by omega) w' h')
    have := (hst.ok _ _ hs).len; omega

theorem wp_shrinkToFit (hst : St w.heap σ) (he : w.err = none) (hs : σ s = some v)
    {Q : Unit → W V → Prop} (hle : v.cap = v.els.length → Q () w)
    (hgt : v.els.length < v.cap → ∀ w', Reserved w σ s v v.els.length w' → Q () w') :
    wp (shrinkToFit s) w Q := by
  unfold shrinkToFit; simp only [wp_bind]
  rw [wp_rdObj (hst.obj _ _ hs).2 (hst.ne_null hs)]
  have hok := hst.ok _ _ hs
  have hl := hok.len
  by_cases h : v.cap > v.els.length
  · refine wp_if_pos h (wp_mono (wp_doReserve hst he hs (Nat.le_refl _) ?_) fun _ w' h' => hgt h w' h')
    exact hok.fits.noWrap.mono hl
  · exact wp_if_neg h (hle (by omega))

theorem wp_grow (hst : St w.heap σ) (he : w.err = none) (hs : σ s = some v) (hw : NoWrap V n) :
    wp (grow s n) w fun _ w' => Reserved w σ s v (growTo v.cap n) w' := by
  unfold grow; simp only [wp_bind]
  rw [wp_rdObj (hst.obj _ _ hs).2 (hst.ne_null hs)]
  have hf := (hst.ok _ _ hs).fits
  have hc := hf.le
  have e : (if wrap (wrap (v.cap + 1) * 3) / 2 < n then n else wrap (wrap (v.cap + 1) * 3) / 2) = growTo v.cap n := by
    have h1 : wrap (v.cap + 1) = v.cap + 1 := Nat.mod_eq_of_lt (by omega)
    have h2 : wrap ((v.cap + 1) * 3) = (v.cap + 1) * 3 := Nat.mod_eq_of_lt (by omega)
    rw [h1, h2]; unfold growTo
    split <;> omega
  simp only [e, wp_assertM, decide_eq_true_eq]
  refine ⟨growTo_gt, ?_⟩
  refine wp_reserve hst he hs (growTo_noWrap hf hw) ?_ fun _ w' h' => h'
  intro h; have := @growTo_gt v.cap n; omega

/-- Before inserting: the vector as it is if it has spare capacity, with a larger block otherwise. -/
structure Room (w : W V) (σ : Sg V) (s : Ptr) (v : Vec V) (v1 : Vec V) (w1 : W V) : Prop where
  st : St w1.heap (upd σ s (some v1))
  adv : Adv w w1
  err : w1.err = none
  sp : w1.sp = w.sp
  els : v1.els = v.els
  alloc : v1.alloc = v.alloc
  spare : v.els.length < v1.cap
  some : v1.start ≠ .null
  keep : v.els.length < v.cap → v1 = v ∧ w1 = w
  grown : v.els.length = v.cap → v1.cap = growTo v.cap (v.cap + 1) ∧ w1.nAlloc = w.nAlloc + 1 ∧
    w1.nCtor = w.nCtor + v.els.length ∧ v1.start ≠ v.start ∧ w.heap v1.start = none ∧ (v.start ≠ .null → w1.heap v.start = none) ∧
    ¬ NoRoom w (growTo v.cap (v.cap + 1)) ∧ CtorsOk w v.els.length
  frame : ∀ q, q ≠ s → q ≠ v.start → w.heap q ≠ none → w1.heap q = w.heap q

theorem wp_growIfFull (hst : St w.heap σ) (he : w.err = none) (hs : σ s = some v) {Q : Bool → W V → Prop}
    (hfail : v.els.length = v.cap → ∀ w', Reserved w σ s v (growTo v.cap (v.cap + 1)) w' → w'.err ≠ none → Q true w')
    (hok : ∀ v1 w1, Room w σ s v v1 w1 → Q false w1) : wp (growIfFull s) w Q := by
  unfold growIfFull; simp only [wp_bind]
  rw [wp_rdObj (hst.obj _ _ hs).2 (hst.ne_null hs)]
  have hokv := hst.ok _ _ hs
  by_cases h : v.cap = v.els.length
  · refine wp_if_pos h ?_
    simp only [wp_bind]
    have hc := hokv.fits.le
    have h1 : wrap (v.cap + 1) = v.cap + 1 := Nat.mod_eq_of_lt (by omega)
    rw [h1]
    have hnw : NoWrap V (v.cap + 1) := by
      have hs := ElemSize.small (V := V)
      have := hokv.fits
      unfold Fits maxBytes at this
      unfold NoWrap; rw [Nat.add_mul]; omega
    refine wp_mono (wp_grow hst he hs hnw) ?_
    intro _ w' hr
    rw [wp_hasErr]
    have hadv := hr.adv
    cases hr with
    | noRoom h1 => exact hfail h.symm _ (.noRoom h1) (by simp)
    | copyFailed j h1 h2 h3 h4 => exact hfail h.symm _ (.copyFailed j h1 h2 h3 h4) (by simp)
    | ok b h' h1 h2 h3 h4 h5 h6 h7 h8 =>
      simp only [he, Option.isSome_none]
      refine hok { v with start := .dyn b, cap := growTo v.cap (v.cap + 1) } _ ⟨h5, he ▸ hadv, rfl, rfl, rfl, rfl, ?_, by simp, ?_, ?_, h6⟩
      · have := @growTo_gt v.cap (v.cap + 1); simp only; omega
      · intro h0; omega
      · intro _
        refine ⟨rfl, rfl, rfl, ?_, h3, h8, h1, h2⟩
        intro h0
        rcases hokv.blk with ⟨h9, _⟩ | ⟨_, h9⟩
        · rw [h9] at h0; cases h0
        · rw [← h0] at h9; simp only at h9; rw [h3] at h9; cases h9
  · refine wp_if_neg h ?_
    have hl := hokv.len
    refine hok v w ⟨by rw [upd_self _ _ _ hs]; exact hst, .refl w, he, rfl, rfl, rfl, by omega, ?_, fun _ => ⟨rfl, rfl⟩, fun h0 => by omega, fun _ _ _ _ => rfl⟩
    intro h0
    rcases hokv.blk with ⟨_, h1⟩ | ⟨⟨a, h1⟩, _⟩
    · omega
    · rw [h0] at h1; cases h1

/-- The argument is not an element of the vector `v`, or an element before `pos` while `v` has spare capacity. -/
def Apart (v : Vec V) (pos : Nat) : Arg V → Prop
  | .lit _ => True
  | .ref p i => p = v.start → v.els.length < v.cap ∧ i < pos

/-- How `insert_value` at `pos` ends (`r` is the result). -/
inductive Inserted (w : W V) (σ : Sg V) (s : Ptr) (v : Vec V) (pos : Nat) (x : V) : Nat → W V → Prop
  /-- no memory, or relocation failed -/
  | refused (w' : W V) : v.els.length = v.cap → Reserved w σ s v (growTo v.cap (v.cap + 1)) w' → w'.err ≠ none →
      Inserted w σ s v pos x v.els.length w'
  /-- the first construction after relocation failed -/
  | failed (v1 : Vec V) (w1 : W V) : Room w σ s v v1 w1 → w1.env.ctor w1.nCtor = false →
      Inserted w σ s v pos x v.els.length { w1 with nCtor := w1.nCtor + 1, err := some .ctorFailed }
  /-- a construction failed after `j` elements have been shifted -/
  | broken (v1 : Vec V) (w1 : W V) (j : Nat) : Room w σ s v v1 w1 → 0 < j → j ≤ v.els.length - pos →
      CtorsOk w1 j → w1.env.ctor (w1.nCtor + j) = false →
      Inserted w σ s v pos x v.els.length { w1 with
        heap := upd w1.heap v1.start (some (.blk ⟨(v.els.take (v.els.length - j)).map some ++
          none :: ((v.els.drop (v.els.length - j)).map some ++ List.replicate (v1.cap - v.els.length - 1) none),
          v1.alloc, v1.cap⟩)),
        nCtor := w1.nCtor + j + 1, err := some .ctorFailed }
  | ok (v1 : Vec V) (w1 : W V) (h' : Ptr → Option (VCell V)) : Room w σ s v v1 w1 → CtorsOk w1 (v.els.length - pos + 1) →
      St h' (upd σ s (some { v1 with els := v.els.take pos ++ x :: v.els.drop pos })) →
      (∀ q, q ≠ s → q ≠ v1.start → h' q = w1.heap q) →
      Inserted w σ s v pos x pos { w1 with heap := h', nCtor := w1.nCtor + (v.els.length - pos + 1) }

omit [ElemSize V] in
theorem Val.mono {h h' : Ptr → Option (VCell V)} (hv : Val h a x) (hr : ∀ p i, a = .ref p i → h' p = h p) : Val h' a x := by
  cases a with
  | lit y => exact hv
  | ref p i =>
    obtain ⟨h1, b, h2, h3⟩ := hv
    exact ⟨h1, b, (hr p i rfl).trans h2, h3⟩

/-- The memory after `insert_value` has made place for an element: an empty slot at `pos`. -/
def Gap (h : Ptr → Option (VCell V)) (v : Vec V) (pos : Nat) (v1 : Vec V) (w1 : W V) : Prop :=
  (∀ q, q ≠ v1.start → h q = w1.heap q) ∧
    h v1.start = some (.blk ⟨(v.els.take pos).map some ++ none :: ((v.els.drop pos).map some ++
      List.replicate (v1.cap - v.els.length - 1) none), v1.alloc, v1.cap⟩)

/-- `insert_value` if the argument denotes `x` when its element is constructed. -/
theorem wp_insertValue' (hst : St w.heap σ) (he : w.err = none) (hs : σ s = some v) (hpos : pos ≤ v.els.length)
    (hval : ∀ v1 w1, Room w σ s v v1 w1 → ∀ h', Gap h' v pos v1 w1 → Val h' a x) :
    wp (insertValue s pos a) w fun r w' => Inserted w σ s v pos x r w' := by
  unfold insertValue; simp only [wp_bind]
  rw [wp_rdObj (hst.obj _ _ hs).2 (hst.ne_null hs)]
  simp only [wp_assertM, decide_eq_true_eq]
  refine ⟨hpos, ?_⟩
  refine wp_growIfFull hst he hs ?_ ?_
  · intro h1 w' h2 h3
    exact wp_if_pos rfl (.refused w' h1 h2 h3)
  · intro v1 w1 hr
    refine wp_if_neg (by simp) ?_
    simp only [wp_bind]
    have hs1 : upd σ s (some v1) s = some v1 := upd_same _ _ _
    have hsn := hst.ne_null hs
    have hspare := hr.spare
    have he1 := hr.err
    rw [wp_rdObj (hr.st.obj _ _ hs1).2 hsn]
    simp only [wp_assertM, decide_eq_true_eq, hr.els]
    refine ⟨hr.spare, ?_⟩
    have hblk : w1.heap v1.start = some v1.blk := by
      rcases (hr.st.ok _ _ hs1).blk with ⟨h1, _⟩ | ⟨_, h1⟩
      · exact absurd h1 hr.some
      · exact h1
    have hne : s ≠ v1.start := hr.st.stk_ne hs1 hs1
    have hsl : slotsOf v1.els v1.cap = (v.els.take pos).map some ++ ((v.els.drop pos).map some ++
        none :: List.replicate (v1.cap - v.els.length - 1) none) := by
      unfold slotsOf
      rw [hr.els, ← List.append_assoc, ← List.map_append, List.take_append_drop, ← List.replicate_succ]
      congr 2; omega
    have hb : w1.heap v1.start = some (.blk ⟨(v.els.take pos).map some ++ ((v.els.drop pos).map some ++
        none :: List.replicate (v1.cap - v.els.length - 1) none), v1.alloc, v1.cap⟩) := by
      rw [hblk]; unfold Vec.blk; rw [hsl]
    refine wp_shift hr.some (v.els.length - pos) (M := v.els.drop pos) (by simp) he1 hb (by simp; omega) ?_ ?_
    · intro hcs
      refine wp_if_neg (by simp) ?_
      simp only [wp_bind, wp_hasErr]
      refine wp_construct (v := x) (X := (v.els.take pos).map some)
        (Y := (v.els.drop pos).map some ++ List.replicate (v1.cap - v.els.length - 1) none) (ow := v1.alloc) (c := v1.cap)
        ?_ (by simp) hr.some (by simp; omega) ?_ ?_
      · exact hval v1 w1 hr _ ⟨fun q hq => upd_other _ _ hq, upd_same _ _ _⟩
      · intro hc
        simp only [he1]
        refine wp_if_neg (by simp) ?_
        simp only [wp_bind]
        rw [wp_setObj (c := v1.obj) (by simp only [upd_other _ _ hne]; exact (hr.st.obj _ _ hs1).2) hsn]
        simp only [wp_pure]
        have key := hr.st.inPlace hs1 (els := v.els.take pos ++ x :: v.els.drop pos) (by simp; omega) hr.some
        have e1 : Vec.blk { v1 with els := v.els.take pos ++ x :: v.els.drop pos } = .blk ⟨(v.els.take pos).map some ++
            some x :: ((v.els.drop pos).map some ++ List.replicate (v1.cap - v.els.length - 1) none), v1.alloc, v1.cap⟩ := by
          unfold Vec.blk slotsOf
          simp only [List.map_append, List.map_cons, List.append_assoc, List.cons_append]
          congr 5
          simp; omega
        have e2 : Vec.obj { v1 with els := v.els.take pos ++ x :: v.els.drop pos } =
            .obj ⟨v1.alloc, v1.start, v.els.length + 1, v1.cap⟩ := by
          unfold Vec.obj
          have : (v.els.take pos ++ x :: v.els.drop pos).length = v.els.length + 1 := by simp; omega
          rw [this]
        have hcs1 : CtorsOk w1 (v.els.length - pos + 1) := by
          intro k hk
          by_cases hkl : k < v.els.length - pos
          · exact hcs k hkl
          · have : k = v.els.length - pos := by omega
            rw [this]; exact hc
        rw [upd_upd] at key
        rw [e1, e2] at key
        have := Inserted.ok v1 w1 _ hr hcs1 key (pos := pos) (x := x) (by
          intro q h1 h2; rw [upd_other _ _ h1, upd_other _ _ h2])
        simpa [World.setHeap, he1, Nat.add_assoc] using this
      · intro hc
        refine wp_if_pos rfl ?_
        simp only [wp_pure]
        by_cases h0 : v.els.length - pos = 0
        · have hp : pos = v.els.length := by omega
          have := Inserted.failed (x := x) (pos := pos) v1 w1 hr (by simpa [h0] using hc)
          subst hp
          simp only [Nat.sub_self, Nat.add_zero, List.drop_length, List.map_nil, List.nil_append, List.take_length] at hb ⊢
          rw [upd_self _ _ _ hb]; exact this
        · have := Inserted.broken (x := x) (pos := pos) v1 w1 (v.els.length - pos) hr (by omega) (Nat.le_refl _) hcs hc
          have e : v.els.length - (v.els.length - pos) = pos := by omega
          rw [e] at this
          exact this
    · intro j hj hcs hcf
      refine wp_if_pos rfl ?_
      simp only [wp_pure]
      by_cases h0 : j = 0
      · subst h0
        have := Inserted.failed (x := x) (pos := pos) v1 w1 hr (by simpa using hcf)
        have e1 : (v.els.drop pos).take (v.els.length - pos - 0) = v.els.drop pos := List.take_of_length_le (by simp)
        have e2 : (v.els.drop pos).drop (v.els.length - pos - 0) = [] := List.drop_eq_nil_of_le (by simp)
        rw [e1, e2, List.map_nil, List.nil_append, upd_self _ _ _ hb]
        exact this
      · have := Inserted.broken (x := x) (pos := pos) v1 w1 j hr (by omega) (by omega) hcs hcf
        have e1 : v.els.take (v.els.length - j) = v.els.take pos ++ (v.els.drop pos).take (v.els.length - pos - j) := by
          have : v.els.length - j = pos + (v.els.length - pos - j) := by omega
          rw [this, List.take_add]
        have e2 : v.els.drop (v.els.length - j) = (v.els.drop pos).drop (v.els.length - pos - j) := by
          rw [List.drop_drop]; congr 1; omega
        rw [e1, e2] at this
        simpa using this

theorem room_blk {v1 : Vec V} {w1 : W V} (hr : Room w σ s v v1 w1) (hpos : pos ≤ v.els.length) :
    w1.heap v1.start = some (.blk ⟨(v.els.take pos).map some ++ ((v.els.drop pos).map some ++
        none :: List.replicate (v1.cap - v.els.length - 1) none), v1.alloc, v1.cap⟩) := by
  have hs1 : upd σ s (some v1) s = some v1 := upd_same _ _ _
  have hspare := hr.spare
  have hblk : w1.heap v1.start = some v1.blk := by
    rcases (hr.st.ok _ _ hs1).blk with ⟨h1, _⟩ | ⟨_, h1⟩
    · exact absurd h1 hr.some
    · exact h1
  have hsl : slotsOf v1.els v1.cap = (v.els.take pos).map some ++ ((v.els.drop pos).map some ++
      none :: List.replicate (v1.cap - v.els.length - 1) none) := by
    unfold slotsOf
    rw [hr.els, ← List.append_assoc, ← List.map_append, List.take_append_drop, ← List.replicate_succ]
    congr 2; omega
  rw [hblk]; unfold Vec.blk; rw [hsl]

theorem wp_insertValue (hst : St w.heap σ) (he : w.err = none) (hs : σ s = some v) (hpos : pos ≤ v.els.length)
    (hv : Val w.heap a x) (hap : Apart v pos a) :
    wp (insertValue s pos a) w fun r w' => Inserted w σ s v pos x r w' := by
  refine wp_insertValue' hst he hs hpos ?_
  intro v1 w1 hr h' hgap
  have hb := room_blk hr hpos
  obtain ⟨hh, hY⟩ := hgap
  cases a with
  | lit y => exact hv
  | ref q i =>
    obtain ⟨hq, b, hbq, hi⟩ := hv
    have hqs : q ≠ s := by
      intro h0; rw [h0, (hst.obj _ _ hs).2] at hbq; cases hbq
    by_cases hqv : q = v.start
    · obtain ⟨h1, h2⟩ := hap hqv
      obtain ⟨rfl, rfl⟩ := hr.keep h1
      subst hqv
      refine ⟨hq, _, hY, ?_⟩
      rw [hb] at hbq; cases hbq
      have hlen : i < ((v1.els.take pos).map some).length := by simp; omega
      simp only at hi ⊢
      rw [List.getElem?_append_left hlen] at hi ⊢
      exact hi
    · have hq1 : q ≠ v1.start := by
        intro h0
        by_cases hfull : v.els.length = v.cap
        · have := (hr.grown hfull).2.2.2.2.1
          rw [← h0, hbq] at this; cases this
        · have := (hst.ok _ _ hs).len
          obtain ⟨rfl, _⟩ := hr.keep (by omega)
          exact hqv h0
      exact ⟨hq, b, by rw [hh _ hq1, hr.frame _ hqs hqv (by simp [hbq])]; exact hbq, hi⟩

/-- `insert_value` if nothing is refused and the argument cannot be used when its element is constructed. -/
theorem faults_insertValue {f : Fault} (hst : St w.heap σ) (he : w.err = none) (hs : σ s = some v) (hpos : pos ≤ v.els.length)
    (hg : Good w) (hfit : v.els.length = v.cap → Fits V (growTo v.cap (v.cap + 1)))
    (hval : ∀ v1 w1, Room w σ s v v1 w1 → ∀ h' n, Gap h' v pos v1 w1 → Faults (argVal a) { w1 with heap := h', nCtor := n } f) :
    Faults (insertValue s pos a) w f := by
  unfold insertValue
  refine wp.faults_bind ?_
  rw [wp_rdObj (hst.obj _ _ hs).2 (hst.ne_null hs)]
  refine wp.faults_bind ?_
  simp only [wp_assertM, decide_eq_true_eq]
  refine ⟨hpos, wp.faults_bind ?_⟩
  refine wp_growIfFull hst he hs ?_ ?_
  · intro h1 w' h2 h3
    cases h2 with
    | noRoom h4 => exact absurd h4 (Good.room hg (hfit h1))
    | copyFailed j h4 h5 h6 h7 => rw [hg.ctor] at h7; cases h7
    | ok => exact absurd he h3
  · intro v1 w1 hr
    refine Faults.if_neg (by simp) ?_
    have hs1 : upd σ s (some v1) s = some v1 := upd_same _ _ _
    have hg1 := hr.adv.good hg
    refine wp.faults_bind ?_
    rw [wp_rdObj (hr.st.obj _ _ hs1).2 (hst.ne_null hs)]
    refine wp.faults_bind ?_
    simp only [wp_assertM, decide_eq_true_eq, hr.els]
    refine ⟨hr.spare, wp.faults_bind ?_⟩
    refine wp_shift hr.some (v.els.length - pos) (M := v.els.drop pos) (by simp) hr.err (room_blk hr hpos) (by simp; omega) ?_ ?_
    · intro hcs
      refine Faults.if_neg (by simp) ?_
      refine Faults.bind ?_
      unfold construct
      refine Faults.bind ?_
      exact hval v1 w1 hr _ _ ⟨fun q hq => upd_other _ _ hq, upd_same _ _ _⟩
    · intro j hj hcs hcf
      rw [hg1.ctor] at hcf; cases hcf

end Nestl.Vec
