import Verif.Vector.Ops3
import Verif.Vector.Client
set_option autoImplicit false
/-
Every call of the vector API does to the vectors what the specification says.
-/
namespace Nestl.VC
open Nestl.Vec
variable {V : Type} [ElemSize V] {w w' : W V} {σ : Sg V} {s t : Ptr} {v u : Vec V} {x : V}

/-- The memory holds the vectors `σ`; stack slots from `sp` on are free. -/
structure Inv (w : W V) (σ : Sg V) : Prop where
  st : St w.heap σ
  top : ∀ i, w.sp ≤ i → σ (.stk i) = none

def abs (σ : Sg V) : AState V := fun s => (σ s).map fun v => (v.alloc, v.els)

omit [ElemSize V] in
theorem abs_some (hs : σ s = some v) : abs σ s = some (v.alloc, v.els) := by simp [abs, hs]

omit [ElemSize V] in
theorem abs_none : abs σ s = none ↔ σ s = none := by simp [abs]

omit [ElemSize V] in
theorem abs_inv {a : Nat} {L : List V} (h : abs σ s = some (a, L)) : ∃ v, σ s = some v ∧ v.alloc = a ∧ v.els = L := by
  unfold abs at h
  cases hs : σ s with
  | none => rw [hs] at h; cases h
  | some v => rw [hs] at h; cases h; exact ⟨v, rfl, rfl, rfl⟩

omit [ElemSize V] in
theorem abs_upd (v : Vec V) : abs (upd σ s (some v)) = upd (abs σ) s (some (v.alloc, v.els)) := by
  funext x; simp only [abs, upd_apply]; split <;> rfl

omit [ElemSize V] in
theorem abs_upd_none : abs (upd σ s none) = upd (abs σ) s none := by
  funext x; simp only [abs, upd_apply]; split <;> rfl

omit [ElemSize V] in
theorem abs_same (hs : σ s = some v) (ha : u.alloc = v.alloc) (hl : u.els = v.els) : abs (upd σ s (some u)) = abs σ := by
  rw [abs_upd, upd_self]
  rw [abs_some hs, ha, hl]

/-- The program state `w` holds the vectors `A`. -/
def Sim (w : W V) (A : AState V) : Prop := ∃ σ, Inv w σ ∧ A = abs σ

theorem Inv.set (h : Inv w σ) (hs : σ s = some v) (hst : St w'.heap (upd σ s (some u))) (hsp : w.sp ≤ w'.sp) :
    Inv w' (upd σ s (some u)) := by
  refine ⟨hst, fun i hi => ?_⟩
  have h1 := h.top i (Nat.le_trans hsp hi)
  rw [upd_other _ _ (by rintro rfl; rw [hs] at h1; cases h1)]
  exact h1

/-! ### What a client observes -/

omit [ElemSize V] in
theorem runs_pure {α : Type} {m : M (W V) α} {r : α} (h : wp m w fun a w' => a = r ∧ w' = w) {a : α} : Runs m w a w ↔ a = r := by
  obtain ⟨r', w', hr, rfl, rfl⟩ := h.runs
  exact ⟨fun hc => (Runs.det hc hr).1, by rintro rfl; exact hr⟩

theorem wp_walkFrom (h : Inv w σ) (hs : σ s = some v) : ∀ (n i : Nat), i + n = v.els.length →
    wp (walkFrom s i n) w fun r w' => r = v.els.drop i ∧ w' = w := by
  intro n
  induction n with
  | zero => intro i hi; exact ⟨(List.drop_eq_nil_of_le (by omega)).symm, rfl⟩
  | succ n ih =>
    intro i hi
    have h1 : i < v.els.length := by omega
    simp only [walkFrom, wp_bind]
    refine wp_at h.st hs (List.getElem?_eq_getElem h1) ?_
    refine wp_mono (ih (i + 1) (by omega)) ?_
    rintro r w' ⟨rfl, rfl⟩
    exact ⟨(List.drop_eq_getElem_cons h1).symm, rfl⟩

theorem wp_walk (h : Inv w σ) (hs : σ s = some v) : wp (walk s) w fun r w' => r = v.els ∧ w' = w := by
  unfold walk size; simp only [wp_bind]
  rw [wp_rdObj (h.st.obj _ _ hs).2 (h.st.ne_null hs)]
  exact wp_walkFrom h hs _ 0 (by simp)

theorem wp_iterateFrom (h : Inv w σ) (hs : σ s = some v) : ∀ (n i : Nat), i + n = v.els.length →
    wp (iterateFrom v.start i n) w fun r w' => r = v.els.drop i ∧ w' = w := by
  intro n
  induction n with
  | zero => intro i hi; exact ⟨(List.drop_eq_nil_of_le (by omega)).symm, rfl⟩
  | succ n ih =>
    intro i hi
    have h1 : i < v.els.length := by omega
    simp only [iterateFrom, wp_bind]
    rw [wp_slot h.st hs (List.getElem?_eq_getElem h1)]
    refine wp_mono (ih (i + 1) (by omega)) ?_
    rintro r w' ⟨rfl, rfl⟩
    exact ⟨(List.drop_eq_getElem_cons h1).symm, rfl⟩

theorem wp_iterateBackFrom (h : Inv w σ) (hs : σ s = some v) : ∀ (n : Nat), n ≤ v.els.length →
    wp (iterateBackFrom v.start n) w fun r w' => r = (v.els.take n).reverse ∧ w' = w := by
  intro n
  induction n with
  | zero => intro _; exact ⟨by simp, rfl⟩
  | succ n ih =>
    intro hn
    have hx : v.els[n]? = some v.els[n] := List.getElem?_eq_getElem (by omega)
    simp only [iterateBackFrom, wp_bind]
    rw [wp_slot h.st hs hx]
    refine wp_mono (ih (by omega)) ?_
    rintro r w' ⟨rfl, rfl⟩
    refine ⟨?_, rfl⟩
    have : v.els.take (n + 1) = v.els.take n ++ [v.els[n]] := by rw [List.take_add_one, hx]; rfl
    rw [this, List.reverse_append]; rfl

theorem wp_iterateBack (h : Inv w σ) (hs : σ s = some v) : wp (iterateBack s) w fun r w' => r = v.els.reverse ∧ w' = w := by
  unfold iterateBack; simp only [wp_bind]
  rw [wp_rdObj (h.st.obj _ _ hs).2 (h.st.ne_null hs)]
  have := wp_iterateBackFrom h hs v.els.length (by omega)
  rw [List.take_length] at this
  exact this

theorem wp_iterate (h : Inv w σ) (hs : σ s = some v) : wp (iterate s) w fun r w' => r = v.els ∧ w' = w := by
  unfold iterate; simp only [wp_bind]
  rw [wp_rdObj (h.st.obj _ _ hs).2 (h.st.ne_null hs)]
  exact wp_iterateFrom h hs _ 0 (by simp)

theorem contents_iff (h : Inv w σ) (hs : σ s = some v) {L : List V} : Contents w s L ↔ L = v.els :=
  runs_pure (wp_walk h hs)

theorem hasAlloc_iff (h : Inv w σ) (hs : σ s = some v) {a : Nat} : HasAlloc w s a ↔ a = v.alloc := by
  refine runs_pure ?_
  unfold getAlloc; simp only [wp_bind]
  rw [wp_rdObj (h.st.obj _ _ hs).2 (h.st.ne_null hs)]
  exact ⟨rfl, rfl⟩

theorem hasCap_iff (h : Inv w σ) (hs : σ s = some v) {a : Nat} : HasCap w s a ↔ a = v.cap := by
  refine runs_pure ?_
  unfold capacity; simp only [wp_bind]
  rw [wp_rdObj (h.st.obj _ _ hs).2 (h.st.ne_null hs)]
  exact ⟨rfl, rfl⟩

theorem hasData_iff (h : Inv w σ) (hs : σ s = some v) {p : Ptr} : HasData w s p ↔ p = v.start := by
  refine runs_pure ?_
  unfold begin_; simp only [wp_bind]
  rw [wp_rdObj (h.st.obj _ _ hs).2 (h.st.ne_null hs)]
  exact ⟨rfl, rfl⟩

theorem alive_iff (h : Inv w σ) : Alive w s ↔ ∃ v, σ s = some v := by
  constructor
  · rintro ⟨i, rfl, hi⟩
    rcases h.st.cover (.stk i) hi with h1 | ⟨t, u, ht, h2, _⟩
    · exact Option.ne_none_iff_exists'.1 h1
    · rcases (h.st.ok _ _ ht).blk with ⟨h3, _⟩ | ⟨⟨b, h3⟩, _⟩ <;> rw [h3] at h2 <;> cases h2
  · rintro ⟨v, hs⟩
    obtain ⟨⟨i, rfl⟩, hd⟩ := h.st.obj s v hs
    exact ⟨i, rfl, by rw [hd]; simp⟩

theorem spare_iff (h : Inv w σ) (hs : σ s = some v) : Spare w s ↔ v.els.length < v.cap := by
  constructor
  · rintro ⟨L, c, h1, h2, h3⟩
    rw [(contents_iff h hs).1 h1, (hasCap_iff h hs).1 h2] at h3; exact h3
  · intro h1
    exact ⟨_, _, (contents_iff h hs).2 rfl, (hasCap_iff h hs).2 rfl, h1⟩

theorem sameAlloc_iff (h : Inv w σ) (hs : σ s = some v) (ht : σ t = some u) : SameAlloc w s t ↔ v.alloc = u.alloc := by
  constructor
  · rintro ⟨a, h1, h2⟩
    rw [← (hasAlloc_iff h hs).1 h1, ← (hasAlloc_iff h ht).1 h2]
  · intro h1
    exact ⟨_, (hasAlloc_iff h hs).2 rfl, (hasAlloc_iff h ht).2 h1⟩

/-- The argument and the value it denotes. -/
theorem wp_evalArg (h : Inv w σ) {a : CArg V} (ha : ArgOk w a) {Q : Arg V → W V → Prop}
    (hq : ∀ b x, Val w.heap b x → ArgIs (abs σ) x a → (∀ y, b = .lit y → ∃ z, a = .val z) →
      (∀ p i, b = .ref p i → ∃ t u, a = .elem t i ∧ σ t = some u ∧ p = u.start ∧ i < u.els.length) → Q b w) : wp (evalArg a) w Q := by
  cases a with
  | val y => exact hq _ y rfl rfl (fun _ _ => ⟨_, rfl⟩) (by intro p i h0; cases h0)
  | elem t i =>
    obtain ⟨hal, L, hL, hi⟩ := ha
    obtain ⟨u, hu⟩ := (alive_iff h).1 hal
    obtain rfl := (contents_iff h hu).1 hL
    unfold evalArg; simp only [wp_bind]
    rw [wp_rdObj (h.st.obj _ _ hu).2 (h.st.ne_null hu)]
    simp only [wp_assertM, wp_pure, decide_eq_true_eq]
    have h1 := List.getElem?_eq_getElem hi
    refine ⟨hi, hq _ u.els[i] (h.st.val hu h1) ⟨u.alloc, u.els, abs_some hu, h1⟩ (by intro y h0; cases h0) ?_⟩
    rintro p j h0
    cases h0
    exact ⟨t, u, rfl, hu, rfl, hi⟩

theorem far_of_foreign (h : Inv w σ) (hs : σ s = some v) {a : CArg V} {b : Arg V} (hf : Foreign s a)
    (hb : ∀ p i, b = .ref p i → ∃ t u, a = .elem t i ∧ σ t = some u ∧ p = u.start ∧ i < u.els.length) : Far v b := by
  intro p i h0 h1
  obtain ⟨t, u, rfl, h2, rfl, h3⟩ := hb p i h0
  refine hf (h.st.disj _ _ _ _ h2 hs h1 ?_)
  intro h4
  have h5 := h.st.ok _ _ h2
  have := h5.len
  rcases h5.blk with ⟨_, h6⟩ | ⟨⟨b, h6⟩, _⟩
  · omega
  · rw [h6] at h4; cases h4

/-! ### Calls -/

/-- The outcome of a call. -/
def Post (w : W V) (A : AState V) (c : Call V) (r : Res) (w' : W V) : Prop :=
  ∃ A', Spec A c r w'.err.isSome A' ∧ Sim w' A' ∧ Adv w w'

omit [ElemSize V] in
theorem ne_of_apply {x y : Ptr} (hx : σ x ≠ none) (hy : σ y = none) : x ≠ y := by
  rintro rfl; exact hx hy

/-- Which objects a call may modify.  (A vector that is copied, or elements of which are copied, is only read.) -/
def Touches : Call V → Ptr → Prop
  | .create _, _ => False
  | .pushBack s _, x | .insert s _ _, x | .insertVals s _ _, x | .clear s, x | .reserve s _, x | .shrink s, x => x = s
  | .resize s _ _, x | .assignN s _ _, x | .assignVals s _, x | .assignInput s _, x | .assignSub s _ _ _, x => x = s
  | .copy d _, x => x = d
  | .move s, x | .destroy s, x => x = s
  | .moveAssign s t, x | .swap s t, x => x = s ∨ x = t

/-- The effect of a call; other vectors also keep their blocks. -/
def FPost (w : W V) (σ : Sg V) (c : Call V) (r : Res) (w' : W V) : Prop :=
  ∃ σ', Inv w' σ' ∧ Spec (abs σ) c r w'.err.isSome (abs σ') ∧ Adv w w' ∧ ∀ x, ¬ Touches c x → σ x ≠ none → σ' x = σ x

theorem FPost.post {c : Call V} {r : Res} (h : FPost w σ c r w') : Post w (abs σ) c r w' := by
  obtain ⟨σ', h1, h2, h3, -⟩ := h
  exact ⟨_, h2, ⟨σ', h1, rfl⟩, h3⟩

theorem FPost.mk' {c : Call V} {r : Res} {σ' : Sg V} (h : Inv w' σ')
    (hadv : Adv w w') (hsp : Spec (abs σ) c r w'.err.isSome (abs σ'))
    (hfr : ∀ x, ¬ Touches c x → σ x ≠ none → σ' x = σ x := by
      intro x hn hx
      simp only [Touches, not_or] at hn
      first
      | rfl
      | exact upd_other _ _ hn
      | exact upd_other _ _ hn.1
      | rw [upd_other _ _ hn.2, upd_other _ _ hn.1]
      | exact upd_other _ _ (ne_of_apply hx (by assumption))
      | rw [upd_other _ _ (ne_of_apply hx (by assumption)), upd_other _ _ hn]) : FPost w σ c r w' :=
  ⟨σ', h, hsp, hadv, hfr⟩

omit [ElemSize V] in
theorem isSome_none (h : w.err = none) : w.err.isSome = false := by simp [h]

omit [ElemSize V] in
theorem isSome_some (h : w.err ≠ none) : w.err.isSome = true := by cases h' : w.err <;> simp_all

omit [ElemSize V] in
theorem isSome_iff : w.err.isSome = true ↔ w.err ≠ none := by cases w.err <;> simp

omit [ElemSize V] in
theorem isSome_false : w.err.isSome = false ↔ w.err = none := by cases w.err <;> simp

theorem sim_create (h : Inv w σ) (he : w.err = none) (a : Nat) :
    wp (exec (.create a)) w (FPost w σ (.create a)) := by
  unfold exec; simp only [wp_bind]
  have hd := h.top w.sp (Nat.le_refl _)
  refine wp_newVec h.st hd a ?_
  intro h' hst hfr
  refine FPost.mk' (σ' := upd σ (.stk w.sp) (some (bare a))) ⟨hst, ?_⟩ ?_ ?_
  · intro i hi
    simp only at hi
    rw [upd_other _ _ (by simp; omega)]
    exact h.top i (by omega)
  · refine .same rfl (Nat.le_succ _) (Nat.le_refl _) (Nat.le_refl _) ?_
    intro b hb h0; exact hb ((hfr _ (by simp)).trans h0)
  · exact ⟨isSome_none he, _, rfl, abs_none.2 hd, abs_upd _⟩

theorem apart_push (h : Inv w σ) (hs : σ s = some v) {a : CArg V} {b : Arg V} (hf : Foreign s a ∨ Spare w s)
    (href : ∀ p i, b = .ref p i → ∃ t u, a = .elem t i ∧ σ t = some u ∧ p = u.start ∧ i < u.els.length) :
    Apart v v.els.length b := by
  rcases hf with hf | hf
  · exact (far_of_foreign h hs hf href).apart
  · cases b with
    | lit y => trivial
    | ref p i =>
      intro h0
      obtain ⟨t, u, rfl, h2, h3, h4⟩ := href p i rfl
      have : t = s := h.st.disj _ _ _ _ h2 hs (h3.symm.trans h0) (by
        intro h5
        have h6 := h.st.ok _ _ h2
        have := h6.len
        rcases h6.blk with ⟨_, h7⟩ | ⟨⟨c, h7⟩, _⟩
        · omega
        · rw [h7] at h5; cases h5)
      subst this
      rw [hs] at h2; cases h2
      exact ⟨(spare_iff h hs).1 hf, h4⟩

theorem apart_insert (h : Inv w σ) (hs : σ s = some v) {i : Nat} {a : CArg V} {b : Arg V}
    (hf : Foreign s a ∨ Spare w s ∧ ∃ j, a = .elem s j ∧ j < i)
    (href : ∀ p i, b = .ref p i → ∃ t u, a = .elem t i ∧ σ t = some u ∧ p = u.start ∧ i < u.els.length) :
    Apart v i b := by
  rcases hf with hf | ⟨hsp, j, rfl, hj⟩
  · exact (far_of_foreign h hs hf href).apart
  · cases b with
    | lit y => trivial
    | ref p i =>
      intro h0
      obtain ⟨t, u, h1, h2, h3, h4⟩ := href p i rfl
      cases h1
      exact ⟨(spare_iff h hs).1 hsp, hj⟩

theorem sim_pushBack (h : Inv w σ) (he : w.err = none) {a : CArg V} (hv : Valid w (.pushBack s a)) :
    wp (exec (.pushBack s a)) w (FPost w σ (.pushBack s a)) := by
  obtain ⟨hal, ha, hf⟩ := hv
  obtain ⟨v, hs⟩ := (alive_iff h).1 hal
  unfold exec; simp only [wp_bind]
  refine wp_evalArg h ha ?_
  intro b x hb hx _ href
  have hap := apart_push h hs hf href
  refine wp_mono (wp_pushBack h.st he hs hb hap) ?_
  rintro _ w' ⟨v', hp⟩
  refine FPost.mk' (h.set hs hp.st hp.adv.sp) hp.adv ⟨v.alloc, v.els, x, abs_some hs, hx, ?_⟩
  by_cases h0 : w'.err = none
  · rw [isSome_none h0, abs_upd, hp.alloc, hp.appended h0]; simp
  · rw [isSome_some h0, if_pos rfl]
    exact abs_same hs hp.alloc (hp.bad h0).1

theorem sim_insert (h : Inv w σ) (he : w.err = none) {i : Nat} {a : CArg V} (hv : Valid w (.insert s i a)) :
    wp (exec (.insert s i a)) w (FPost w σ (.insert s i a)) := by
  obtain ⟨hal, ha, ⟨L, hL, hi, hnb⟩, hf⟩ := hv
  obtain ⟨v, hs⟩ := (alive_iff h).1 hal
  obtain rfl := (contents_iff h hs).1 hL
  unfold exec; simp only [wp_bind]
  refine wp_evalArg h ha ?_
  intro b x hb hx _ href
  have hap := apart_insert h hs hf href
  refine wp_mono (wp_insert h.st he hs hi hb hap hnb) ?_
  rintro r w' ⟨v', hp⟩
  refine FPost.mk' (h.set hs hp.st hp.adv.sp) hp.adv ⟨v.alloc, v.els, x, abs_some hs, hx, hi, ?_⟩
  by_cases h0 : w'.err = none
  · obtain ⟨h1, rfl⟩ := hp.ok h0
    rw [isSome_none h0, abs_upd, hp.alloc, h1]; simp
  · obtain ⟨h1, rfl⟩ := hp.bad h0
    rw [isSome_some h0, if_pos rfl]
    exact ⟨rfl, abs_same hs hp.alloc h1⟩

theorem sim_insertVals (h : Inv w σ) (he : w.err = none) {i : Nat} {vs : List V} (hv : Valid w (.insertVals s i vs)) :
    wp (exec (.insertVals s i vs)) w (FPost w σ (.insertVals s i vs)) := by
  obtain ⟨hal, L, hL, hi, hnb⟩ := hv
  obtain ⟨v, hs⟩ := (alive_iff h).1 hal
  obtain rfl := (contents_iff h hs).1 hL
  unfold exec; simp only [wp_bind]
  refine wp_mono (wp_insertRange h.st he hs hi hnb vs) ?_
  rintro _ w' ⟨k, v', hp⟩
  refine FPost.mk' (h.set hs hp.st hp.adv.sp) hp.adv ⟨v.alloc, v.els, k, abs_some hs, hi, hp.le, ?_, ?_⟩
  · rw [isSome_iff]; exact hp.err
  · rw [abs_upd, hp.alloc, hp.els]

theorem sim_clear (h : Inv w σ) (he : w.err = none) (hv : Valid w (.clear s)) :
    wp (exec (.clear s)) w (FPost w σ (.clear s)) := by
  obtain ⟨v, hs⟩ := (alive_iff h).1 hv
  unfold exec; simp only [wp_bind]
  refine wp_clear h.st hs ?_
  intro w' h1 h2 h3 _ _ _
  refine FPost.mk' (h.set hs h1 h2.sp) h2 ⟨isSome_none (h3.trans he), v.alloc, v.els, abs_some hs, ?_⟩
  rw [abs_upd]

theorem Reserved.step {n : Nat} (hr : Reserved w σ s v n w') (h : Inv w σ) (hs : σ s = some v) (he : w.err = none) :
    ∃ v', Inv w' (upd σ s (some v')) ∧ v'.alloc = v.alloc ∧ v'.els = v.els ∧ (w'.err = none → v'.cap = n) ∧
      (w'.err ≠ none → v' = v ∧ w'.heap = w.heap) := by
  by_cases h0 : w'.err = none
  · obtain ⟨b, h1, h2, h3, h4⟩ := hr.cases_ok h0
    exact ⟨_, h.set hs h1 hr.adv.sp, rfl, rfl, fun _ => rfl, fun h5 => absurd h0 h5⟩
  · obtain ⟨h1, h2, _⟩ := hr.cases_bad h0 he
    refine ⟨v, h.set hs ?_ hr.adv.sp, rfl, rfl, fun h5 => absurd h5 h0, fun _ => ⟨rfl, h1⟩⟩
    rw [upd_self _ _ _ hs, h1]; exact h.st

theorem sim_reserve (h : Inv w σ) (he : w.err = none) {n : Nat} (hv : Valid w (.reserve s n)) :
    wp (exec (.reserve s n)) w (FPost w σ (.reserve s n)) := by
  obtain ⟨hal, hn⟩ := hv
  obtain ⟨v, hs⟩ := (alive_iff h).1 hal
  unfold exec; simp only [wp_bind]
  refine wp_reserve h.st he hs hn ?_ ?_
  · intro _
    exact FPost.mk' h (.refl w) ⟨v.alloc, v.els, abs_some hs, rfl⟩
  · intro _ w' hr
    obtain ⟨v', h1, h2, h3, _⟩ := Reserved.step hr h hs he
    exact FPost.mk' h1 hr.adv ⟨v.alloc, v.els, abs_some hs, abs_same hs h2 h3⟩

theorem sim_shrink (h : Inv w σ) (he : w.err = none) (hv : Valid w (.shrink s)) :
    wp (exec (.shrink s)) w (FPost w σ (.shrink s)) := by
  obtain ⟨v, hs⟩ := (alive_iff h).1 hv
  unfold exec; simp only [wp_bind]
  refine wp_shrinkToFit h.st he hs ?_ ?_
  · intro _
    exact FPost.mk' h (.refl w) ⟨v.alloc, v.els, abs_some hs, rfl⟩
  · intro _ w' hr
    obtain ⟨v', h1, h2, h3, _⟩ := Reserved.step hr h hs he
    exact FPost.mk' h1 hr.adv ⟨v.alloc, v.els, abs_some hs, abs_same hs h2 h3⟩

/-- What growing by `resize_nothrow` gives. -/
theorem Resized.step {n : Nat} (hr : Resized w σ s v n x w') (h : Inv w σ) (hs : σ s = some v) (he : w.err = none)
    (hn : v.els.length < n) : ∃ v' k, Inv w' (upd σ s (some v')) ∧ Adv w w' ∧ v'.alloc = v.alloc ∧ v.els.length + k ≤ n ∧
      v'.els = v.els ++ List.replicate k x ∧ (w'.err ≠ none ↔ v.els.length + k < n) := by
  cases hr with
  | refused _ h1 h2 =>
    obtain ⟨v', h3, h4, h5, _⟩ := Reserved.step h1 h hs he
    exact ⟨v', 0, h3, h1.adv, h4, by omega, by simp [h5], fun _ => hn, fun _ => h2⟩
  | filled w1 _ v1 v' k h1 h2 h3 h4 h5 h6 =>
    have hle := h6.le
    rw [List.length_replicate] at hle
    refine ⟨v', k, h.set hs ?_ (Nat.le_trans h1.adv.sp h6.adv.sp), h1.adv.trans h6.adv, h6.alloc.trans h4, by omega, ?_, ?_⟩
    · have := h6.st; rwa [upd_upd] at this
    · rw [h6.els, h3, List.take_replicate, Nat.min_eq_left hle]
    · rw [h6.err, List.length_replicate]; omega

theorem sim_resize (h : Inv w σ) (he : w.err = none) {n : Nat} {a : CArg V} (hv : Valid w (.resize s n a)) :
    wp (exec (.resize s n a)) w (FPost w σ (.resize s n a)) := by
  obtain ⟨hal, ha, hn, hf⟩ := hv
  obtain ⟨v, hs⟩ := (alive_iff h).1 hal
  unfold exec; simp only [wp_bind]
  refine wp_evalArg h ha ?_
  intro b x hb hx _ href
  by_cases hle : n ≤ v.els.length
  · refine wp_resize_cut h.st hs hle ?_
    intro w' h1 h2 h3 h4 _ _
    refine FPost.mk' (h.set hs h1 h2.sp) h2 ⟨v.alloc, v.els, x, abs_some hs, hx, ?_⟩
    rw [if_pos hle, abs_upd]
    exact ⟨isSome_none (h3.trans he), rfl⟩
  · have hf : Foreign s a := by
      rcases hf with hf | ⟨L, h1, h2⟩
      · exact hf
      · rw [(contents_iff h hs).1 h1] at h2; exact absurd h2 hle
    refine wp_mono (wp_resize_grow h.st he hs (by omega) hn hb (far_of_foreign h hs hf href)) ?_
    intro _ w' hr
    obtain ⟨v', k, h1, h2, h3, h4, h5, h6⟩ := Resized.step hr h hs he (by omega)
    refine FPost.mk' h1 h2 ⟨v.alloc, v.els, x, abs_some hs, hx, ?_⟩
    rw [if_neg hle, abs_upd, h3, h5]
    exact ⟨k, h4, by rw [isSome_iff]; exact h6, rfl⟩

theorem Assigned.inv {xs : List V} {need k : Nat} (ha : Assigned w σ s xs need k u w') (h : Inv w σ) (hs : σ s = some v) :
    Inv w' (upd σ s (some u)) := h.set hs ha.st ha.adv.sp

theorem Assigned.abs {xs : List V} {need k : Nat} (ha : Assigned w σ s xs need k u w') :
    abs (upd σ s (some u)) = upd (abs σ) s (some (defaultAlloc, xs.take k)) := by
  rw [abs_upd, ha.alloc, ha.els]

theorem sim_assignN (h : Inv w σ) (he : w.err = none) {n : Nat} {a : CArg V} (hv : Valid w (.assignN s n a)) :
    wp (exec (.assignN s n a)) w (FPost w σ (.assignN s n a)) := by
  obtain ⟨hal, ha, hn⟩ := hv
  obtain ⟨v, hs⟩ := (alive_iff h).1 hal
  unfold exec; simp only [wp_bind]
  refine wp_evalArg h ha ?_
  intro b x hb hx _ href
  refine wp_mono (wp_assignN h.st he hs (h.top _ (Nat.le_refl _)) hb hn) ?_
  rintro _ w' ⟨k, v', h1⟩
  have hle := h1.le
  have hok := h1.ok
  rw [List.length_replicate] at hle hok
  refine FPost.mk' (Assigned.inv h1 h hs) h1.adv ⟨v.alloc, v.els, x, k, abs_some hs, hx, hle, ?_, ?_⟩
  · rw [isSome_false]; exact hok
  · rw [Assigned.abs h1, List.take_replicate, Nat.min_eq_left hle]

omit [ElemSize V] in
theorem vals_lit {h : Ptr → Option (VCell V)} (vs : List V) : Vals h (vs.map Arg.lit) vs := by
  induction vs with
  | nil => exact .nil
  | cons v vs ih => exact .cons rfl ih

theorem sim_assignVals (h : Inv w σ) (he : w.err = none) {vs : List V} (hv : Valid w (.assignVals s vs)) :
    wp (exec (.assignVals s vs)) w (FPost w σ (.assignVals s vs)) := by
  obtain ⟨hal, hn⟩ := hv
  obtain ⟨v, hs⟩ := (alive_iff h).1 hal
  unfold exec; simp only [wp_bind]
  refine wp_mono (wp_assignRandom h.st he hs (h.top _ (Nat.le_refl _)) (vals_lit vs) hn) ?_
  rintro _ w' ⟨k, v', h1⟩
  refine FPost.mk' (Assigned.inv h1 h hs) h1.adv ⟨v.alloc, v.els, k, abs_some hs, h1.le, ?_, Assigned.abs h1⟩
  rw [isSome_false]; exact h1.ok

theorem sim_assignInput (h : Inv w σ) (he : w.err = none) {vs : List V} (hv : Valid w (.assignInput s vs)) :
    wp (exec (.assignInput s vs)) w (FPost w σ (.assignInput s vs)) := by
  obtain ⟨v, hs⟩ := (alive_iff h).1 hv
  unfold exec; simp only [wp_bind]
  refine wp_mono (wp_assignInput h.st he hs (h.top _ (Nat.le_refl _)) (vals_lit vs)) ?_
  rintro _ w' ⟨k, v', h1⟩
  refine FPost.mk' (Assigned.inv h1 h hs) h1.adv ⟨v.alloc, v.els, k, abs_some hs, h1.le, ?_, Assigned.abs h1⟩
  rw [isSome_false]; exact h1.ok

theorem vals_sub (h : Inv w σ) (hs : σ s = some v) : ∀ (n i : Nat), i + n ≤ v.els.length →
    Vals w.heap (refs v.start i n) ((v.els.drop i).take n) := by
  intro n
  induction n with
  | zero => intro i _; simpa [refs] using .nil
  | succ n ih =>
    intro i hi
    have h1 : i < v.els.length := by omega
    rw [List.drop_eq_getElem_cons h1, List.take_succ_cons]
    simp only [refs, List.range'_succ, List.map_cons]
    exact .cons (h.st.val hs (List.getElem?_eq_getElem h1)) (ih (i + 1) (by omega))

theorem sim_assignSub (h : Inv w σ) (he : w.err = none) {i n : Nat} (hv : Valid w (.assignSub s t i n)) :
    wp (exec (.assignSub s t i n)) w (FPost w σ (.assignSub s t i n)) := by
  obtain ⟨hal, hat, L, hL, hn⟩ := hv
  obtain ⟨v, hs⟩ := (alive_iff h).1 hal
  obtain ⟨u, ht⟩ := (alive_iff h).1 hat
  obtain rfl := (contents_iff h ht).1 hL
  have hok := h.st.ok _ _ ht
  have hlen : ((u.els.drop i).take n).length = n := by simp; omega
  unfold exec; simp only [wp_bind]
  unfold begin_; simp only [wp_bind]
  rw [wp_rdObj (h.st.obj _ _ ht).2 (h.st.ne_null ht)]
  simp only [wp_pure]
  refine wp_mono (wp_assignRandom h.st he hs (h.top _ (Nat.le_refl _)) (vals_sub h ht n i hn) ?_) ?_
  · have := hok.len
    exact hok.fits.noWrap.mono (by rw [hlen]; omega)
  · rintro _ w' ⟨k, v', h1⟩
    have hle := h1.le
    have hk := h1.ok
    rw [hlen] at hle hk
    refine FPost.mk' (Assigned.inv h1 h hs) h1.adv
      ⟨v.alloc, v.els, u.alloc, u.els, k, abs_some hs, abs_some ht, hn, hle, ?_, ?_⟩
    · rw [isSome_false]; exact hk
    · rw [Assigned.abs h1, List.take_take, Nat.min_eq_left hle]

theorem sim_copy (h : Inv w σ) (he : w.err = none) (hv : Valid w (.copy s t)) :
    wp (exec (.copy s t)) w (FPost w σ (.copy s t)) := by
  obtain ⟨v, hs⟩ := (alive_iff h).1 hv.1
  obtain ⟨u, ht⟩ := (alive_iff h).1 hv.2
  unfold exec; simp only [wp_bind]
  refine wp_mono (wp_copyNothrow h.st he hs ht (h.top _ (Nat.le_refl _))) ?_
  rintro _ w' ⟨k, v', h1⟩
  refine FPost.mk' (Assigned.inv h1 h hs) h1.adv
    ⟨v.alloc, v.els, u.alloc, u.els, k, abs_some hs, abs_some ht, h1.le, ?_, Assigned.abs h1⟩
  rw [isSome_false]; exact h1.ok

theorem Inv.dyn_ne (h : Inv w σ) (hs : σ s = some v) (b : Nat) : Ptr.dyn b ≠ s := by
  obtain ⟨⟨i, rfl⟩, _⟩ := h.st.obj _ _ hs; simp

theorem sim_move (h : Inv w σ) (he : w.err = none) (hv : Valid w (.move s)) :
    wp (exec (.move s)) w (FPost w σ (.move s)) := by
  obtain ⟨v, hs⟩ := (alive_iff h).1 hv
  have hd := h.top w.sp (Nat.le_refl _)
  unfold exec; simp only [wp_bind]
  refine wp_moveCtor h.st hs hd ?_
  intro h' hst hfr
  refine FPost.mk' (σ' := upd (upd σ s (some (bare v.alloc))) (.stk w.sp) (some v)) ⟨hst, ?_⟩ ?_ ?_
  · intro i hi
    simp only at hi
    have h1 := h.top i (by omega)
    rw [upd_other _ _ (by simp; omega), upd_other _ _ (by rintro rfl; rw [hs] at h1; cases h1)]
    exact h1
  · refine .same rfl (Nat.le_succ _) (Nat.le_refl _) (Nat.le_refl _) ?_
    intro b hb h0; exact hb ((hfr _ (h.dyn_ne hs b) (by simp)).trans h0)
  · refine ⟨isSome_none he, _, v.alloc, v.els, rfl, abs_none.2 hd, abs_some hs, ?_⟩
    rw [abs_upd, abs_upd]; rfl

theorem sim_moveAssign (h : Inv w σ) (he : w.err = none) (hv : Valid w (.moveAssign s t)) :
    wp (exec (.moveAssign s t)) w (FPost w σ (.moveAssign s t)) := by
  obtain ⟨hal, hat, hcond⟩ := hv
  obtain ⟨v, hs⟩ := (alive_iff h).1 hal
  obtain ⟨u, ht⟩ := (alive_iff h).1 hat
  have hd := h.top w.sp (Nat.le_refl _)
  unfold exec; simp only [wp_bind]
  refine wp_moveAssign h.st hs ht hd ?_ ?_
  · rcases hcond with h1 | h1 | h1
    · exact .inl h1
    · exact .inr (.inl ((hasData_iff h ht).1 h1).symm)
    · exact .inr (.inr ((sameAlloc_iff h hs ht).1 h1))
  · intro h' hst hdy
    have hadv : Adv w { w with sp := w.sp + 1, heap := h' } :=
      .same rfl (Nat.le_succ _) (Nat.le_refl _) (Nat.le_refl _) hdy
    have htop : ∀ i, w.sp + 1 ≤ i → Ptr.stk i ≠ s ∧ Ptr.stk i ≠ t ∧ σ (.stk i) = none := by
      intro i hi
      have h1 := h.top i (by omega)
      exact ⟨(by rintro rfl; rw [hs] at h1; cases h1), (by rintro rfl; rw [ht] at h1; cases h1), h1⟩
    by_cases hst' : s = t
    · rw [if_pos hst'] at hst
      refine FPost.mk' (σ' := upd σ s (some (bare v.alloc))) ⟨hst, ?_⟩ hadv ?_
      · intro i hi
        obtain ⟨h1, h2, h3⟩ := htop i hi
        rw [upd_other _ _ h1]; exact h3
      · refine ⟨isSome_none he, v.alloc, v.els, u.alloc, u.els, abs_some hs, abs_some ht, ?_⟩
        rw [if_pos hst', abs_upd]; rfl
    · rw [if_neg hst'] at hst
      refine FPost.mk' (σ' := upd (upd σ s (some { u with alloc := v.alloc })) t (some (bare u.alloc))) ⟨hst, ?_⟩ hadv ?_
      · intro i hi
        obtain ⟨h1, h2, h3⟩ := htop i hi
        rw [upd_other _ _ h2, upd_other _ _ h1]; exact h3
      · refine ⟨isSome_none he, v.alloc, v.els, u.alloc, u.els, abs_some hs, abs_some ht, ?_⟩
        rw [if_neg hst', abs_upd, abs_upd]; rfl

theorem sim_swap (h : Inv w σ) (he : w.err = none) (hv : Valid w (.swap s t)) :
    wp (exec (.swap s t)) w (FPost w σ (.swap s t)) := by
  obtain ⟨v, hs⟩ := (alive_iff h).1 hv.1
  obtain ⟨u, ht⟩ := (alive_iff h).1 hv.2
  unfold exec; simp only [wp_bind]
  by_cases hne : s = t
  · subst hne
    refine wp_swap_self h.st hs ?_
    rw [hs] at ht; cases ht
    refine FPost.mk' h (.refl w) ⟨isSome_none he, v.alloc, v.els, v.alloc, v.els, abs_some hs, abs_some hs, ?_⟩
    rw [upd_upd, upd_self _ _ _ (abs_some hs)]
  · refine wp_swap h.st hs ht hne ?_
    intro h' hst hfr
    refine FPost.mk' (σ' := upd (upd σ s (some u)) t (some v)) ⟨hst, ?_⟩ ?_ ?_
    · intro i hi
      have h1 := h.top i hi
      rw [upd_other _ _ (by rintro rfl; rw [ht] at h1; cases h1), upd_other _ _ (by rintro rfl; rw [hs] at h1; cases h1)]
      exact h1
    · refine .same rfl (Nat.le_refl _) (Nat.le_refl _) (Nat.le_refl _) ?_
      intro b hb h0; exact hb ((hfr _ (h.dyn_ne hs b) (h.dyn_ne ht b)).trans h0)
    · refine ⟨isSome_none he, v.alloc, v.els, u.alloc, u.els, abs_some hs, abs_some ht, ?_⟩
      rw [abs_upd, abs_upd]

theorem sim_destroy (h : Inv w σ) (he : w.err = none) (hv : Valid w (.destroy s)) :
    wp (exec (.destroy s)) w (FPost w σ (.destroy s)) := by
  obtain ⟨v, hs⟩ := (alive_iff h).1 hv
  unfold exec; simp only [wp_bind]
  refine wp_destroyVec h.st hs ?_
  intro h' hst _ hdy
  refine FPost.mk' (σ' := upd σ s none) ⟨hst, ?_⟩ ?_ ?_
  · intro i hi
    rw [upd_apply]; split
    · rfl
    · exact h.top i hi
  · exact .same rfl (Nat.le_refl _) (Nat.le_refl _) (Nat.le_refl _) hdy
  · exact ⟨isSome_none he, v.alloc, v.els, abs_some hs, abs_upd_none⟩

theorem exec_fsim (h : Inv w σ) (he : w.err = none) {c : Call V} (hv : Valid w c) : wp (exec c) w (FPost w σ c) := by
  cases c with
  | create a => exact sim_create h he a
  | pushBack s a => exact sim_pushBack h he hv
  | insert s i a => exact sim_insert h he hv
  | insertVals s i vs => exact sim_insertVals h he hv
  | clear s => exact sim_clear h he hv
  | reserve s n => exact sim_reserve h he hv
  | shrink s => exact sim_shrink h he hv
  | resize s n a => exact sim_resize h he hv
  | assignN s n a => exact sim_assignN h he hv
  | assignVals s vs => exact sim_assignVals h he hv
  | assignInput s vs => exact sim_assignInput h he hv
  | assignSub s t i n => exact sim_assignSub h he hv
  | copy d s => exact sim_copy h he hv
  | move s => exact sim_move h he hv
  | moveAssign s t => exact sim_moveAssign h he hv
  | swap s t => exact sim_swap h he hv
  | destroy s => exact sim_destroy h he hv

theorem exec_sim (h : Inv w σ) (he : w.err = none) {c : Call V} (hv : Valid w c) : wp (exec c) w (Post w (abs σ) c) :=
  wp_mono (exec_fsim h he hv) fun _ _ h => h.post

/-! ### Histories -/

theorem Inv.ready (h : Inv w σ) : Inv (ready w) σ := ⟨h.st, h.top⟩

/-- Validity does not depend on the error object. -/
theorem valid_ready (h : Inv w σ) {c : Call V} (hv : Valid w c) : Valid (ready w) c := by
  have kc : ∀ u L, Alive w u → Contents w u L → Contents (ready w) u L := by
    intro u L ha hc
    obtain ⟨lu, hu⟩ := (alive_iff h).1 ha
    exact (contents_iff h.ready hu).2 ((contents_iff h hu).1 hc)
  have ks : ∀ u, Alive w u → Spare w u → Spare (ready w) u := by
    intro u ha hc
    obtain ⟨lu, hu⟩ := (alive_iff h).1 ha
    exact (spare_iff h.ready hu).2 ((spare_iff h hu).1 hc)
  have ka : ∀ a, ArgOk w a → ArgOk (ready w) a := by
    intro a ha
    cases a with
    | val _ => trivial
    | elem t i => obtain ⟨h1, L, h2, h3⟩ := ha; exact ⟨h1, L, kc _ _ h1 h2, h3⟩
  cases c with
  | create a => trivial
  | pushBack s a => exact ⟨hv.1, ka _ hv.2.1, hv.2.2.imp id (ks _ hv.1)⟩
  | insert s i a =>
    obtain ⟨h1, h2, ⟨L, h3, h4, h5⟩, h6⟩ := hv
    exact ⟨h1, ka _ h2, ⟨L, kc _ _ h1 h3, h4, h5⟩, h6.imp id fun h7 => ⟨ks _ h1 h7.1, h7.2⟩⟩
  | insertVals s i vs =>
    obtain ⟨h1, L, h3, h4, h5⟩ := hv
    exact ⟨h1, L, kc _ _ h1 h3, h4, h5⟩
  | clear s => exact hv
  | reserve s n => exact hv
  | shrink s => exact hv
  | resize s n a =>
    obtain ⟨h1, h2, h3, h4⟩ := hv
    refine ⟨h1, ka _ h2, h3, h4.imp id ?_⟩
    rintro ⟨L, h5, h6⟩; exact ⟨L, kc _ _ h1 h5, h6⟩
  | assignN s n a => exact ⟨hv.1, ka _ hv.2.1, hv.2.2⟩
  | assignVals s vs => exact hv
  | assignInput s vs => exact hv
  | assignSub s t i n => obtain ⟨h1, h2, L, h3, h4⟩ := hv; exact ⟨h1, h2, L, kc _ _ h2 h3, h4⟩
  | copy d s => exact hv
  | move s => exact hv
  | moveAssign s t =>
    obtain ⟨h1, h2, h3⟩ := hv
    obtain ⟨v, hs⟩ := (alive_iff h).1 h1
    obtain ⟨u, ht⟩ := (alive_iff h).1 h2
    refine ⟨h1, h2, ?_⟩
    rcases h3 with h3 | h3 | h3
    · exact .inl h3
    · exact .inr (.inl ((hasData_iff h.ready ht).2 ((hasData_iff h ht).1 h3)))
    · exact .inr (.inr ((sameAlloc_iff h.ready hs ht).2 ((sameAlloc_iff h hs ht).1 h3)))
  | swap s t => exact hv
  | destroy s => exact hv

theorem Sim.call {A : AState V} (h : Sim w A) {c : Call V} (hv : Valid w c) : wp (exec c) (ready w) (Post (ready w) A c) := by
  obtain ⟨σ, h1, rfl⟩ := h
  exact exec_sim h1.ready rfl (valid_ready h1 hv)

theorem start_inv (env : Env (VCell V)) : Inv (start env) (fun _ => none) := by
  refine ⟨⟨?_, ?_, ?_, ?_⟩, fun _ _ => rfl⟩
  · intro s v hs; cases hs
  · intro s v hs; cases hs
  · intro s t v u hs; cases hs
  · intro p hp; exact absurd rfl hp

theorem Hist.sim {env : Env (VCell V)} {h : List (Entry V)} (hh : Hist env h w) : ∃ A, SpecRun h A ∧ Sim w A := by
  induction hh with
  | start => exact ⟨_, SpecRun.start, fun _ => none, start_inv env, rfl⟩
  | call _ hv hr ih =>
    obtain ⟨A, hA, hsim⟩ := ih
    obtain ⟨A', hsp, hsim', _⟩ := Runs.wp (hsim.call hv) hr
    exact ⟨A', .call hA hsp, hsim'⟩

theorem Reach.sim (h : Reach w) : ∃ A, Sim w A := by
  obtain ⟨env, h, hh⟩ := h
  obtain ⟨A, _, hs⟩ := hh.sim
  exact ⟨A, hs⟩

theorem Reach.inv (h : Reach w) : ∃ σ, Inv w σ := by
  obtain ⟨A, σ, h1, _⟩ := h.sim
  exact ⟨σ, h1⟩

theorem Reach.next (h : Reach w) {c : Call V} {r : Res} (hv : Valid w c) (hr : Runs (exec c) (ready w) r w') : Reach w' := by
  obtain ⟨env, h, hh⟩ := h
  exact ⟨env, _, hh.call hv hr⟩

end Nestl.VC
