import Verif.VectorOf.ThrowsModel
set_option autoImplicit false
/-
Lemmas for C106: what the calls inside the throwing functions do, taken together.
-/
namespace Nestl.VO
open Nestl.Vec (ElemSize newVec getAlloc)
variable {S A X : Type} {E : Elem S A X} {s s' s1 s2 : NS S} {v t u d : Ptr}

/-- Specification: the objects of the client exist as before and have the values they had; there are no others. -/
structure ClientKeeps (E : Elem S A X) (s s' : NS S) : Prop where
  rest : E.rest s'.i = E.rest s.i
  same : ∀ q, ¬ IsElem s' q ∧ E.val s'.i q ≠ none ↔ ¬ IsElem s q ∧ E.val s.i q ≠ none
  vals : ∀ q a, ¬ IsElem s q → E.val s.i q = some a → E.val s'.i q = some a

theorem ClientKeeps.trans (h : ClientKeeps E s s1) (h' : ClientKeeps E s1 s2) : ClientKeeps E s s2 := by
  refine ⟨h'.rest.trans h.rest, fun q => (h'.same q).trans (h.same q), fun q a h1 h2 => ?_⟩
  have h3 := h.vals q a h1 h2
  exact h'.vals q a ((h.same q).2 ⟨h1, by rw [h2]; simp⟩).1 h3

/-- Specification: the vectors for which `P` holds consist of the same objects as before. -/
def ObjsKeep (P : Ptr → Prop) (s s' : NS S) : Prop :=
  ∀ u qs, P u → VC.Alive s.o u → Objs s u qs → VC.Alive s'.o u ∧ Objs s' u qs

theorem ObjsKeep.trans {P : Ptr → Prop} (h : ObjsKeep P s s1) (h' : ObjsKeep P s1 s2) : ObjsKeep P s s2 := fun u qs h0 h1 h2 =>
  let ⟨a1, a2⟩ := h u qs h0 h1 h2
  h' u qs h0 a1 a2

variable [ElemSize Ptr]

/-- Everything about a call that does not move an object of the client. -/
theorem call_all {c : Call} {c' : VC.Call A} (hr : Reach E s) (hv : Valid E s c) (hm : c.Means E.blank (E.val s.i) c')
    (hc : ∀ b q x y, c.After E.blank b q x y → y = x) {B : VC.AState A} (hB : Shows E s B) :
    ∃ r s' B', Runs (exec E.toElemOps c) (ready s) r s' ∧ Reach E s' ∧ ClientKeeps E s s' ∧ Shows E s' B' ∧
      VC.Spec B c' r s'.o.err.isSome B' ∧ ObjsKeep (fun u => ¬ VC.Touches c.addr u) s s' := by
  obtain ⟨r, s', h1, h2⟩ := vectorOf_calls_safe hr hv
  obtain ⟨B', h3, h4⟩ := vectorOf_calls_refine hr hv h1 hm hB
  obtain ⟨k1, k2, k3⟩ := vectorOf_calls_outside hr hv h1
  refine ⟨r, s', B', h1, h2, ⟨k1, k2, fun q a a1 a2 => ?_⟩, h3, h4, fun u qs a0 a1 a2 => vectorOf_references hr hv h1 a0 a1 a2⟩
  obtain ⟨y, hy⟩ := Option.ne_none_iff_exists'.1 ((k2 q).2 ⟨a1, by rw [a2]; simp⟩).2
  rw [hy, hc _ _ _ _ (k3 q a y a1 a2 hy)]

theorem Shows.ready (hr : Reach E s) {B : VC.AState A} (hB : Shows E s B) : Shows E (VO.ready s) B := by
  obtain ⟨σ, h⟩ := hr.inv
  exact h.ready.shows.2 (h.shows.1 hB)

theorem clientKeeps_ready (hr : Reach E s) : ClientKeeps E s (VO.ready s) := by
  obtain ⟨σ, h⟩ := hr.inv
  exact ⟨rfl, fun q => by rw [h.isElem_ready]; rfl, fun _ _ _ h => h⟩

theorem objsKeep_ready (hr : Reach E s) (P : Ptr → Prop) : ObjsKeep P s (VO.ready s) := by
  obtain ⟨σ, h⟩ := hr.inv
  exact fun u qs _ h1 h2 => ⟨h1, (h.objs_ready h1).2 h2⟩

theorem ObjsKeep.weaken {P Q : Ptr → Prop} (h : ObjsKeep P s s') (hq : ∀ u, VC.Alive s.o u → Q u → P u) : ObjsKeep Q s s' :=
  fun u qs h0 h1 h2 => h u qs (hq u h1 h0) h1 h2

/-- A result that is discarded. -/
theorem of_unit' {m : M (NS S) Unit} {r : VC.Res} (h : Runs (do m; pure VC.Res.unit) s r s') : Runs m s () s' := by
  obtain ⟨⟨⟩, s1, h1, h2⟩ := runs_bind_iff.1 h
  cases h2
  exact h1

/-- The copy constructor. -/
theorem copyCtor_all (hr : Reach E s) (ha : VC.Alive s.o t) {B : VC.AState A} (hB : Shows E s B) :
    ∃ r s', Runs (copyCtor E.toElemOps t) (ready s) r s' ∧ Reach E s' ∧ ClientKeeps E s s' ∧ ObjsKeep (fun _ => True) s s' ∧
      s'.o.err = none ∧ (∀ e, r = .error e → Shows E s' B) ∧
      ∀ d, r = .ok d → ∃ al L, B t = some (al, L) ∧ B d = none ∧ Shows E s' (upd B d (some (Vec.defaultAlloc, L))) := by
  obtain ⟨σ, h⟩ := hr.inv
  obtain ⟨y, hy⟩ := (VC.alive_iff h.outer).1 ha
  have hal : Runs (getAlloc t) (ready s).o y.alloc (ready s).o := (VC.hasAlloc_iff h.ready.outer hy).2 rfl
  -- the new vector
  obtain ⟨r1, s1, B1, run1, hr1, ck1, hB1, sp1, ok1⟩ := call_all (c := .create y.alloc) hr ⟨trivial, fun _ k => k.elim⟩ rfl (fun _ _ _ _ k => k) hB
  obtain ⟨he1, d, rfl, hd, rfl⟩ := sp1
  obtain ⟨d', s1', k1, k2⟩ := runs_bind_iff.1 run1
  cases k2
  have had : VC.Alive s1.o d := (hB1.1 d).2 (by rw [upd_same]; simp)
  have hdt : t ≠ d := by rintro rfl; exact (hB.1 t).1 ha hd
  have hat : VC.Alive s1.o t := (hB1.1 t).2 (by rw [upd_other _ _ hdt]; exact (hB.1 t).1 ha)
  have hne : ∀ u, VC.Alive s.o u → u ≠ d := by rintro u hu rfl; exact (hB.1 u).1 hu hd
  -- the copy
  obtain ⟨r2, s2, B2, run2, hr2, ck2, hB2, sp2, ok2⟩ := call_all (c := .copy d t) hr1 ⟨⟨had, hat⟩, fun _ k => k.elim⟩ rfl (fun _ _ _ _ k => k) hB1
  obtain ⟨al, L, bl, M, k, q1, q2, q3, q4, rfl⟩ := sp2
  rw [upd_same] at q1; cases q1
  rw [upd_other _ _ hdt] at q2
  rw [upd_upd] at hB2
  have run2 := of_unit' run2
  have ad2 : VC.Alive s2.o d := (hB2.1 d).2 (by rw [upd_same]; simp)
  have ck : ClientKeeps E s s2 := ck1.trans ck2
  have ok : ObjsKeep (fun u => u ≠ d) s s2 :=
    (ok1.weaken fun u _ _ k => k).trans (ok2.weaken fun u _ k => k)
  cases he : s2.o.err with
  | none =>
    refine ⟨.ok d, ready s2, ?_, hr2.ready ad2, ck.trans (clientKeeps_ready hr2),
      (ok.trans (objsKeep_ready hr2 _)).weaken (fun u k _ => hne u k), rfl, (fun e k => by cases k), ?_⟩
    · unfold copyCtor
      refine runs_bind_iff.2 ⟨_, _, runs_onO hal, runs_bind_iff.2 ⟨_, _, k1, runs_bind_iff.2 ⟨(), ready s1, rfl,
        runs_bind_iff.2 ⟨_, _, run2, runs_bind_iff.2 ⟨none, ready s2, ?_, rfl⟩⟩⟩⟩⟩
      unfold Runs takeErr; rw [he]
    · rintro d' k; cases k
      refine ⟨bl, M, q2, hd, ?_⟩
      have := q4 (by rw [he]; rfl)
      subst this
      rw [List.take_length] at hB2
      exact hB2.ready hr2
  | some e =>
    obtain ⟨r3, s3, B3, run3, hr3, ck3, hB3, sp3, ok3⟩ := call_all (c := .destroy d) hr2 ⟨ad2, fun _ k => k.elim⟩ rfl (fun _ _ _ _ k => k) hB2
    obtain ⟨p1, al, L, -, rfl⟩ := sp3
    refine ⟨.error e, s3, ?_, hr3, ck.trans ck3, (ok.trans (ok3.weaken fun u _ k => k)).weaken (fun u k _ => hne u k),
      (by cases k : s3.o.err with
        | none => rfl
        | some _ => rw [k] at p1; cases p1), fun e' _ => ?_, fun d' k => by cases k⟩
    · unfold copyCtor
      refine runs_bind_iff.2 ⟨_, _, runs_onO hal, runs_bind_iff.2 ⟨_, _, k1, runs_bind_iff.2 ⟨(), ready s1, rfl,
        runs_bind_iff.2 ⟨_, _, run2, runs_bind_iff.2 ⟨some e, ready s2, ?_, runs_bind_iff.2 ⟨(), s3, of_unit' run3, rfl⟩⟩⟩⟩⟩⟩
      unfold Runs takeErr; rw [he]
    · rw [upd_upd, upd_self _ _ _ hd] at hB3
      exact hB3

/-- The copy assignment. -/
theorem copyAssign_all (hr : Reach E s) (hs : VC.Alive s.o v) (ha : VC.Alive s.o t) {B : VC.AState A} (hB : Shows E s B) :
    ∃ r s', Runs (copyAssign E.toElemOps v t) (ready s) r s' ∧ Reach E s' ∧ ClientKeeps E s s' ∧ ObjsKeep (fun u => u ≠ v) s s' ∧
      (∀ e, r = .error e → Shows E s' B ∧ ObjsKeep (fun _ => True) s s') ∧
      (r = .ok () → ∃ al L, B t = some (al, L) ∧ Shows E s' (upd B v (some (Vec.defaultAlloc, L)))) := by
  obtain ⟨r1, s1, run1, hr1, ck1, ok1, he1, e1, o1⟩ := copyCtor_all hr ha hB
  cases r1 with
  | error e =>
    exact ⟨.error e, s1, runs_bind_iff.2 ⟨_, _, run1, rfl⟩, hr1, ck1, ok1.weaken fun _ _ _ => trivial,
      fun e' _ => ⟨e1 e rfl, ok1⟩, fun k => by cases k⟩
  | ok d =>
    obtain ⟨al, L, h1, h2, h3⟩ := o1 d rfl
    have hdv : v ≠ d := by rintro rfl; exact (hB.1 v).1 hs h2
    have av : VC.Alive s1.o v := (h3.1 v).2 (by rw [upd_other _ _ hdv]; exact (hB.1 v).1 hs)
    have ad : VC.Alive s1.o d := (h3.1 d).2 (by rw [upd_same]; simp)
    have hne : ∀ u, VC.Alive s.o u → u ≠ d := by rintro u hu rfl; exact (hB.1 u).1 hu h2
    obtain ⟨r2, s2, B2, run2, hr2, ck2, hB2, sp2, ok2⟩ := call_all (c := .swap v d) hr1 ⟨⟨av, ad⟩, fun _ k => k.elim⟩ rfl (fun _ _ _ _ k => k) h3
    obtain ⟨p2, al2, L2, bl2, M2, q1, q2, rfl⟩ := sp2
    rw [upd_same] at q2; cases q2
    rw [upd_other _ _ hdv] at q1
    have e2 : s2.o.err = none := by
      cases k : s2.o.err with
      | none => rfl
      | some _ => rw [k] at p2; cases p2
    have ad2 : VC.Alive s2.o d := (hB2.1 d).2 (by rw [upd_same]; simp)
    obtain ⟨r3, s3, B3, run3, hr3, ck3, hB3, sp3, ok3⟩ := call_all (c := .destroy d) hr2 ⟨ad2, fun _ k => k.elim⟩ rfl (fun _ _ _ _ k => k) hB2
    obtain ⟨p3, al3, L3, -, rfl⟩ := sp3
    rw [ready_of he1] at run2
    rw [ready_of e2] at run3
    refine ⟨.ok (), s3, runs_bind_iff.2 ⟨_, _, run1, runs_bind_iff.2 ⟨(), s2, of_unit' run2,
      runs_bind_iff.2 ⟨(), s3, of_unit' run3, rfl⟩⟩⟩, hr3, (ck1.trans ck2).trans ck3, ?_, (fun e k => by cases k), fun _ => ⟨al, L, h1, ?_⟩⟩
    · have a1 : ObjsKeep (fun u => u ≠ v ∧ u ≠ d) s s1 := ok1.weaken fun _ _ _ => trivial
      have a2 : ObjsKeep (fun u => u ≠ v ∧ u ≠ d) s1 s2 := ok2.weaken fun u _ k => fun k' => k'.elim k.1 k.2
      have a3 : ObjsKeep (fun u => u ≠ v ∧ u ≠ d) s2 s3 := ok3.weaken fun u _ k => k.2
      exact ((a1.trans a2).trans a3).weaken fun u hu k => ⟨k, hne u hu⟩
    · rw [upd_upd] at hB3
      have : upd (upd (upd B d (some (Vec.defaultAlloc, L))) v (some (Vec.defaultAlloc, L))) d none = upd B v (some (Vec.defaultAlloc, L)) := by
        funext x
        by_cases hx : x = d
        · subst hx; rw [upd_same, upd_other _ _ (Ne.symm hdv), h2]
        · rw [upd_other _ _ hx]
          by_cases hx' : x = v
          · subst hx'; rw [upd_same, upd_same]
          · rw [upd_other _ _ hx', upd_other _ _ hx', upd_other _ _ hx]
      rw [← this]
      exact hB3

end Nestl.VO
