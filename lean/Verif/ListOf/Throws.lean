import Verif.ListOf.ThrowsModel
set_option autoImplicit false
/-
Lemmas for C106: what the calls inside the throwing functions of lists do, taken together.
-/
namespace Nestl.LO
open Nestl.VO (Elem ElemOps runs_bind_iff)
open Nestl.NO
variable {S A X : Type} {E : Elem S A X} {s s' s1 s2 : ST S} {v t u d : Ptr}

/-- Specification: the objects of the client exist as before and have the values they had; there are no others. -/
structure ClientKeeps (E : Elem S A X) (s s' : ST S) : Prop where
  rest : E.rest s'.i = E.rest s.i
  same : ∀ q, ¬ IsElem s' q ∧ E.val s'.i q ≠ none ↔ ¬ IsElem s q ∧ E.val s.i q ≠ none
  vals : ∀ q a, ¬ IsElem s q → E.val s.i q = some a → E.val s'.i q = some a

theorem ClientKeeps.trans (h : ClientKeeps E s s1) (h' : ClientKeeps E s1 s2) : ClientKeeps E s s2 := by
  refine ⟨h'.rest.trans h.rest, fun q => (h'.same q).trans (h.same q), fun q a h1 h2 => ?_⟩
  have h3 := h.vals q a h1 h2
  exact h'.vals q a ((h.same q).2 ⟨h1, by rw [h2]; simp⟩).1 h3

/-- Specification: the lists for which `P` holds consist of the same objects at the same positions as before. -/
def ObjsKeep (P : Ptr → Prop) (s s' : ST S) : Prop :=
  ∀ u qs, P u → LC.Alive s.o u → Objs s u qs → LC.Alive s'.o u ∧ Objs s' u qs

theorem ObjsKeep.trans {P : Ptr → Prop} (h : ObjsKeep P s s1) (h' : ObjsKeep P s1 s2) : ObjsKeep P s s2 := fun u qs h0 h1 h2 =>
  let ⟨a1, a2⟩ := h u qs h0 h1 h2
  h' u qs h0 a1 a2

theorem ObjsKeep.weaken {P Q : Ptr → Prop} (h : ObjsKeep P s s') (hq : ∀ u, LC.Alive s.o u → Q u → P u) : ObjsKeep Q s s' :=
  fun u qs h0 h1 h2 => h u qs (hq u h1 h0) h1 h2

/-- The lists whose positions and values a call keeps consist of the same objects. -/
theorem objsKeep_call {c : Call S} {r : LC.Res} {B B' : LC.AState A} (hr : Reach E s) (hv : Valid E s c)
    (hrun : Runs (exec E.toElemOps c) (ready s) r s') (hB : Shows E s B) (hB' : Shows E s' B') : ObjsKeep (fun u => B' u = B u) s s' := by
  intro u qs h0 h1 h2
  obtain ⟨⟨al, L⟩, hb⟩ := Option.ne_none_iff_exists'.1 ((hB.1 u).1 h1)
  obtain ⟨-, qs1, h3, h4⟩ := hB.2 _ _ _ hb
  obtain rfl := (Runs.det h2 h3).1
  obtain ⟨-, qs', h5, h6⟩ := hB'.2 _ _ _ (h0.trans hb)
  have ha : LC.Alive s'.o u := (hB'.1 u).2 (by rw [h0, hb]; simp)
  have hp : qs'.map Prod.fst = qs.map Prod.fst := by
    have e4 := congrArg (List.map Prod.fst) h4
    have e6 := congrArg (List.map Prod.fst) h6
    simp only [List.map_map] at e4 e6
    exact e6.trans e4.symm
  have : qs' = qs := by
    have hlen : qs'.length = qs.length := by simpa using congrArg List.length hp
    refine List.ext_getElem hlen fun i k1 k2 => ?_
    have hf : qs'[i].1 = qs[i].1 := by
      have := List.getElem_of_eq hp (i := i) (by simpa using k1)
      simpa using this
    have hs : qs'[i].2 = qs[i].2 :=
      listOf_references hr hv hrun (p := qs[i].1) ⟨u, qs, h1, h2, List.getElem_mem k2⟩
        ⟨u, qs', ha, h5, by rw [← hf]; exact List.getElem_mem k1⟩
    exact Prod.ext hf hs
  subst this
  exact ⟨ha, h5⟩

/-- Everything about a call that does not move an object of the client. -/
theorem call_all {c : Call S} {c' : LC.Call A} (hr : Reach E s) (hv : Valid E s c) (hm : c.Means E (E.val s.i) c')
    (hc : ∀ q, ¬ c.moves q) {B : LC.AState A} (hB : Shows E s B) :
    ∃ r s' B', Runs (exec E.toElemOps c) (ready s) r s' ∧ Reach E s' ∧ ClientKeeps E s s' ∧ Shows E s' B' ∧
      LC.Spec B c' r s'.o.err.isSome B' ∧ ObjsKeep (fun u => B' u = B u) s s' := by
  obtain ⟨r, s', h1, h2⟩ := listOf_calls_safe hr hv
  obtain ⟨B', h3, h4⟩ := listOf_calls_refine hr hv h1 hm hB
  obtain ⟨k1, k2, k3⟩ := listOf_calls_outside hr hv h1
  refine ⟨r, s', B', h1, h2, ⟨k1, k2, fun q a a1 a2 => ?_⟩, h3, h4, objsKeep_call hr hv h1 hB h3⟩
  obtain ⟨y, hy⟩ := Option.ne_none_iff_exists'.1 ((k2 q).2 ⟨a1, by rw [a2]; simp⟩).2
  rw [hy, (k3 q a y a1 a2 hy).2 fun k => hc q k.1]

/-- A call without objects of the client. -/
theorem plain {c : Call S} (h : LC.Valid s.o c.addr) (h1 : ∀ q, ¬ c.copies q) (h2 : ∀ q, ¬ c.moves q) (h3 : ∀ f, ¬ c.compares f) :
    Valid E s c := ⟨h, fun q k => (h1 q k).elim, fun q k => (h2 q k).elim, fun f k => (h3 f k).elim⟩

/-- A fresh error object: nothing else changes. -/
theorem Reach.ready (hr : Reach E s) (ha : LC.Alive s.o v) : Reach E (LO.ready s) := by
  obtain ⟨σ, h⟩ := hr.inv
  obtain ⟨y, hy⟩ := (LC.alive_iff h.outer).1 ha
  refine .call (c := .insertN v v 0 .fresh) (r := .unit) hr (plain ⟨ha, LC.view y.els, [], ?_, rfl⟩ (fun _ k => k) (fun _ k => k) fun _ k => k) rfl
  rw [List.append_nil]; exact (LC.contents_iff h.outer hy).2 rfl

theorem Shows.ready (hr : Reach E s) {B : LC.AState A} (hB : Shows E s B) : Shows E (LO.ready s) B := by
  obtain ⟨σ, h⟩ := hr.inv
  exact h.ready.shows.2 (h.shows.1 hB)

theorem objs_ready (hr : Reach E s) (ha : LC.Alive s.o v) {qs : List (Ptr × Ptr)} : Objs (LO.ready s) v qs ↔ Objs s v qs := by
  obtain ⟨σ, h⟩ := hr.inv
  obtain ⟨y, hy⟩ := (LC.alive_iff h.outer).1 ha
  exact (LC.contents_iff h.ready.outer hy).trans (LC.contents_iff h.outer hy).symm

theorem objsKeep_ready (hr : Reach E s) (P : Ptr → Prop) : ObjsKeep P s (LO.ready s) :=
  fun _ _ _ h1 h2 => ⟨h1, (objs_ready hr h1).2 h2⟩

theorem clientKeeps_ready (hr : Reach E s) : ClientKeeps E s (LO.ready s) := by
  have he : ∀ q, IsElem (LO.ready s) q ↔ IsElem s q := by
    intro q
    constructor
    · rintro ⟨v, qs, p, h1, h2, h3⟩
      exact ⟨v, qs, p, h1, (objs_ready hr h1).1 h2, h3⟩
    · rintro ⟨v, qs, p, h1, h2, h3⟩
      exact ⟨v, qs, p, h1, (objs_ready hr h1).2 h2, h3⟩
  exact ⟨rfl, fun q => by rw [he]; rfl, fun _ _ _ h => h⟩

theorem ready_of (h : s.o.err = none) : LO.ready s = s := by
  obtain ⟨o, i⟩ := s
  cases o
  cases h
  rfl

/-- A result that is discarded. -/
theorem of_unit' {m : M (ST S) Unit} {r : LC.Res} (h : Runs (do m; pure LC.Res.unit) s r s') : Runs m s () s' := by
  obtain ⟨⟨⟩, s1, h1, h2⟩ := runs_bind_iff.1 h
  cases h2
  exact h1

theorem err_of (h : s.o.err.isSome = false) : s.o.err = none := by
  cases k : s.o.err with
  | none => rfl
  | some _ => rw [k] at h; cases h

/-- The copy constructor. -/
theorem copyCtor_all (hr : Reach E s) (ha : LC.Alive s.o t) {B : LC.AState A} (hB : Shows E s B) :
    ∃ r s', Runs (copyCtor E.toElemOps t) (ready s) r s' ∧ Reach E s' ∧ ClientKeeps E s s' ∧ ObjsKeep (fun _ => True) s s' ∧
      s'.o.err = none ∧ (∀ e, r = .error e → Shows E s' B) ∧
      ∀ d, r = .ok d → ∃ al L N, B t = some (al, L) ∧ B d = none ∧ LC.NewElems B N (L.map Prod.snd) ∧
        Shows E s' (upd B d (some (LL.defaultAlloc, N))) := by
  -- the new list
  obtain ⟨r1, s1, B1, run1, hr1, ck1, hB1, sp1, ok1⟩ := call_all (c := .create LL.defaultAlloc) hr
    (plain trivial (fun _ k => k) (fun _ k => k) fun _ k => k) rfl (fun _ k => k) hB
  obtain ⟨he1, d, rfl, hd, rfl⟩ := sp1
  obtain ⟨d', s1', k1, k2⟩ := runs_bind_iff.1 run1
  cases k2
  have had : LC.Alive s1.o d := (hB1.1 d).2 (by rw [upd_same]; simp)
  have hdt : t ≠ d := by rintro rfl; exact (hB.1 t).1 ha hd
  have hat : LC.Alive s1.o t := (hB1.1 t).2 (by rw [upd_other _ _ hdt]; exact (hB.1 t).1 ha)
  have hne : ∀ u, LC.Alive s.o u → u ≠ d := by rintro u hu rfl; exact (hB.1 u).1 hu hd
  have hal : LC.HasAlloc s1.o d LL.defaultAlloc := (hB1.2 d _ _ (upd_same _ _ _)).1
  -- the copy
  obtain ⟨r2, s2, B2, run2, hr2, ck2, hB2, sp2, ok2⟩ := call_all (c := .copy d t) hr1
    (plain ⟨had, hat, .inl hal, Ne.symm hdt⟩ (fun _ k => k) (fun _ k => k) fun _ k => k) rfl (fun _ k => k) hB1
  obtain ⟨al, L, bl, M, k, N, q1, q2, q3, q4, q5, rfl⟩ := sp2
  rw [upd_same] at q1; cases q1
  rw [upd_other _ _ hdt] at q2
  rw [upd_upd] at hB2
  have run2 := of_unit' run2
  have ad2 : LC.Alive s2.o d := (hB2.1 d).2 (by rw [upd_same]; simp)
  have ck : ClientKeeps E s s2 := ck1.trans ck2
  have ok : ObjsKeep (fun u => u ≠ d) s s2 :=
    (ok1.weaken fun u _ k => upd_other _ _ k).trans (ok2.weaken fun u _ k => upd_other _ _ k)
  cases he : s2.o.err with
  | none =>
    refine ⟨.ok d, ready s2, ?_, hr2.ready ad2, ck.trans (clientKeeps_ready hr2),
      (ok.trans (objsKeep_ready hr2 _)).weaken (fun u k _ => hne u k), rfl, (fun e k => by cases k), ?_⟩
    · unfold copyCtor
      refine runs_bind_iff.2 ⟨_, _, k1, runs_bind_iff.2 ⟨(), ready s1, rfl,
        runs_bind_iff.2 ⟨_, _, run2, runs_bind_iff.2 ⟨none, ready s2, ?_, rfl⟩⟩⟩⟩
      unfold Runs takeErr; rw [he]
    · rintro d' k; cases k
      have hk : ¬ k < M.length := fun hk => by
        have := q4.2 hk
        rw [he] at this; cases this
      rw [List.take_of_length_le (by rw [List.length_map]; omega)] at q5
      refine ⟨bl, M, N, q2, hd, ⟨q5.1, q5.2.1, fun x hx s0 a0 L0 v0 hs0 => ?_⟩, hB2.ready hr2⟩
      have : s0 ≠ d := by rintro rfl; rw [hd] at hs0; cases hs0
      exact q5.2.2 x hx s0 a0 L0 v0 (by rw [upd_other _ _ this]; exact hs0)
  | some e =>
    obtain ⟨r3, s3, B3, run3, hr3, ck3, hB3, sp3, ok3⟩ := call_all (c := .destroy d) hr2
      (plain ad2 (fun _ k => k) (fun _ k => k) fun _ k => k) rfl (fun _ k => k) hB2
    obtain ⟨p1, al, L, -, rfl⟩ := sp3
    refine ⟨.error e, s3, ?_, hr3, ck.trans ck3, (ok.trans (ok3.weaken fun u _ k => upd_other _ _ k)).weaken (fun u k _ => hne u k),
      err_of p1, fun e' _ => ?_, fun d' k => by cases k⟩
    · unfold copyCtor
      refine runs_bind_iff.2 ⟨_, _, k1, runs_bind_iff.2 ⟨(), ready s1, rfl,
        runs_bind_iff.2 ⟨_, _, run2, runs_bind_iff.2 ⟨some e, ready s2, ?_, runs_bind_iff.2 ⟨(), s3, of_unit' run3, rfl⟩⟩⟩⟩⟩
      unfold Runs takeErr; rw [he]
    · rw [upd_upd, upd_self _ _ _ hd] at hB3
      exact hB3

/-- The copy assignment. -/
theorem copyAssign_all (hr : Reach E s) (hs : LC.Alive s.o v) (hal : LC.HasAlloc s.o v LL.defaultAlloc) (ha : LC.Alive s.o t)
    {B : LC.AState A} (hB : Shows E s B) :
    ∃ r s', Runs (copyAssign E.toElemOps v t) (ready s) r s' ∧ Reach E s' ∧ ClientKeeps E s s' ∧ ObjsKeep (fun u => u ≠ v) s s' ∧
      (∀ e, r = .error e → Shows E s' B ∧ ObjsKeep (fun _ => True) s s') ∧
      (r = .ok () → ∃ al L N, B t = some (al, L) ∧ LC.NewElems B N (L.map Prod.snd) ∧
        Shows E s' (upd B v (some (LL.defaultAlloc, N)))) := by
  obtain ⟨r1, s1, run1, hr1, ck1, ok1, he1, e1, o1⟩ := copyCtor_all hr ha hB
  cases r1 with
  | error e =>
    exact ⟨.error e, s1, runs_bind_iff.2 ⟨_, _, run1, rfl⟩, hr1, ck1, ok1.weaken fun _ _ _ => trivial,
      fun e' _ => ⟨e1 e rfl, ok1⟩, fun k => by cases k⟩
  | ok d =>
    obtain ⟨al, L, N, h1, h2, hN, h3⟩ := o1 d rfl
    have hdv : v ≠ d := by rintro rfl; exact (hB.1 v).1 hs h2
    have av : LC.Alive s1.o v := (h3.1 v).2 (by rw [upd_other _ _ hdv]; exact (hB.1 v).1 hs)
    have ad : LC.Alive s1.o d := (h3.1 d).2 (by rw [upd_same]; simp)
    have hne : ∀ u, LC.Alive s.o u → u ≠ d := by rintro u hu rfl; exact (hB.1 u).1 hu h2
    obtain ⟨⟨av0, Lv⟩, hbv⟩ := Option.ne_none_iff_exists'.1 ((hB.1 v).1 hs)
    obtain rfl : av0 = LL.defaultAlloc := (Runs.det (hB.2 _ _ _ hbv).1 hal).1
    have hsame : LC.SameAlloc s1.o v d := ⟨LL.defaultAlloc, (h3.2 v _ _ (by rw [upd_other _ _ hdv]; exact hbv)).1, (h3.2 d _ _ (upd_same _ _ _)).1⟩
    obtain ⟨r2, s2, B2, run2, hr2, ck2, hB2, sp2, ok2⟩ := call_all (c := .swap v d) hr1
      (plain ⟨av, ad, hsame⟩ (fun _ k => k) (fun _ k => k) fun _ k => k) rfl (fun _ k => k) h3
    obtain ⟨p2, al2, L2, M2, q1, q2, rfl⟩ := sp2
    rw [upd_same] at q2; cases q2
    have ad2 : LC.Alive s2.o d := (hB2.1 d).2 (by rw [upd_same]; simp)
    obtain ⟨r3, s3, B3, run3, hr3, ck3, hB3, sp3, ok3⟩ := call_all (c := .destroy d) hr2
      (plain ad2 (fun _ k => k) (fun _ k => k) fun _ k => k) rfl (fun _ k => k) hB2
    obtain ⟨p3, al3, L3, -, rfl⟩ := sp3
    rw [ready_of he1] at run2
    rw [ready_of (err_of p2)] at run3
    refine ⟨.ok (), s3, runs_bind_iff.2 ⟨_, _, run1, runs_bind_iff.2 ⟨(), s2, of_unit' run2,
      runs_bind_iff.2 ⟨(), s3, of_unit' run3, rfl⟩⟩⟩, hr3, (ck1.trans ck2).trans ck3, ?_, (fun e k => by cases k), fun _ => ⟨al, L, N, h1, hN, ?_⟩⟩
    · have a1 : ObjsKeep (fun u => u ≠ v ∧ u ≠ d) s s1 := ok1.weaken fun _ _ _ => trivial
      have a2 : ObjsKeep (fun u => u ≠ v ∧ u ≠ d) s1 s2 := ok2.weaken fun u _ k => by rw [upd_other _ _ k.2, upd_other _ _ k.1]
      have a3 : ObjsKeep (fun u => u ≠ v ∧ u ≠ d) s2 s3 := ok3.weaken fun u _ k => upd_other _ _ k.2
      exact ((a1.trans a2).trans a3).weaken fun u hu k => ⟨k, hne u hu⟩
    · rw [upd_upd] at hB3
      have : upd (upd (upd B d (some (LL.defaultAlloc, N))) v (some (LL.defaultAlloc, N))) d none = upd B v (some (LL.defaultAlloc, N)) := by
        funext x
        by_cases hx : x = d
        · subst hx; rw [upd_same, upd_other _ _ (Ne.symm hdv), h2]
        · rw [upd_other _ _ hx]
          by_cases hx' : x = v
          · subst hx'; rw [upd_same, upd_same]
          · rw [upd_other _ _ hx', upd_other _ _ hx', upd_other _ _ hx]
      rw [← this]
      exact hB3

end Nestl.LO
