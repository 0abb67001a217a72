import Verif.VectorOf.Leaf
set_option autoImplicit false
/-
Construction and destruction of elements.
-/
namespace Nestl.VO
open Nestl.Vec (W VCell Obj Blk rdObj setObj rdBlk slotRd slotPut deallocate allocate newVec swapData)
open Classical
variable {S A X α β : Type} {E : Elem S A X} {P : NS S → Prop} {u : (Ptr → Option A) × X}

/-- The value that an argument stands for; the objects outside of vectors are `u`. -/
def ArgRel (E : Elem S A X) (u : (Ptr → Option A) × X) : Arg → Vec.Arg A → Prop
  | .obj t, .lit x => u.1 t = some x
  | .ref p j, .ref p' j' => p = p' ∧ j = j'
  | .none, .lit x => x = E.blank
  | _, _ => False

theorem runs_tryCtor {w : W A} (b : Bool) (h : w.env.ctor w.nCtor = b) : Runs tryCtor w b
    { w with nCtor := w.nCtor + 1, err := if b then w.err else some .ctorFailed } := by
  unfold Runs tryCtor; cases b <;> simp [h]

/-- What a successful construction needs. -/
theorem construct_needs {w : W A} {p : Ptr} {i : Nat} {a : Vec.Arg A} (hA : AllSafe (Vec.construct p i a) w) :
    ∃ v b, (∀ c, Runs (Vec.argVal a) (oracle w c) v (oracle w c)) ∧ p ≠ .null ∧ w.heap p = some (.blk b) ∧
      b.slots[i]? = some none := by
  obtain ⟨r, w1, h⟩ := hA (fun k => if k = w.nCtor then true else w.env.ctor k) (fun k hk => by simp; omega)
  obtain ⟨v, t, h1, h2⟩ := runs_bind_iff.1 h
  obtain ⟨b, t1, h3, h4⟩ := runs_bind_iff.1 h2
  have ht : t = oracle w (fun k => if k = w.nCtor then true else w.env.ctor k) ∧
      ∀ c, Runs (Vec.argVal a) (oracle w c) v (oracle w c) := by
    cases a with
    | lit x => cases h1; exact ⟨rfl, fun _ => rfl⟩
    | ref q j =>
      obtain ⟨k1, k2, k3⟩ := runs_slotRd.1 h1
      exact ⟨k3, fun c => runs_slotRd.2 ⟨k1, k2, rfl⟩⟩
  obtain ⟨rfl, hv⟩ := ht
  obtain ⟨rfl, rfl⟩ := Runs.det h3 (runs_tryCtor true (by simp [oracle]))
  obtain ⟨k1, b, k2, k3, -⟩ := runs_slotPut.1 h4
  exact ⟨v, b, hv, k1, k2, k3⟩

/-- The state of the values after a construction. -/
def ctorDone (w : W A) (p : Ptr) (i : Nat) (b : Blk A) (v : A) : W A :=
  oracle ({ w with nCtor := w.nCtor + 1 }.setHeap (upd w.heap p (some (putSlot b i (some v)))))
    fun k => if k = w.nCtor then true else w.env.ctor k

def ctorFailed (w : W A) : W A :=
  oracle { w with nCtor := w.nCtor + 1, err := some .ctorFailed } fun k => if k = w.nCtor then false else w.env.ctor k

theorem runs_ctorDone {w : W A} {p : Ptr} {i : Nat} {a : Vec.Arg A} {v : A} {b : Blk A} {c : Nat → Bool}
    (hv : ∀ c, Runs (Vec.argVal a) (oracle w c) v (oracle w c)) (hp : p ≠ .null) (hb : w.heap p = some (.blk b))
    (hi : b.slots[i]? = some none) (hc : c w.nCtor = true) :
    Runs (Vec.construct p i a) (oracle w c) () (oracle (ctorDone w p i b v) c) := by
  refine runs_bind_iff.2 ⟨_, _, hv c, runs_bind_iff.2 ⟨_, _, runs_tryCtor (w := oracle w c) true hc, ?_⟩⟩
  exact runs_slotPut.2 ⟨hp, b, hb, hi, rfl⟩

theorem runs_ctorFailed {w : W A} {p : Ptr} {i : Nat} {a : Vec.Arg A} {v : A} {c : Nat → Bool}
    (hv : ∀ c, Runs (Vec.argVal a) (oracle w c) v (oracle w c)) (hc : c w.nCtor = false) :
    Runs (Vec.construct p i a) (oracle w c) () (oracle (ctorFailed w) c) :=
  runs_bind_iff.2 ⟨_, _, hv c, runs_bind_iff.2 ⟨_, _, runs_tryCtor (w := oracle w c) false hc, rfl⟩⟩

/-- A new object goes into slot `i`. -/
theorem settle_ok {s : NS S} {w : W A} (hR : Rel E s w) {p q : Ptr} {i : Nat} {v : A} {b : Blk A} {i' : S} {f : Ptr → Option A}
    (hp : p ≠ .null) (hb : w.heap p = some (.blk b)) (hi : b.slots[i]? = some none) (hin : E.inv i')
    (hr : E.rest i' = E.rest s.i) (hq : E.val s.i q = none) (hf : ∀ x, Owned s.o x → f x = E.val s.i x)
    (hv : E.val i' = upd f q (some v)) :
    ∃ s', Runs (settle p i (.ok q)) ⟨s.o, i'⟩ () s' ∧ Rel E s' (ctorDone w p i b v) ∧ s'.o.err = s.o.err ∧
      outside E s' = (fun x => if Owned s.o x then none else if x = q then none else f x, E.rest s.i) := by
  obtain ⟨b', h1, rfl⟩ := hR.heap_blk hb
  have h2 : b'.slots[i]? = some none := by
    simp only [List.getElem?_map, Option.map_eq_some_iff] at hi
    obtain ⟨x, h3, h4⟩ := hi
    cases x with
    | none => exact h3
    | some x => exact (hR.live x ⟨_, _, b', h1, h3⟩ h4).elim
  refine ⟨⟨s.o.setHeap (upd s.o.heap p (some (putSlot b' i (some q)))), i'⟩, runs_onO (runs_slotPut.2 ⟨hp, b', h1, h2, rfl⟩),
    hR.put h1 h2 hq hf hv hin rfl rfl rfl rfl rfl, rfl, outside_put hR h1 h2 hq hv hr⟩

theorem settle_error {s : NS S} {w : W A} (hR : Rel E s w) {p : Ptr} {i : Nat} {e : Err} {i' : S} (hin : E.inv i')
    (hr : E.rest i' = E.rest s.i) (hv : E.val i' = E.val s.i) :
    ∃ s', Runs (settle p i (.error e)) ⟨s.o, i'⟩ () s' ∧ Rel E s' (ctorFailed w) ∧ outside E s' = outside E s := by
  refine ⟨⟨{ s.o with err := some e }, i'⟩, rfl, ⟨hin, ?_, ?_, hR.typed, hR.uniq, hR.addr, hR.nAlloc, hR.sp, rfl⟩, ?_⟩
  · intro p; simp only [hv]; exact hR.heap p
  · simp only [hv]; exact hR.live
  · unfold outside; simp only [hv, hr]; rfl

theorem outside_same {s : NS S} {w : W A} (hR : Rel E s w) {q : Ptr} (hq : E.val s.i q = none) :
    (fun x => if Owned s.o x then none else if x = q then none else E.val s.i x, E.rest s.i) = outside E s := by
  unfold outside
  congr 1
  funext x
  by_cases e1 : Owned s.o x
  · simp [e1]
  · by_cases e2 : x = q
    · subst e2; simp [e1, hq]
    · simp [e1, e2]

/-- Putting a copy of an object with value `v` into a slot. -/
theorem sim_copy {s : NS S} {w : W A} (hR : Rel E s w) {p t : Ptr} {i : Nat} {a : Vec.Arg A} {v : A} {b : Blk A}
    (hv : ∀ c, Runs (Vec.argVal a) (oracle w c) v (oracle w c)) (hp : p ≠ .null) (hb : w.heap p = some (.blk b))
    (hi : b.slots[i]? = some none) (ht : E.val s.i t = some v) :
    ∃ s' w', Runs (onI (E.copy t) >>= settle p i) s () s' ∧ Rel E s' w' ∧ outside E s' = outside E s ∧ w.nCtor ≤ w'.nCtor ∧
      (∀ k, k < w.nCtor → w'.env.ctor k = w.env.ctor k) ∧
      ∀ c, (∀ k, k < w'.nCtor → c k = w'.env.ctor k) → Runs (Vec.construct p i a) (oracle w c) () (oracle w' c) := by
  obtain ⟨r, i', h1, h2, h3, h4⟩ := (E.copy_ok _ _ _ hR.inv ht).runs
  cases r with
  | ok q =>
    obtain ⟨s', k1, k2, -, k3⟩ := settle_ok hR hp hb hi h2 h3 h4.1 (fun _ _ => rfl) h4.2
    refine ⟨s', _, runs_bind_iff.2 ⟨_, _, runs_onI h1, k1⟩, k2, k3.trans (outside_same hR h4.1), Nat.le_succ _, ?_, ?_⟩
    · intro k hk
      show (if _ then _ else _) = _
      rw [if_neg (by omega)]
    · intro c hc
      refine runs_ctorDone hv hp hb hi ((hc _ (Nat.lt_succ_self _)).trans ?_)
      simp [ctorDone, oracle]
  | error e =>
    obtain ⟨s', k1, k2, k3⟩ := settle_error (p := p) (i := i) (e := e) hR h2 h3 h4
    refine ⟨s', _, runs_bind_iff.2 ⟨_, _, runs_onI h1, k1⟩, k2, k3, Nat.le_succ _, ?_, ?_⟩
    · intro k hk
      show (if _ then _ else _) = _
      rw [if_neg (by omega)]
    · intro c hc
      refine runs_ctorFailed hv ((hc _ (Nat.lt_succ_self _)).trans ?_)
      simp [ctorFailed, oracle]

theorem sim_construct (p : Ptr) (i : Nat) {a : Arg} {a' : Vec.Arg A} (ha : ArgRel E u a a') :
    Sim E (Keep E u) (construct E.toElemOps p i a) (Vec.construct p i a') fun _ => Keep E u := by
  intro s w hR hK hA
  obtain ⟨v, b, hv, hp, hb, hi⟩ := construct_needs hA
  cases a with
  | obj t =>
    cases a' with
    | ref _ _ => exact ha.elim
    | lit x =>
      have e : x = v := by have := hv w.env.ctor; cases this; rfl
      subst e
      have ht : E.val s.i t = some x := by
        have h5 : u.1 t = some x := ha
        rw [← show outside E s = u from hK] at h5
        unfold outside at h5
        simp only at h5
        split at h5
        · cases h5
        · exact h5
      obtain ⟨s', w', h1, h2, h3, h4⟩ := sim_copy hR hv hp hb hi ht
      exact ⟨(), s', w', h1, h2, h3.trans hK, h4⟩
  | mov t => cases a' <;> exact ha.elim
  | ref q j =>
    cases a' with
    | lit _ => exact ha.elim
    | ref q' j' =>
      obtain ⟨rfl, rfl⟩ := ha
      obtain ⟨k1, ⟨b1, k2, k3⟩, -⟩ := runs_slotRd.1 (hv w.env.ctor)
      obtain ⟨t, ⟨b2, k5, k6⟩, k7⟩ := hR.slot k2 k3
      obtain ⟨s', w', h1, h2, h3, h4⟩ := sim_copy hR hv hp hb hi k7
      exact ⟨(), s', w', runs_bind_iff.2 ⟨_, _, runs_onO (runs_slotRd.2 ⟨k1, ⟨b2, k5, k6⟩, rfl⟩), h1⟩, h2, h3.trans hK, h4⟩
  | none =>
    cases a' with
    | ref _ _ => exact ha.elim
    | lit x =>
      have e : x = v := by have := hv w.env.ctor; cases this; rfl
      subst e
      have ha : x = E.blank := ha
      subst ha
      obtain ⟨q, i', h1, h2, h3, h4, h5⟩ := (E.make_ok _ hR.inv).runs
      obtain ⟨s', k1, k2, -, k3⟩ := settle_ok hR hp hb hi h2 h3 h4 (fun _ _ => rfl) h5
      refine ⟨(), s', _, runs_bind_iff.2 ⟨_, _, runs_onI h1, k1⟩, k2, (k3.trans (outside_same hR h4)).trans hK, Nat.le_succ _, ?_, ?_⟩
      · intro k hk
        show (if _ then _ else _) = _
        rw [if_neg (by omega)]
      · intro c hc
        refine runs_ctorDone hv hp hb hi ((hc _ (Nat.lt_succ_self _)).trans ?_)
        simp [ctorDone, oracle]

/-- After moving the object `t` into a vector, it has the value of a moved-from object. -/
noncomputable def movedOut (E : Elem S A X) (u : (Ptr → Option A) × X) (t : Ptr) : (Ptr → Option A) × X :=
  (upd u.1 t (some E.blank), u.2)

theorem sim_construct_move (p : Ptr) (i : Nat) {t : Ptr} {x : A} (ht : u.1 t = some x) :
    Sim E (fun s => Keep E u s ∧ s.o.err = none) (construct E.toElemOps p i (.mov t)) (Vec.construct p i (.lit x))
      fun _ s => Keep E (movedOut E u t) s ∧ s.o.err = none := by
  intro s w hR ⟨hK, he⟩ hA
  obtain ⟨v, b, hv, hp, hb, hi⟩ := construct_needs hA
  have e : x = v := by have := hv w.env.ctor; cases this; rfl
  subst e
  have ht' : ¬ Owned s.o t ∧ E.val s.i t = some x := by
    rw [← show outside E s = u from hK] at ht
    unfold outside at ht
    simp only at ht
    split at ht
    · cases ht
    · exact ⟨‹_›, ht⟩
  obtain ⟨q, i', h1, h2, h3, h4, h5⟩ := (E.move_ok _ _ _ hR.inv ht'.2).runs
  obtain ⟨s', k1, k2, k3, k4⟩ := settle_ok hR hp hb hi h2 h3 h4
    (fun x hx => upd_other _ _ (by rintro rfl; exact ht'.1 hx)) h5
  refine ⟨(), s', _, runs_bind_iff.2 ⟨_, _, runs_onI h1, k1⟩, k2, ⟨k4.trans ?_, k3.trans he⟩, Nat.le_succ _, ?_, ?_⟩
  · rw [← show outside E s = u from hK]
    unfold movedOut outside
    congr 1
    funext y
    simp only [upd_apply]
    by_cases e1 : y = t
    · subst e1
      have : y ≠ q := by rintro rfl; rw [ht'.2] at h4; cases h4
      simp [ht'.1, this]
    · by_cases e2 : Owned s.o y
      · simp [e1, e2]
      · by_cases e3 : y = q
        · subst e3; simp [e1, e2, h4]
        · simp [e1, e2, e3]
  · intro k hk
    show (if _ then _ else _) = _
    rw [if_neg (by omega)]
  · intro c hc
    refine runs_ctorDone hv hp hb hi ((hc _ (Nat.lt_succ_self _)).trans ?_)
    simp [ctorDone, oracle]

theorem sim_destroySlot (hP : Stable E P) (p : Ptr) (i : Nat) :
    Sim E P (destroySlot E.toElemOps p i) (Vec.destroySlot p i) fun _ => P := by
  apply Sim.step
  intro s w hR h0 r w' hr
  obtain ⟨hp, b, v, hb, hi, rfl⟩ := runs_destroySlot.1 hr
  obtain ⟨q, ⟨b', h1, h2⟩, h3⟩ := hR.slot hb hi
  obtain ⟨b1, k1, rfl⟩ := hR.heap_blk hb
  rw [h1] at k1; cases k1
  obtain ⟨_, i', h4, h5, h6, h7⟩ := (E.drop_ok _ _ hR.inv (by rw [h3]; simp)).runs
  have hlt : i < b'.slots.length := by
    apply Classical.byContradiction; intro hn
    rw [List.getElem?_eq_none (by omega)] at h2; cases h2
  have hs := fun x y j => slot_put (o' := s.o.setHeap (upd s.o.heap p (some (putSlot b' i none))))
    (y := none) (q := x) (x := y) (j := j) h1 hlt rfl
  have hs' : ∀ r j y, Slot (s.o.setHeap (upd s.o.heap p (some (putSlot b' i none)))) r j y → Slot s.o r j y ∧ y ≠ q := by
    intro r j y hy
    rw [hs] at hy
    split at hy
    · cases hy
    · refine ⟨hy, ?_⟩
      rintro rfl
      exact absurd (hR.uniq _ _ _ _ _ hy ⟨b', h1, h2⟩) ‹_›
  have hown : ∀ y, Owned (s.o.setHeap (upd s.o.heap p (some (putSlot b' i none)))) y ↔ Owned s.o y ∧ y ≠ q := by
    intro y
    constructor
    · rintro ⟨r, j, hy⟩
      exact ⟨⟨r, j, (hs' _ _ _ hy).1⟩, (hs' _ _ _ hy).2⟩
    · rintro ⟨⟨r, j, hy⟩, hne⟩
      refine ⟨r, j, (hs _ _ _).2 ?_⟩
      split
      · rename_i e
        obtain ⟨rfl, rfl⟩ := e
        obtain ⟨b2, k2, k3⟩ := hy
        rw [h1] at k2; cases k2
        rw [h2] at k3; cases k3
        exact (hne rfl).elim
      · exact hy
  have hout : outside E ⟨s.o.setHeap (upd s.o.heap p (some (putSlot b' i none))), i'⟩ = outside E s := by
    unfold outside
    simp only [hown, h6, h7, upd_apply]
    congr 1
    funext y
    by_cases e1 : y = q
    · subst e1; simp [show Owned s.o y from ⟨_, _, b', h1, h2⟩]
    · simp [e1]
  refine ⟨⟨s.o.setHeap (upd s.o.heap p (some (putSlot b' i none))), i'⟩, ?_, ⟨h5, ?_, ?_, ?_, ?_, hR.addr, hR.nAlloc, hR.sp, hR.err⟩,
    hP s _ hout rfl h0, rfl, rfl, fun c => runs_destroySlot.2 ⟨hp, _, v, hb, hi, rfl⟩⟩
  · refine runs_bind_iff.2 ⟨_, _, runs_onO (runs_slotRd.2 ⟨hp, ⟨b', h1, h2⟩, rfl⟩), runs_bind_iff.2 ⟨_, _, runs_onI h4, ?_⟩⟩
    exact runs_onO (s := ⟨s.o, i'⟩) (runs_destroySlot.2 ⟨hp, b', q, h1, h2, rfl⟩)
  · intro r
    have hmap : ∀ (b2 : Blk Ptr), (∀ (j : Nat) y, b2.slots[j]? = some (some y) → y ≠ q) →
        (b2.slots.map fun x => x.bind (E.val i')) = b2.slots.map fun x => x.bind (E.val s.i) := by
      intro b2 hne
      apply List.map_congr_left
      intro x hx
      cases x with
      | none => rfl
      | some x =>
        obtain ⟨j, hj⟩ := List.getElem?_of_mem hx
        simp only [Option.bind_some, h7]
        exact upd_other _ _ (hne j x hj)
    simp only [World.setHeap_heap, upd_apply]
    split
    · rename_i e; subst e
      have := hmap { b' with slots := b'.slots.set i none } (fun j y hj => (hs' r j y ⟨_, by simp [putSlot], hj⟩).2)
      simp only [Option.map_some, absCell, putSlot, this, List.map_set, Option.bind_none]
    · rw [hR.heap r]
      cases e : s.o.heap r with
      | none => rfl
      | some c =>
        cases c with
        | obj o => rfl
        | blk b2 =>
          simp only [Option.map_some, absCell]
          rw [hmap b2 (fun j y hj => ?_)]
          rintro rfl
          exact absurd (hR.uniq _ _ _ _ _ ⟨b2, e, hj⟩ ⟨b', h1, h2⟩).1 ‹_›
  · intro y hy
    obtain ⟨k1, k2⟩ := (hown y).1 hy
    simp only [h7, upd_other _ _ k2]
    exact hR.live y k1
  · intro r b2 hr
    simp only [World.setHeap_heap, upd_apply] at hr
    split at hr
    · rename_i e; subst e; exact hR.typed _ _ h1
    · exact hR.typed _ _ hr
  · intro r j r' j' y hy hy'
    exact hR.uniq _ _ _ _ _ (hs' _ _ _ hy).1 (hs' _ _ _ hy').1

end Nestl.VO
