import Verif.Vector.State
set_option autoImplicit false
/-
Property C46: `uninitialised_copy` is all-or-nothing.
-/
namespace Nestl.Vec

variable {V : Type} {w : W V} {p : Ptr} {i : Nat}

/-- The slots `i`, ..., `i + n - 1` of a block are raw. -/
theorem raw_split {l : List (Option V)} : ∀ {i n : Nat}, (∀ k, k < n → l[i + k]? = some none) → (n = 0 → i ≤ l.length) →
    ∃ X Y, l = X ++ (List.replicate n none ++ Y) ∧ X.length = i := by
  intro i n h h0
  have hle : i + n ≤ l.length := by
    cases n with
    | zero => exact h0 rfl
    | succ n =>
      have := h n (by omega)
      have := (List.getElem?_eq_some_iff.1 this).1
      omega
  refine ⟨l.take i, l.drop (i + n), ?_, by simp; omega⟩
  have : List.replicate n none = (l.drop i).take n := by
    apply List.ext_getElem?
    intro k
    by_cases hk : k < n
    · rw [List.getElem?_replicate, if_pos hk, List.getElem?_take_of_lt hk, List.getElem?_drop, h k hk]
    · rw [List.getElem?_replicate, if_neg hk, List.getElem?_take_eq_none (by omega)]
  rw [this, ← List.drop_drop, List.take_append_drop, List.take_append_drop]

/-- C46: `uninitialised_copy` into raw storage either succeeds, and then the destination holds copies of the whole source
range, or an element constructor fails; then it reports the error, and memory is as before: no object remains
constructed in the destination.  It succeeds iff no constructor fails.  The source range may be anywhere, also in the
same block. -/
theorem uninitialised_copy_all_or_nothing {b : Blk V} {as : List (Arg V)} {vs : List V} (hp : p ≠ .null)
    (hb : w.heap p = some (.blk b)) (hraw : ∀ k, k < vs.length → b.slots[i + k]? = some none) (hi : i ≤ b.slots.length)
    (hv : Vals w.heap as vs) (he : w.err = none) :
    ∃ r w', Runs (uninitCopy as p i) w r w' ∧
      ((w'.err = none ∧ (∀ k, k < vs.length → w.env.ctor (w.nCtor + k) = true) ∧ r = i + vs.length ∧
          ∃ b', w'.heap = upd w.heap p (some (.blk b')) ∧ b'.owner = b.owner ∧ b'.count = b.count ∧
            ∀ k, b'.slots[k]? = if i ≤ k ∧ k < i + vs.length then (vs[k - i]?).map some else b.slots[k]?) ∨
       (w'.err ≠ none ∧ (∃ k, k < vs.length ∧ w.env.ctor (w.nCtor + k) = false) ∧ w'.heap = w.heap)) := by
  obtain ⟨X, Y, hs, hX⟩ := raw_split hraw (fun _ => hi)
  rcases b with ⟨slots, ow, c⟩
  simp only at hs hraw hi; subst hs
  have : wp (uninitCopy as p i) w fun r w' =>
      ((w'.err = none ∧ (∀ k, k < vs.length → w.env.ctor (w.nCtor + k) = true) ∧ r = i + vs.length ∧
          ∃ b', w'.heap = upd w.heap p (some (.blk b')) ∧ b'.owner = ow ∧ b'.count = c ∧
            ∀ k, b'.slots[k]? = if i ≤ k ∧ k < i + vs.length then (vs[k - i]?).map some
              else (X ++ (List.replicate vs.length none ++ Y))[k]?) ∨
       (w'.err ≠ none ∧ (∃ k, k < vs.length ∧ w.env.ctor (w.nCtor + k) = false) ∧ w'.heap = w.heap)) := by
    refine wp_uninitCopy hp hv he (Nat.le_refl _) hb hX.symm ?_ ?_
    · intro hc
      refine .inl ⟨he, hc, rfl, _, rfl, rfl, rfl, ?_⟩
      intro k
      simp only [Nat.sub_self, List.replicate_zero, List.nil_append]
      by_cases h1 : k < i
      · rw [if_neg (by omega), List.getElem?_append_left (by omega), List.getElem?_append_left (by omega)]
      · by_cases h2 : k < i + vs.length
        · rw [if_pos ⟨by omega, h2⟩, List.getElem?_append_right (by omega), List.getElem?_append_left (by simp; omega), hX]
          simp
        · have e1 : (vs.map some).length ≤ k - X.length := by rw [List.length_map]; omega
          have e2 : (List.replicate vs.length (none : Option V)).length ≤ k - X.length := by rw [List.length_replicate]; omega
          rw [if_neg (by omega), List.getElem?_append_right (by omega), List.getElem?_append_right e1,
            List.getElem?_append_right (by omega), List.getElem?_append_right e2, List.length_map, List.length_replicate]
    · intro j hj _ hf
      exact .inr ⟨by simp, ⟨j, hj, hf⟩, rfl⟩
  exact this.runs

/-- Two blocks, the second one with room for three elements between two live ones; the second construction fails
if `f`. -/
def ucDemo (f : Bool) : W Nat :=
  { heap := fun
      | .dyn 0 => some (.blk ⟨[some 1, some 2], 0, 2⟩)
      | .dyn 1 => some (.blk ⟨[some 7, none, none, none, some 8], 0, 5⟩)
      | _ => none,
    env := { addr := fun _ => none, ctor := fun k => !(f && k == 1), junk := fun _ => .obj ⟨0, .null, 0, 0⟩ },
    nAlloc := 0, nCtor := 0, nCmp := 0, sp := 0, err := none }

/-- Copying two elements from the first block and one from the second block itself. -/
example (f : Bool) : (ucDemo f).heap (.dyn 1) = some (.blk ⟨[some 7, none, none, none, some 8], 0, 5⟩) ∧
    (∀ k, k < 3 → [some 7, none, none, none, some 8][1 + k]? = some (none : Option Nat)) ∧
    Vals (ucDemo f).heap [.ref (.dyn 0) 0, .ref (.dyn 0) 1, .ref (.dyn 1) 4] [1, 2, 8] ∧ (ucDemo f).err = none := by
  refine ⟨rfl, ?_, .cons ⟨(by simp), _, rfl, rfl⟩ (.cons ⟨(by simp), _, rfl, rfl⟩ (.cons ⟨(by simp), _, rfl, rfl⟩ .nil)), rfl⟩
  intro k hk
  rcases k with _ | _ | _ | k
  · rfl
  · rfl
  · rfl
  · omega

/-- With an error object that already holds an error the guarantee is lost: the first element is constructed and never
destroyed. -/
theorem uninitialised_copy_stale_error_violated {b : Blk V} {a : Arg V} {as : List (Arg V)} {v : V} (hp : p ≠ .null)
    (hb : w.heap p = some (.blk b)) (hraw : b.slots[i]? = some none) (hv : Val w.heap a v) (he : w.err ≠ none)
    (hc : w.env.ctor w.nCtor = true) :
    ∃ w', Runs (uninitCopy (a :: as) p i) w i w' ∧ w'.err = w.err ∧
      w'.heap = upd w.heap p (some (.blk { b with slots := b.slots.set i (some v) })) := by
  have : wp (uninitCopy (a :: as) p i) w fun r w' => r = i ∧ w'.err = w.err ∧
      w'.heap = upd w.heap p (some (.blk { b with slots := b.slots.set i (some v) })) := by
    unfold uninitCopy ucLoop construct
    simp only [wp_bind]
    rw [wp_argVal hv]
    refine wp_tryCtor ?_ (by intro h; rw [hc] at h; cases h)
    intro _
    refine wp_if_pos rfl ?_
    unfold slotPut
    simp only [wp_bind]
    refine (wp_rdBlk (w := { w with nCtor := w.nCtor + 1 }) (b := b) hb hp).2 ?_
    simp only [hraw]
    refine (wp_modCell (w := { w with nCtor := w.nCtor + 1 }) (c := .blk b) hb hp).2 ?_
    rw [wp_hasErr]
    have hs : w.err.isSome = true := by cases h : w.err <;> simp_all
    refine wp_if_pos hs ?_
    rw [wp_pure]
    refine wp_if_neg (by simp) ?_
    simp only [wp_bind, Nat.sub_self, destroyRange]
    exact ⟨rfl, rfl, rfl⟩
  obtain ⟨r, w', h1, rfl, h2⟩ := this.runs
  exact ⟨w', h1, h2⟩

example : ([some 7, none, none, none, some 8] : List (Option Nat))[1]? = some none ∧
    Val ({ ucDemo false with err := some .badAlloc } : W Nat).heap (.ref (.dyn 0) 0) 1 := ⟨rfl, (by simp), _, rfl, rfl⟩

end Nestl.Vec
