import Verif.SharedPtr.ModelDepth
import Verif.Stack
set_option autoImplicit false
/-
The depth of the recursion of `release` is at most the number of control blocks, in every state whatsoever.
-/
namespace Nestl.SP
variable {V : Type}

section
variable {α β : Type} {b : Ptr} {w w' w'' : W V} {c : Blk V}

theorem rdBlk_inv (h : Runs (rdBlk b) w c w') : w' = w ∧ w.heap b = some (.blk c) := by
  obtain ⟨n, w1, h1, h2⟩ := runs_steps (show Runs (rd b >>= _) w c w' from h)
  have hw : w1 = w ∧ w.heap b = some n := by
    unfold Runs rd at h1
    split at h1
    · cases h1
    · split at h1
      · rename_i h; cases h1; exact ⟨rfl, h⟩
      · cases h1
  obtain ⟨rfl, hn⟩ := hw
  cases n <;> cases h2
  exact ⟨rfl, hn⟩

theorem setBlk_inv {u : Unit} (h : Runs (setBlk b c) w u w') : w' = w.setHeap (upd w.heap b (some (.blk c))) := by
  unfold Runs setBlk modCell at h
  split at h
  · cases h
  · split at h
    · cases h; rfl
    · cases h

/-- Every block that is in use after a step was in use before it. -/
def Less (w w' : W V) : Prop := ∀ b c', w'.heap b = some (.blk c') → 0 < c'.use → ∃ c, w.heap b = some (.blk c) ∧ 0 < c.use

theorem Less.refl (w : W V) : Less w w := fun _ c h h' => ⟨c, h, h'⟩
theorem Less.trans (h : Less w w') (h' : Less w' w'') : Less w w'' := by
  intro b c e1 e2
  obtain ⟨c1, f1, f2⟩ := h' b c e1 e2
  exact h b c1 f1 f2

/-- One cell is changed. -/
theorem Less.upd {p : Ptr} {x : Option (Cell V)} (h : ∀ c', x = some (.blk c') → 0 < c'.use → ∃ c, w.heap p = some (.blk c) ∧ 0 < c.use) :
    Less w (w.setHeap (upd w.heap p x)) := by
  intro b c' e1 e2
  by_cases e : b = p
  · subst e
    exact h c' (by simpa using e1) e2
  · simp only [World.setHeap_heap] at e1
    rw [upd_other _ _ e] at e1
    exact ⟨c', e1, e2⟩

/-- A program that starts to use no block. -/
def Shrinks (m : M (W V) α) : Prop := ∀ w a w', Runs m w a w' → Less w w'

theorem Shrinks.pure (a : α) : Shrinks (pure a : M (W V) α) := by intro w a w' h; cases h; exact .refl _
theorem Shrinks.fault (f : Fault) : Shrinks (fault f : M (W V) α) := by intro w a w' h; cases h
theorem Shrinks.bind {m : M (W V) α} {k : α → M (W V) β} (h : Shrinks m) (hk : ∀ a, Shrinks (k a)) : Shrinks (m >>= k) := by
  intro w a w' hr
  obtain ⟨x, w1, h1, h2⟩ := runs_steps hr
  exact (h _ _ _ h1).trans (hk _ _ _ _ h2)
theorem Shrinks.ite {p : Prop} {inst : Decidable p} {m n : M (W V) α} (hm : Shrinks m) (hn : Shrinks n) :
    Shrinks (@_root_.ite _ p inst m n) := by split <;> assumption

theorem Shrinks.rdBlk (b : Ptr) : Shrinks (rdBlk b : M (W V) _) := by
  intro w a w' h; obtain ⟨rfl, -⟩ := rdBlk_inv h; exact .refl _

theorem Shrinks.rdObj (b : Ptr) : Shrinks (rdObj b : M (W V) _) := by
  unfold SP.rdObj
  refine (Shrinks.rdBlk b).bind fun c => ?_
  split
  · exact .pure _
  · exact .fault _

theorem Shrinks.assertM (x : Bool) : Shrinks (assertM x : M (W V) _) := by
  cases x
  · exact .fault _
  · exact .pure _

theorem Shrinks.rdSet {k : Blk V → M (W V) α} (hk : ∀ c, (∀ w a w', w.heap b = some (.blk c) → Runs (k c) w a w' → Less w w')) :
    Shrinks (SP.rdBlk b >>= k) := by
  intro w a w' hr
  obtain ⟨c, w1, h1, h2⟩ := runs_steps hr
  obtain ⟨rfl, hc⟩ := rdBlk_inv h1
  exact hk c _ _ _ hc h2

theorem less_setBlk {c' : Blk V} {u : Unit} (hb : w.heap b = some (.blk c)) (h : Runs (setBlk b c') w u w') (hu : c'.use ≤ c.use) :
    Less w w' := by
  rw [setBlk_inv h]
  refine Less.upd ?_
  intro e h1 h2
  cases h1
  exact ⟨c, hb, by omega⟩

theorem Shrinks.destroySelf (b : Ptr) : Shrinks (destroySelf b : M (W V) _) := by
  refine (Shrinks.rdBlk b).bind fun c => ?_
  refine Shrinks.bind ?_ fun _ => ?_
  · intro w u w' h
    unfold Runs modCell at h
    split at h
    · cases h
    · split at h
      · cases h; exact Less.upd (by intro c' e; cases e)
      · cases h
  · intro w u w' h
    unfold Runs deallocate freeCell at h
    dsimp only at h
    repeat' split at h
    all_goals cases h
    all_goals first | exact Less.refl _ | exact Less.upd (x := none) (by intro c' e; cases e)

theorem Shrinks.weakRelease (b : Ptr) : Shrinks (weakRelease b : M (W V) _) := by
  refine Shrinks.rdSet fun c w a w' hb hr => ?_
  obtain ⟨_, w1, h1, h2⟩ := runs_steps hr
  obtain ⟨_, w2, h3, h4⟩ := runs_steps h2
  have e : w1 = w := by
    cases hx : decide (0 < c.weak) <;> rw [hx] at h1 <;> cases h1
    rfl
  subst e
  refine (less_setBlk hb h3 (Nat.le_refl _)).trans ?_
  have : Shrinks (if c.weak - 1 = 0 ∧ c.use = 0 then SP.destroySelf b else Pure.pure () : M (W V) _) :=
    Shrinks.ite (.destroySelf b) (.pure ())
  exact this _ _ _ h4

theorem Shrinks.takeMem (b : Ptr) (i : Nat) : Shrinks (takeMem b i : M (W V) _) := by
  refine Shrinks.rdSet fun c w a w' hb hr => ?_
  obtain ⟨o, w1, h1, h2⟩ := runs_steps hr
  have e : w1 = w := by
    obtain ⟨c', w2, h3, h4⟩ := runs_steps (show Runs (SP.rdBlk b >>= _) w o w1 from h1)
    obtain ⟨rfl, -⟩ := rdBlk_inv h3
    revert h4
    split
    · intro h; cases h; rfl
    · intro h; cases h
  subst e
  revert h2
  split
  · intro h2
    obtain ⟨_, w2, h3, h4⟩ := runs_steps h2
    cases h4
    exact less_setBlk hb h3 (Nat.le_refl _)
  · intro h; cases h

theorem Shrinks.endObj (b : Ptr) : Shrinks (endObj b : M (W V) _) := by
  refine Shrinks.rdSet fun c w a w' hb hr => ?_
  exact less_setBlk hb hr (Nat.le_refl _)

theorem Shrinks.destroyMembersW {rec : Ptr → M (W V) Unit} (hrec : ∀ b, Shrinks (rec b)) (b : Ptr) (n : Nat) :
    Shrinks (destroyMembersW rec b n) := by
  induction n with
  | zero => exact .pure _
  | succ n ih =>
    unfold SP.destroyMembersW
    refine (Shrinks.takeMem b n).bind fun m => ?_
    split
    · exact ih
    · split
      · exact (hrec _).bind fun _ => ih
      · exact (Shrinks.weakRelease _).bind fun _ => ih

theorem Shrinks.destroyValueW {rec : Ptr → M (W V) Unit} (hrec : ∀ b, Shrinks (rec b)) (b : Ptr) :
    Shrinks (destroyValueW rec b) :=
  (Shrinks.rdObj b).bind fun _ => (Shrinks.destroyMembersW hrec b _).bind fun _ => .endObj b

theorem Shrinks.releaseW {rec : Ptr → M (W V) Unit} (hrec : ∀ b, Shrinks (rec b)) (b : Ptr) : Shrinks (releaseW rec b) := by
  refine Shrinks.rdSet fun c w a w' hb hr => ?_
  obtain ⟨_, w1, h1, h2⟩ := runs_steps hr
  obtain ⟨_, w2, h3, h4⟩ := runs_steps h2
  have e : w1 = w := by
    cases hx : decide (0 < c.use) <;> rw [hx] at h1 <;> cases h1
    rfl
  subst e
  refine (less_setBlk hb h3 (Nat.sub_le _ _)).trans ?_
  revert h4
  split
  · intro h4
    refine (Shrinks.bind (Shrinks.destroyValueW hrec b) fun _ => (Shrinks.rdBlk b).bind fun c => ?_) _ _ _ h4
    exact .ite (.destroySelf b) (.pure ())
  · intro h4; cases h4; exact .refl _

theorem Shrinks.releaseD (d : Nat) (b : Ptr) : Shrinks (releaseD d b : M (W V) _) := by
  induction d generalizing b with
  | zero => exact .fault _
  | succ d ih => exact .releaseW ih b

/-- All blocks in use are listed in `S`. -/
def Within (S : List Ptr) (w : W V) : Prop := ∀ b c, w.heap b = some (.blk c) → 0 < c.use → b ∈ S

theorem Within.less {S : List Ptr} (h : Within S w) (hl : Less w w') : Within S w' := by
  intro b c h1 h2
  obtain ⟨c', e1, e2⟩ := hl b c h1 h2
  exact h b c' e1 e2

theorem destroyMembers_eq (b : Ptr) (n : Nat) : (destroyMembers b n : M (W V) Unit) = destroyMembersW release b n := by
  induction n with
  | zero => rw [destroyMembers]; rfl
  | succ n ih =>
    rw [destroyMembers, destroyMembersW]
    simp only [ih]
    congr

theorem release_eq (b : Ptr) : (release b : M (W V) Unit) = releaseW release b := by
  rw [release, releaseW]
  simp only [destroyValue, destroyValueW, destroyMembers_eq]

theorem destroyMembers_sim {S : List Ptr} {rec : Ptr → M (W V) Unit} (hs : ∀ b, Shrinks (rec b))
    (hrec : ∀ b w, Within S w → Sim (rec b) (release b) w) (b : Ptr) (n : Nat) (hw : Within S w) :
    Sim (destroyMembersW rec b n) (destroyMembersW release b n) w := by
  induction n generalizing w with
  | zero => exact .refl _ _
  | succ n ih =>
    unfold destroyMembersW
    refine Sim.then fun m w1 hr => ?_
    have hw1 := hw.less (Shrinks.takeMem b n _ _ _ hr)
    split
    · exact ih hw1
    · obtain ⟨k, h⟩ := m
      cases k
      · exact Sim.bind (hrec _ _ hw1) fun _ w2 hr2 => ih (hw1.less (hs h.ref _ () _ (hrec _ _ hw1 _ _ hr2)))
      · exact Sim.then fun _ w2 hr2 => ih (hw1.less (Shrinks.weakRelease _ _ _ _ hr2))

/-- With room for as many activations as there are blocks in use, `release` does what it does on an unlimited stack. -/
theorem releaseD_sim {S : List Ptr} {d : Nat} (hd : S.length ≤ d) (hw : Within S w) : Sim (releaseD d b) (release b) w := by
  induction d generalizing S w b with
  | zero =>
    intro a w' hr
    rw [release_eq] at hr
    obtain ⟨c, w1, h1, h2⟩ := runs_steps hr
    obtain ⟨rfl, hc⟩ := rdBlk_inv h1
    obtain ⟨_, w2, h3, h4⟩ := runs_steps h2
    have hpos : 0 < c.use := by
      cases hx : decide (0 < c.use) <;> rw [hx] at h3 <;> cases h3
      exact of_decide_eq_true hx
    have := List.length_pos_of_mem (hw b c hc hpos)
    omega
  | succ d ih =>
    rw [release_eq]
    unfold releaseD releaseW
    refine Sim.then fun c w1 h1 => ?_
    obtain ⟨rfl, hc⟩ := rdBlk_inv h1
    refine Sim.then fun _ w2 h2 => ?_
    have hpos : 0 < c.use ∧ w2 = w1 := by
      cases hx : decide (0 < c.use) <;> rw [hx] at h2 <;> cases h2
      exact ⟨of_decide_eq_true hx, rfl⟩
    obtain ⟨hpos, rfl⟩ := hpos
    refine Sim.then fun _ w3 h3 => ?_
    rw [setBlk_inv h3]
    split
    · rename_i hz
      have hm : b ∈ S := hw b c hc hpos
      have hl := List.length_erase_of_mem hm
      have hp := List.length_pos_of_mem hm
      have hw' : Within (S.erase b) (w2.setHeap (upd w2.heap b (some (.blk { c with use := c.use - 1 })))) := by
        intro q e h1 h2
        simp only [World.setHeap_heap] at h1
        by_cases hq : q = b
        · subst hq
          rw [upd_same] at h1
          cases h1
          exact absurd h2 (by simp [hz])
        · rw [upd_other _ _ hq] at h1
          exact (List.mem_erase_of_ne hq).2 (hw q e h1 h2)
      refine Sim.bind ?_ fun _ _ _ => .refl _ _
      unfold destroyValueW
      refine Sim.then fun o w4 h4 => ?_
      refine Sim.bind ?_ fun _ _ _ => .refl _ _
      exact destroyMembers_sim (Shrinks.releaseD d) (fun b w h => ih (by omega) h) b _ (hw'.less (Shrinks.rdObj _ _ _ _ h4))
    · exact .refl _ _

/-! ### The calls -/

/-- All blocks are listed in `S`. -/
def Inside (S : List Ptr) (w : W V) : Prop := ∀ b c, w.heap b = some (.blk c) → b ∈ S

theorem Inside.within {S : List Ptr} (h : Inside S w) : Within S w := fun b c h1 _ => h b c h1

/-- A program that creates no blocks outside `S`. -/
def NoNew (S : List Ptr) (m : M (W V) α) : Prop := ∀ w a w', Inside S w → Runs m w a w' → Inside S w'

section
variable {S : List Ptr}

theorem NoNew.pure (a : α) : NoNew S (pure a : M (W V) α) := by intro w a w' hi h; cases h; exact hi
theorem NoNew.fault (f : Fault) : NoNew S (fault f : M (W V) α) := by intro w a w' hi h; cases h
theorem NoNew.bind {m : M (W V) α} {k : α → M (W V) β} (h : NoNew S m) (hk : ∀ a, NoNew S (k a)) : NoNew S (m >>= k) := by
  intro w a w' hi hr
  obtain ⟨x, w1, h1, h2⟩ := runs_steps hr
  exact hk _ _ _ _ (h _ _ _ hi h1) h2
theorem NoNew.ite {p : Prop} {inst : Decidable p} {m n : M (W V) α} (hm : NoNew S m) (hn : NoNew S n) :
    NoNew S (@_root_.ite _ p inst m n) := by split <;> assumption

theorem Inside.upd {p : Ptr} {x : Option (Cell V)} (h : Inside S w) (hx : ∀ c, x = some (.blk c) → p ∈ S) :
    Inside S (w.setHeap (upd w.heap p x)) := by
  intro b c e
  simp only [World.setHeap_heap] at e
  by_cases hb : b = p
  · subst hb; rw [upd_same] at e; exact hx c e
  · rw [upd_other _ _ hb] at e; exact h b c e

theorem NoNew.rd (p : Ptr) : NoNew S (rd p : M (W V) _) := by
  intro w a w' hi h1
  unfold Runs Nestl.rd at h1
  split at h1
  · cases h1
  · split at h1
    · cases h1; exact hi
    · cases h1

theorem NoNew.modVar (p : Ptr) (x : Cell V) (hx : ∀ c, x = .blk c → p ∈ S) : NoNew S (modCell p fun _ => x : M (W V) _) := by
  intro w a w' hi h
  unfold Runs modCell at h
  split at h
  · cases h
  · split at h
    · cases h; exact hi.upd (fun c e => hx c (by cases e; rfl))
    · cases h

theorem NoNew.rdBlk (b : Ptr) {k : Blk V → M (W V) α} (hk : b ∈ S → ∀ c, NoNew S (k c)) : NoNew S (SP.rdBlk b >>= k) := by
  intro w a w' hi hr
  obtain ⟨c, w1, h1, h2⟩ := runs_steps hr
  obtain ⟨rfl, hc⟩ := rdBlk_inv h1
  exact hk (hi b c hc) c _ _ _ hi h2

theorem NoNew.rdObj (b : Ptr) : NoNew S (rdObj b : M (W V) _) := by
  unfold SP.rdObj
  refine NoNew.rdBlk b fun _ c => ?_
  split
  · exact .pure _
  · exact .fault _

theorem NoNew.getH (k : Kind) (l : Loc) : NoNew S (getH k l : M (W V) _) := by
  cases l with
  | var p =>
    refine (NoNew.rd p).bind fun x => ?_
    split
    · exact .ite (.pure _) (.fault _)
    · exact .fault _
  | mem b i =>
    refine (NoNew.rdObj b).bind fun x => ?_
    split
    · exact .ite (.pure _) (.fault _)
    · exact .fault _

theorem NoNew.setH (k : Kind) (l : Loc) (h : Hnd) : NoNew S (setH k l h : M (W V) _) := by
  refine (NoNew.getH k l).bind fun _ => ?_
  cases l with
  | var p => exact .modVar p _ (by intro c e; cases e)
  | mem b i =>
    refine NoNew.rdBlk b fun hb c => ?_
    exact (NoNew.rdObj b).bind fun o => .modVar b _ fun _ _ => hb

theorem NoNew.newShared : NoNew S (newShared : M (W V) _) := by
  intro w a w' hi h
  cases h
  intro b c e
  by_cases hb : b = .stk w.sp
  · subst hb; simp at e
  · exact hi b c (by simpa [upd, hb] using e)

theorem NoNew.addRef (b : Ptr) : NoNew S (addRef b : M (W V) _) :=
  NoNew.rdBlk b fun hb _ => .modVar b _ fun _ _ => hb

theorem NoNew.swapShared (l m : Loc) : NoNew S (swapShared l m : M (W V) _) := by
  unfold SP.swapShared
  repeat first
    | exact NoNew.setH _ _ _
    | refine (NoNew.getH _ _).bind fun _ => ?_
    | refine (NoNew.setH _ _ _).bind fun _ => ?_

theorem NoNew.moveShared (l : Loc) : NoNew S (moveShared l : M (W V) _) :=
  NoNew.newShared.bind fun _ => (NoNew.swapShared _ _).bind fun _ => .pure _

theorem NoNew.dropObj (p : Ptr) : NoNew S (dropObj p : M (W V) _) := by
  intro w a w' hi h
  unfold Runs Nestl.dropObj at h
  split at h
  · cases h
    exact hi.upd (by intro c e; cases e)
  · cases h

theorem dropSharedD_sim {d : Nat} (hd : S.length ≤ d) (hi : Inside S w) (p : Ptr) : Sim (dropSharedD d p) (dropShared p) w := by
  refine Sim.then fun h w1 h1 => Sim.then fun _ w2 h2 => ?_
  have hi2 := NoNew.dropObj p _ _ _ (NoNew.getH _ _ _ _ _ hi h1) h2
  split
  · exact .refl _ _
  · exact releaseD_sim hd hi2.within

/-- A program followed by a release. -/
theorem NoNew.sim {m : M (W V) α} {k l : α → M (W V) β} (hm : NoNew S m) (hi : Inside S w)
    (hk : ∀ a w', Inside S w' → Sim (k a) (l a) w') : Sim (m >>= k) (m >>= l) w :=
  Sim.then fun a w' hr => hk a w' (hm _ _ _ hi hr)

theorem assignSharedYD_sim {d : Nat} (hd : S.length ≤ d) (hi : Inside S w) (l m : Loc) :
    Sim (assignSharedYD d l m) (assignSharedY l m) w := by
  refine NoNew.newShared.sim hi fun tmp w hi => ?_
  refine (NoNew.swapShared _ _).sim hi fun _ w hi => ?_
  refine (NoNew.getH _ _).sim hi fun _ w hi => ?_
  refine (NoNew.getH _ _).sim hi fun _ w hi => ?_
  refine (NoNew.setH _ _ _).sim hi fun _ w hi => ?_
  refine (NoNew.getH _ _).sim hi fun _ w hi => ?_
  refine (NoNew.getH _ _).sim hi fun _ w hi => ?_
  refine (NoNew.setH _ _ _).sim hi fun _ w hi => ?_
  refine (NoNew.getH _ _).sim hi fun _ w hi => ?_
  split
  · exact dropSharedD_sim hd hi tmp
  · exact (NoNew.addRef _).sim hi fun _ w hi => dropSharedD_sim hd hi tmp

theorem execD_sim {d : Nat} (hd : S.length ≤ d) (hi : Inside S w) (c : Call V) : Sim (execD d c) (exec c) w := by
  cases c with
  | dropShared p => exact (dropSharedD_sim hd hi p).bind fun _ _ _ => .refl _ _
  | assignSharedY l m => exact (assignSharedYD_sim hd hi l m).bind fun _ _ _ => .refl _ _
  | assignShared l m =>
    refine Sim.bind ?_ fun _ _ _ => .refl _ _
    unfold assignSharedD assignShared
    split
    · exact assignSharedYD_sim hd hi l m
    · exact .refl _ _
  | moveAssignShared l m =>
    refine Sim.bind ?_ fun _ _ _ => .refl _ _
    refine (NoNew.moveShared _).sim hi fun tmp w hi => ?_
    exact (dropSharedD_sim hd hi tmp).bind fun _ _ _ => .refl _ _
  | resetShared l =>
    refine Sim.bind ?_ fun _ _ _ => .refl _ _
    refine NoNew.newShared.sim hi fun tmp w hi => ?_
    exact (NoNew.swapShared _ _).sim hi fun _ w hi => dropSharedD_sim hd hi tmp
  | _ => exact .refl _ _

end
end
end Nestl.SP
