import Verif.Threads.Model
import Verif.SharedPtr.Depth
set_option autoImplicit false
/-
The functions of the control block of `Verif/Threads/Model.lean`, executed by one thread without interruption, do what
those of `Verif/SharedPtr/Model.lean` do.
-/
namespace Nestl.Th
open Nestl.SP (W Blk Cell Obj)
variable {V : Type} {w : W V} {a sh wk : Nat} {c : Blk V} {m : Mem}

/-- The two descriptions of the control block agree. -/
def Agree (m : Mem) : Option (Cell V) → Prop
  | some (.blk c) => m.freed = 0 ∧ m.use = c.use ∧ m.weak = c.weak ∧ m.died = (if c.obj.isSome then 0 else 1)
  | none => m.freed = 1
  | _ => False

/-- A thread alone makes `k` accesses. -/
def alone : Nat → Mem × Thread → Except Fault (Mem × Thread)
  | 0, s => .ok s
  | k + 1, (m, t) => match micro m t with
    | .ok s => alone k s
    | .error f => .error f

/-- A function begun at `p` ends after some accesses, and then the thread owns `sh'` and `wk'` smart pointers and the control
block is as in `cell`. -/
def Ends (m : Mem) (p : Pc) (sh wk sh' wk' : Nat) (cell : Option (Cell V)) : Prop :=
  ∃ k m', alone k (m, ⟨p, sh, wk⟩) = .ok (m', ⟨.idle, sh', wk'⟩) ∧ Agree m' cell ∧ m'.boxSh = m.boxSh ∧ m'.boxWk = m.boxWk

theorem addRef_alone (hb : w.heap (.dyn a) = some (.blk c)) (hm : Agree m (w.heap (.dyn a))) :
    wp (SP.addRef (.dyn a)) w fun _ w' => Ends m .add0 sh wk (sh + 1) wk (w'.heap (.dyn a)) := by
  rw [hb] at hm
  obtain ⟨h1, h2, h3, h4⟩ := hm
  unfold SP.addRef
  rw [wp_bind, SP.wp_rdBlk hb (by simp), SP.wp_setBlk hb (by simp)]
  refine ⟨3, { m with use := m.use + 1 }, ?_, ?_, rfl, rfl⟩
  · simp [alone, micro, onBlock, check, h1, show (0 : Int) ≤ m.use by omega]
  · simp only [World.setHeap, upd_same]
    exact ⟨h1, by simp only; omega, h3, h4⟩

theorem weakAddRef_alone (hb : w.heap (.dyn a) = some (.blk c)) (hm : Agree m (w.heap (.dyn a))) :
    wp (SP.weakAddRef (.dyn a)) w fun _ w' => Ends m .wadd0 sh wk sh (wk + 1) (w'.heap (.dyn a)) := by
  rw [hb] at hm
  obtain ⟨h1, h2, h3, h4⟩ := hm
  unfold SP.weakAddRef
  rw [wp_bind, SP.wp_rdBlk hb (by simp), SP.wp_setBlk hb (by simp)]
  refine ⟨3, { m with weak := m.weak + 1 }, ?_, ?_, rfl, rfl⟩
  · simp [alone, micro, onBlock, check, h1, show (0 : Int) ≤ m.weak by omega]
  · simp only [World.setHeap, upd_same]
    exact ⟨h1, h2, by simp only; omega, h4⟩

theorem weakRelease_alone (hb : w.heap (.dyn a) = some (.blk c)) (hm : Agree m (w.heap (.dyn a))) (hc : 0 < c.weak)
    (ho : c.owner = SP.defaultAlloc) :
    wp (SP.weakRelease (.dyn a)) w fun _ w' => Ends m .wrel0 sh wk sh wk (w'.heap (.dyn a)) := by
  rw [hb] at hm
  obtain ⟨h1, h2, h3, h4⟩ := hm
  unfold SP.weakRelease
  rw [wp_bind, SP.wp_rdBlk hb (by simp), wp_bind, wp_assertM]
  refine ⟨by simpa using hc, ?_⟩
  rw [wp_bind, SP.wp_setBlk hb (by simp)]
  have e0 : (0 : Int) < m.weak := by omega
  by_cases e1 : c.weak - 1 = 0
  · have f1 : m.weak - 1 = 0 := by omega
    by_cases e2 : c.use = 0
    · have f2 : m.use = 0 := by omega
      rw [if_pos ⟨e1, e2⟩, SP.wp_destroySelf (upd_same ..) rfl (by exact ho)]
      refine ⟨6, { m with weak := m.weak - 1, freed := m.freed + 1 }, ?_, ?_, rfl, rfl⟩
      · simp [alone, micro, onBlock, check, h1, e0, f1, f2]
      · simp only [World.setHeap, upd_same]
        show m.freed + 1 = 1
        omega
    · have f2 : ¬ m.use = 0 := by omega
      rw [if_neg (fun h => e2 h.2), wp_pure]
      refine ⟨5, { m with weak := m.weak - 1 }, ?_, ?_, rfl, rfl⟩
      · simp [alone, micro, onBlock, check, h1, e0, f1, f2]
      · simp only [World.setHeap, upd_same]
        exact ⟨h1, h2, by simp only; omega, h4⟩
  · have f1 : ¬ m.weak - 1 = 0 := by omega
    rw [if_neg (fun h => e1 h.1), wp_pure]
    refine ⟨4, { m with weak := m.weak - 1 }, ?_, ?_, rfl, rfl⟩
    · simp [alone, micro, onBlock, check, h1, e0, f1]
    · simp only [World.setHeap, upd_same]
      exact ⟨h1, h2, by simp only; omega, h4⟩

/-- An object without members. -/
theorem release_alone {v : V} (hb : w.heap (.dyn a) = some (.blk c)) (hm : Agree m (w.heap (.dyn a))) (hc : 0 < c.use)
    (ho : c.owner = SP.defaultAlloc) (hv : c.obj = some ⟨v, []⟩) :
    wp (SP.release (.dyn a)) w fun _ w' => Ends m .rel0 sh wk sh wk (w'.heap (.dyn a)) := by
  rw [hb] at hm
  obtain ⟨h1, h2, h3, h4⟩ := hm
  rw [hv] at h4
  rw [SP.release_eq]
  unfold SP.releaseW
  rw [wp_bind, SP.wp_rdBlk hb (by simp), wp_bind, wp_assertM]
  refine ⟨by simpa using hc, ?_⟩
  rw [wp_bind, SP.wp_setBlk hb (by simp)]
  have e0 : (0 : Int) < m.use := by omega
  have e4 : m.died = 0 := h4
  by_cases e1 : c.use - 1 = 0
  · have f1 : m.use - 1 = 0 := by omega
    rw [if_pos e1, wp_bind]
    unfold SP.destroyValueW
    rw [wp_bind, SP.wp_rdObj (upd_same ..) (by exact hv) (by simp)]
    simp only [List.length_nil, SP.destroyMembersW]
    rw [wp_bind, wp_pure]
    unfold SP.endObj
    rw [wp_bind, SP.wp_rdBlk (upd_same ..) (by simp), SP.wp_setBlk (upd_same ..) (by simp), wp_bind, SP.wp_rdBlk (upd_same ..) (by simp)]
    by_cases e2 : c.weak = 0
    · have f2 : m.weak = 0 := by omega
      rw [if_pos (by exact e2), SP.wp_destroySelf (upd_same ..) rfl (by exact ho)]
      refine ⟨7, { m with use := m.use - 1, died := m.died + 1, freed := m.freed + 1 }, ?_, ?_, rfl, rfl⟩
      · simp [alone, micro, onBlock, check, h1, e0, f1, f2, e4]
      · simp only [World.setHeap, upd_same]
        show m.freed + 1 = 1
        omega
    · have f2 : ¬ m.weak = 0 := by omega
      rw [if_neg (by exact e2), wp_pure]
      refine ⟨6, { m with use := m.use - 1, died := m.died + 1 }, ?_, ?_, rfl, rfl⟩
      · simp [alone, micro, onBlock, check, h1, e0, f1, f2, e4]
      · simp only [World.setHeap, upd_same]
        exact ⟨h1, by simp only; omega, h3, by simp [e4]⟩
  · have f1 : ¬ m.use - 1 = 0 := by omega
    rw [if_neg e1, wp_pure]
    refine ⟨4, { m with use := m.use - 1 }, ?_, ?_, rfl, rfl⟩
    · simp [alone, micro, onBlock, check, h1, e0, f1]
    · simp only [World.setHeap, upd_same]
      exact ⟨h1, by simp only; omega, h3, by rw [hv]; exact h4⟩

/-- A block with one owner and one weak pointer. -/
example : ∃ (w : W Nat) (c : Blk Nat) (m : Mem), w.heap (.dyn 3) = some (.blk c) ∧ Agree m (w.heap (.dyn 3)) ∧ 0 < c.use ∧
    c.owner = SP.defaultAlloc ∧ c.obj = some ⟨7, []⟩ :=
  ⟨⟨fun _ => some (.blk ⟨1, 1, some ⟨7, []⟩, 0⟩), ⟨fun _ => none, fun _ => true, fun _ => .lost⟩, 0, 0, 0, 0, none⟩,
    _, ⟨1, 1, 0, 0, 0, 0⟩, rfl, ⟨rfl, rfl, rfl, rfl⟩, by decide, rfl, rfl⟩

end Nestl.Th
