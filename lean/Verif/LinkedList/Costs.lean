import Verif.LinkedList.Mute
import Verif.LinkedList.Asks
set_option autoImplicit false
/-
C116 (lists of values): which calls on lists call no comparator.
-/
namespace Nestl.LC
open Nestl.LL
variable {V : Type} {w w' : W V} {c : Call V} {r : Res}

/-- Calls on lists other than `merge` and `sort`. -/
def Unordered : Call V → Prop
  | .merge _ _ _ | .sort _ _ => False
  | _ => True

/-- C116: calls on lists other than `merge` and `sort` call no comparator, whether they succeed or fail. -/
theorem list_no_comparisons (hc : Unordered c) (h : Runs (exec c) (ready w) r w') : w'.nCmp = w.nCmp := by
  suffices hm : Mute (exec c) from hm (ready w) _ _ h
  cases c
  case create => exact .bind (Mute.newList _) fun _ => .pure _
  case insert => exact .bind (Mute.emplace _ _ _) fun _ => .pure _
  case insertN => exact .bind (Mute.insertN _ _ _ _) fun _ => .pure _
  case insertRange => exact .bind (Mute.insertRange _ _ _) fun _ => .pure _
  case erase => exact .bind (Mute.erase _ _) fun _ => .pure _
  case eraseRange => exact .bind (Mute.eraseRange _ _ _) fun _ => .pure _
  case pushBack => exact .bind (Mute.pushBack _ _) fun _ => .pure _
  case pushFront => exact .bind (Mute.pushFront _ _) fun _ => .pure _
  case popBack => exact .bind (Mute.popBack _) fun _ => .pure _
  case popFront => exact .bind (Mute.popFront _) fun _ => .pure _
  case clear => exact .bind (Mute.clear _) fun _ => .pure _
  case assignN => exact .bind (Mute.assignN _ _ _) fun _ => .pure _
  case assignVals => exact .bind (Mute.assignVals _ _) fun _ => .pure _
  case assignRange => exact .bind (Mute.assignIt _ _ _) fun _ => .pure _
  case copy => exact .bind (Mute.copyNothrow _ _) fun _ => .pure _
  case move => exact .bind (Mute.moveCtor _) fun _ => .pure _
  case moveAssign => exact .bind (Mute.moveAssign _ _) fun _ => .pure _
  case swap => exact .bind (Mute.swap _ _) fun _ => .pure _
  case merge => exact hc.elim
  case spliceAll => exact .bind (Mute.spliceAll _ _) fun _ => .pure _
  case spliceOne => exact .bind (Mute.spliceOne _ _) fun _ => .pure _
  case spliceRange => exact .bind (Mute.spliceRange _ _ _) fun _ => .pure _
  case sort => exact hc.elim
  case destroy => exact .bind (Mute.destroyList _) fun _ => .pure _

/-- Copying a list of two elements over another list calls no comparator. -/
example : ∃ (w : W Nat) (s t : Ptr) (r : Res) (w' : W Nat), Reach w ∧ Creates w (.copy s t) 2 ∧ Runs (exec (.copy s t)) (ready w) r w' ∧
    w'.nCmp = w.nCmp := by
  obtain ⟨w, s, t, u, p, q, r, x, y, z, h1, h2, h3, h4, h5, h6, h7, h8, h9, h10, h11, h12, h13, -⟩ := demo
  have hv : Valid w (.copy s t) := ⟨h6, h7, .inl h12, h3⟩
  obtain ⟨A, hs⟩ := h1.sim
  obtain ⟨r, w', h, -⟩ := (hs.call hv).runs
  exact ⟨w, s, t, r, w', h1, ⟨_, h10, rfl⟩, h, list_no_comparisons (c := .copy s t) trivial h⟩

end Nestl.LC
