import Verif.RBTree.EraseFix
import Verif.RBTree.EraseUnlink
set_option autoImplicit false
/-
A potential of red-black trees that pays for the passes of the rebalancing loops.
-/
namespace Nestl.RB
variable {K : Type}

/-- Specification (no code): the weight of a node of colour `c` with children of colours `a` and `b`: only black nodes count, with 1 if both
children are black and 2 if both are red. -/
def fw : Color → Color → Color → Nat
  | .black, .black, .black => 1
  | .black, .red, .red => 2
  | _, _, _ => 0

/-- Specification (no code): the potential of a tree: the sum of the weights of its nodes. -/
def phi : T K → Nat
  | .nil => 0
  | .node _ c l _ r => phi l + phi r + fw c l.color r.color

/-- Specification (no code): the potential of a context around a hole of colour `c`. -/
def cphi : Ctx K → Color → Nat
  | [], _ => 0
  | f :: fs, c => phi f.sib + fw f.c c f.sib.color + cphi fs f.c

theorem fw_comm (c a b : Color) : fw c a b = fw c b a := by cases c <;> cases a <;> cases b <;> rfl
theorem fw_le (c a b : Color) : fw c a b ≤ 2 := by cases c <;> cases a <;> cases b <;> simp [fw]
theorem fw_red (a b : Color) : fw .red a b = 0 := by cases a <;> cases b <;> rfl
theorem fw_bbb : fw .black .black .black = 1 := rfl
theorem fw_brr : fw .black .red .red = 2 := rfl
theorem fw_bbr : fw .black .black .red = 0 := rfl
theorem fw_brb : fw .black .red .black = 0 := rfl

theorem fw_bb_le (a : Color) : fw .black .black a ≤ 1 := by cases a <;> simp [fw]

theorem phi_mk (s : Side) (p c) (a : T K) (k b) : phi (mk s p c a k b) = phi a + phi b + fw c a.color b.color := by
  cases s
  · rfl
  · simp only [mk, phi]; rw [fw_comm]; omega

theorem phi_plug (ctx : Ctx K) (t : T K) : phi (plug ctx t) = phi t + cphi ctx t.color := by
  induction ctx generalizing t with
  | nil => rfl
  | cons f fs ih => rw [plug, ih, phi_mk, mk_color, cphi]; omega

theorem cphi_le (ctx : Ctx K) (a b : Color) : cphi ctx a ≤ cphi ctx b + 2 := by
  cases ctx with
  | nil => simp [cphi]
  | cons f fs =>
    have := fw_le f.c a f.sib.color
    simp only [cphi]; omega

theorem cphi_red {ctx : Ctx K} (h : ¬ topBlack ctx) (a b : Color) : cphi ctx a = cphi ctx b := by
  cases ctx with
  | nil => rfl
  | cons f fs =>
    have hf : f.c = .red := by
      cases hc : f.c
      · rfl
      · exact absurd hc h
    simp only [cphi, hf, fw_red]

theorem phi_blacken (t : T K) : phi t.blacken ≤ phi t + 2 := by
  cases t with
  | nil => simp [T.blacken]
  | node p c l k r =>
    have := fw_le .black l.color r.color
    simp only [T.blacken, phi]; omega

/-- Blackening the node in the hole. -/
theorem phi_plug_blacken (ctx : Ctx K) (t : T K) : phi (plug ctx t.blacken) ≤ phi (plug ctx t) + 4 := by
  rw [phi_plug, phi_plug]
  have := phi_blacken t
  have := cphi_le ctx t.blacken.color t.color
  omega

theorem cphi_append {c1 : Ctx K} {f g : Frame K} {c2 : Ctx K} {c : Color} (hc : f.c = g.c) (hs : f.sib = g.sib) :
    cphi (c1 ++ f :: c2) c = cphi (c1 ++ g :: c2) c := by
  induction c1 generalizing c with
  | nil => simp only [List.nil_append, cphi, hc, hs]
  | cons a c1 ih => simp only [List.cons_append, cphi, ih]

/-- Removing a node with at most one child. -/
theorem phi_remove {C : Ctx K} {s : Side} {p c k} {x : T K} : phi (plug C x) ≤ phi (plug C (mk s p c .nil k x)) + 2 := by
  rw [phi_plug, phi_plug, phi_mk, mk_color]
  have := cphi_le C x.color c
  omega

theorem phi_le (t : T K) : phi t ≤ 2 * t.nodes.length := by
  induction t with
  | nil => simp [phi]
  | node p c l k r h1 h2 =>
    have := fw_le c l.color r.color
    simp only [phi, T.nodes, List.length_append, List.length_cons]; omega

end Nestl.RB
