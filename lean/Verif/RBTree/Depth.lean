import Verif.Stack
import Verif.RBTree.ModelDepth
import Verif.RBTree.Move
import Verif.RBTree.Bounds
set_option autoImplicit false
/-
How deep `m_erase` recurses.
-/
namespace Nestl.RB
variable {K : Type}

/-- Number of nested activations of `m_erase` on a tree: a step to the right is a call, a step to the left is not. -/
def T.rdepth : T K → Nat
  | .nil => 1
  | .node _ _ l _ r => max l.rdepth (r.rdepth + 1)

theorem T.rdepth_pos (t : T K) : 0 < t.rdepth := by
  cases t with
  | nil => simp [T.rdepth]
  | node p c l k r => simp only [T.rdepth]; omega

theorem Sub.mEraseW {rec : Ptr → M (W K) Unit} {hdr : Ptr} (h : ∀ x, Sub (rec x) (mErase hdr x)) (x : Ptr) :
    Sub (mEraseW rec hdr x) (mErase hdr x) := by
  revert x
  refine RB.mEraseW.fixpoint_induct rec hdr _ (Sub.admissible1 _) ?_
  intro f hf x
  rw [mErase]
  refine .ite (.bind (.refl _) fun _ => .bind (h _) fun _ => .bind (.refl _) fun _ => .bind (.refl _) fun _ => hf _) (.refl _)

theorem Sub.mEraseD (hdr : Ptr) (d : Nat) (x : Ptr) : Sub (mEraseD (K := K) hdr d x) (mErase hdr x) := by
  induction d generalizing x with
  | zero => exact .fault _ _
  | succ d ih => exact RB.Sub.mEraseW ih x

section
variable {hdr : Ptr} {w : W K} {o : Nat} {t : T K}

theorem wp_mEraseD {d : Nat} {hn : TNode K} {par : Ptr} {Q : Unit → W K → Prop} (hd : t.rdepth ≤ d) (hr : Rep w.heap o par t)
    (hok : PtrsOk hdr t.ptrs) (hh : w.heap hdr = some hn) (ho : hn.owner = o)
    (hQ : ∀ H', (∀ q ∈ t.ptrs, H' q = none) → (∀ q, q ∉ t.ptrs → H' q = w.heap q) → Q () (w.setHeap H')) :
    wp (mEraseD hdr d t.ptr) w Q := by
  induction t generalizing w par Q d with
  | nil =>
    obtain ⟨d, rfl⟩ : ∃ e, d = e + 1 := ⟨d - 1, by simp only [T.rdepth] at hd; omega⟩
    rw [mEraseD, mEraseW]
    refine wp_if_neg (by simp [T.ptr]) ?_
    exact hQ w.heap (by simp [T.ptrs, T.nodes]) (fun _ _ => rfl)
  | node p c l k r ihl ihr =>
    simp only [T.rdepth] at hd
    obtain ⟨d, rfl⟩ : ∃ e, d = e + 1 := ⟨d - 1, by omega⟩
    have hmem : ∀ q, q ∈ (T.node p c l k r).ptrs ↔ q = p ∨ q ∈ l.ptrs ∨ q ∈ r.ptrs := fun q => by
      rw [ptrs_mk_L, mem_ptrs_mk]
    have hnd := (nodup_ptrs_mk (s := .L)).1 hok.nodup
    obtain ⟨hn1, hn2, hn3, hn4, hn5⟩ := hnd
    obtain ⟨a, rfl⟩ := hok.dyn p (by rw [hmem]; simp)
    have hokl : PtrsOk hdr l.ptrs := ⟨hn3, fun q hq => hok.dyn q (by rw [hmem]; simp [hq]), hok.hdr⟩
    have hokr : PtrsOk hdr r.ptrs := ⟨hn4, fun q hq => hok.dyn q (by rw [hmem]; simp [hq]), hok.hdr⟩
    have hh' : ∀ q, q ∈ (T.node (.dyn a) c l k r).ptrs → hdr ≠ q := by
      intro q hq e
      obtain ⟨i, hi⟩ := hok.hdr
      obtain ⟨j, hj⟩ := hok.dyn q hq
      rw [hi, hj] at e; cases e
    obtain ⟨hc, hrl, hrr⟩ := (Rep_mk (s := .L)).1 hr
    rw [T.ptr, mEraseD, mEraseW]
    refine wp_if_pos (by simp) ?_
    simp only [wp_bind]
    rw [wp_rd hc (by simp)]
    simp only [cellS]
    refine ihr (d := d) (by omega) hrr hokr hh ?_
    intro H1 h1a h1b
    have hc1 : H1 (.dyn a) = some _ := (h1b _ hn2).trans hc
    rw [wp_rd (by exact hc1) (by simp)]
    have hh1 : H1 hdr = some hn := (h1b _ (fun e => hh' hdr (by rw [hmem]; simp [e]) rfl)).trans hh
    refine wp_destroyNode (w := w.setHeap H1) rfl (by exact hc1) (cellS_val ..) (by exact hh1) hok.hdr
      (by rw [ho]; exact cellS_owner ..) ?_
    simp only [World.setHeap_heap, World.setHeap_setHeap]
    refine ihl (d := d + 1) (w := w.setHeap (upd H1 (.dyn a) none)) (par := .dyn a) (by omega) ?_ hokl ?_ ?_
    · refine Rep_upd (Rep_congr (fun q hq => h1b q ?_) hrl) hn1
      exact fun e => hn5 q hq e
    · exact (upd_other _ _ (hh' _ (by rw [hmem]; simp))).trans hh1
    · intro H2 h2a h2b
      refine hQ H2 ?_ ?_
      · intro q hq
        rw [hmem] at hq
        by_cases hql : q ∈ l.ptrs
        · exact h2a q hql
        · rw [h2b q hql]
          by_cases hqp : q = .dyn a
          · subst hqp; exact upd_same _ _ _
          · exact (upd_other _ _ hqp).trans (h1a q (by grind))
      · intro q hq
        rw [hmem] at hq
        rw [h2b q (by grind)]
        exact (upd_other _ _ (by grind)).trans (h1b q (by grind))

/-- With less room the stack overflows. -/
theorem faults_mEraseD {d : Nat} {hn : TNode K} {par : Ptr} (hd : d < t.rdepth) (hr : Rep w.heap o par t)
    (hok : PtrsOk hdr t.ptrs) (hh : w.heap hdr = some hn) (ho : hn.owner = o) :
    Faults (mEraseD hdr d t.ptr) w .stackOverflow := by
  induction t generalizing w par d with
  | nil =>
    obtain rfl : d = 0 := by simp only [T.rdepth] at hd; omega
    rfl
  | node p c l k r ihl ihr =>
    cases d with
    | zero => rfl
    | succ d =>
    simp only [T.rdepth] at hd
    have hmem : ∀ q, q ∈ (T.node p c l k r).ptrs ↔ q = p ∨ q ∈ l.ptrs ∨ q ∈ r.ptrs := fun q => by
      rw [ptrs_mk_L, mem_ptrs_mk]
    have hnd := (nodup_ptrs_mk (s := .L)).1 hok.nodup
    obtain ⟨hn1, hn2, hn3, hn4, hn5⟩ := hnd
    obtain ⟨a, rfl⟩ := hok.dyn p (by rw [hmem]; simp)
    have hokl : PtrsOk hdr l.ptrs := ⟨hn3, fun q hq => hok.dyn q (by rw [hmem]; simp [hq]), hok.hdr⟩
    have hokr : PtrsOk hdr r.ptrs := ⟨hn4, fun q hq => hok.dyn q (by rw [hmem]; simp [hq]), hok.hdr⟩
    have hh' : ∀ q, q ∈ (T.node (.dyn a) c l k r).ptrs → hdr ≠ q := by
      intro q hq e
      obtain ⟨i, hi⟩ := hok.hdr
      obtain ⟨j, hj⟩ := hok.dyn q hq
      rw [hi, hj] at e; cases e
    obtain ⟨hc, hrl, hrr⟩ := (Rep_mk (s := .L)).1 hr
    rw [T.ptr, mEraseD, mEraseW, if_pos (by simp)]
    refine wp.faults_bind ?_
    rw [wp_rd hc (by simp)]
    simp only [cellS]
    by_cases hrd : d < r.rdepth
    · exact Faults.bind (ihr hrd hrr hokr hh)
    · refine wp.faults_bind ?_
      refine wp_mEraseD (d := d) (by omega) hrr hokr hh ho ?_
      intro H1 h1a h1b
      have hc1 : H1 (.dyn a) = some _ := (h1b _ hn2).trans hc
      refine wp.faults_bind ?_
      rw [wp_rd (by exact hc1) (by simp)]
      have hh1 : H1 hdr = some hn := (h1b _ (fun e => hh' hdr (by rw [hmem]; simp [e]) rfl)).trans hh
      refine wp.faults_bind ?_
      refine wp_destroyNode (w := w.setHeap H1) rfl (by exact hc1) (cellS_val ..) (by exact hh1) hok.hdr
        (by rw [ho]; exact cellS_owner ..) ?_
      simp only [World.setHeap_heap, World.setHeap_setHeap]
      refine ihl (d := d + 1) (w := w.setHeap (upd H1 (.dyn a) none)) (par := .dyn a) (by omega) ?_ hokl ?_
      · refine Rep_upd (Rep_congr (fun q hq => h1b q ?_) hrl) hn1
        exact fun e => hn5 q hq e
      · exact (upd_other _ _ (hh' _ (by rw [hmem]; simp))).trans hh1

/-! ### Bounds -/

theorem RB_rdepth_le {n : Nat} (h : RB t n) : t.rdepth ≤ 2 * n + 1 + (if t.color = .red then 1 else 0) := by
  induction t generalizing n with
  | nil => simp only [T.rdepth]; omega
  | node p c l k r ihl ihr =>
    cases c with
    | red =>
      obtain ⟨h3, h4, h1, h2⟩ := h
      have := ihl h1; have := ihr h2
      simp only [h3, h4, reduceCtorEq, if_false] at *
      simp only [T.rdepth, T.color, if_true]; omega
    | black =>
      obtain ⟨m, rfl, h1, h2⟩ := h
      have := ihl h1; have := ihr h2
      simp only [T.rdepth, T.color, reduceCtorEq, if_false]
      have hb : ∀ c : Color, (if c = .red then 1 else 0) ≤ 1 := by intro c; split <;> omega
      have := hb l.color; have := hb r.color
      omega

theorem RB_rdepth_ge {n : Nat} (h : RB t n) : n + 1 ≤ t.rdepth := by
  induction t generalizing n with
  | nil => simp only [RB] at h; subst h; simp [T.rdepth]
  | node p c l k r ihl ihr =>
    cases c with
    | red =>
      obtain ⟨-, -, h1, h2⟩ := h
      have := ihr h2
      simp only [T.rdepth]; omega
    | black =>
      obtain ⟨m, rfl, h1, h2⟩ := h
      have := ihr h2
      simp only [T.rdepth]; omega

theorem RB_size_le {n : Nat} (h : RB t n) : t.nodes.length + 1 ≤ 4 ^ n * (if t.color = .red then 2 else 1) := by
  induction t generalizing n with
  | nil => simp only [RB] at h; subst h; simp [T.nodes, T.color]
  | node p c l k r ihl ihr =>
    cases c with
    | red =>
      obtain ⟨h3, h4, h1, h2⟩ := h
      have := ihl h1; have := ihr h2
      simp only [h3, h4, reduceCtorEq, if_false] at *
      simp only [T.nodes, List.length_append, List.length_cons, T.color, if_true]; omega
    | black =>
      obtain ⟨m, rfl, h1, h2⟩ := h
      have := ihl h1; have := ihr h2
      simp only [T.nodes, List.length_append, List.length_cons, T.color, reduceCtorEq, if_false, Nat.pow_succ]
      have hb : ∀ c : Color, 4 ^ m * (if c = .red then 2 else 1) ≤ 4 ^ m * 2 := by
        intro c; exact Nat.mul_le_mul_left _ (by split <;> omega)
      have := hb l.color; have := hb r.color
      omega

/-- The recursion depth of `m_erase` is at most `2 * log2 (size + 1) + 1`. -/
theorem Tree.rdepth_le {H : Ptr → Option (TNode K)} (h : Tree H hdr o t) :
    t.rdepth ≤ 2 * Nat.log2 (t.nodes.length + 1) + 1 := by
  obtain ⟨n, hn⟩ := h.rb
  have h1 := RB_rdepth_le hn
  rw [h.black] at h1
  simp only [reduceCtorEq, if_false] at h1
  have h2 : n ≤ Nat.log2 (t.nodes.length + 1) := (Nat.le_log2 (by omega)).2 (RB_size hn)
  omega

/-- A tree whose recursion depth is `d + 1` has fewer than `4 ^ d` elements. -/
theorem Tree.size_lt {H : Ptr → Option (TNode K)} (h : Tree H hdr o t) : t.nodes.length < 4 ^ (t.rdepth - 1) := by
  obtain ⟨n, hn⟩ := h.rb
  have h1 := RB_size_le hn
  rw [h.black] at h1
  simp only [reduceCtorEq, if_false] at h1
  have h2 := RB_rdepth_ge hn
  have : 4 ^ n ≤ 4 ^ (t.rdepth - 1) := Nat.pow_le_pow_right (by omega) (by omega)
  omega

end
end Nestl.RB
