import Verif.RBTree.CopyOp
import Verif.RBTree.Erase
import Verif.RBTree.SwapOps
set_option autoImplicit false
/-
The operations of the tree need a stack whose depth is logarithmic in the number of elements.
-/
namespace Nestl.RB
variable {K : Type}

/-- Room for this many nested calls is enough for all operations on a tree with `n` elements. -/
def frames (n : Nat) : Nat := 2 * Nat.log2 (n + 1) + 2

theorem frames_mono {m n : Nat} (h : m ≤ n) : frames m ≤ frames n := by
  have : Nat.log2 (m + 1) ≤ Nat.log2 (n + 1) :=
    (Nat.le_log2 (by omega)).2 (Nat.le_trans (Nat.log2_self_le (by omega)) (by omega))
  unfold frames; omega

section
variable {hdr src : Ptr} {w : W K} {t t0 : T K} {o o' d : Nat}

theorem mEraseD_agree (h : Tree w.heap hdr o t) (hd : frames t.nodes.length ≤ d) :
    mEraseD hdr d t.ptr w = mErase hdr t.ptr w := by
  have := h.rdepth_le
  unfold frames at hd
  exact (RB.Sub.mEraseD hdr d t.ptr).agree
    (wp_mEraseD (Q := fun _ _ => True) (by omega) h.rep h.ok h.cell rfl (fun _ _ _ => trivial))

theorem rd_root (h : Tree w.heap hdr o t) {n : TNode K} {w' : W K} (hr : Runs (rd hdr) w n w') : n.parent = t.ptr ∧ w' = w := by
  have := Runs.wp (Q := fun n w' => n.parent = t.ptr ∧ w' = w) (by rw [wp_rd h.cell h.hdr_ne]; exact ⟨rfl, rfl⟩) hr
  exact this

theorem rd_same {p : Ptr} {n : TNode K} {w' : W K} (hr : Runs (rd p) w n w') : w' = w ∧ w.heap p = some n := by
  unfold Runs rd at hr
  split at hr
  · cases hr
  · split at hr
    · rename_i h; cases hr; exact ⟨rfl, h⟩
    · cases hr

theorem clearD_agree (h : Tree w.heap hdr o t) (hd : frames t.nodes.length ≤ d) : clearD d hdr w = clear hdr w := by
  unfold clearD clear
  refine bind_agree rfl fun n w1 hr => ?_
  obtain ⟨h1, rfl⟩ := rd_root h hr
  rw [h1]
  exact bind_agree (mEraseD_agree h hd) fun _ _ _ => rfl

theorem destroyTreeD_agree (h : Tree w.heap hdr o t) (hd : frames t.nodes.length ≤ d) :
    destroyTreeD d hdr w = destroyTree hdr w := by
  unfold destroyTreeD destroyTree
  refine bind_agree rfl fun n w1 hr => ?_
  obtain ⟨h1, rfl⟩ := rd_root h hr
  rw [h1]
  exact bind_agree (mEraseD_agree h hd) fun _ _ _ => rfl

/-- With less room than this the stack overflows. -/
theorem faults_clearD (h : Tree w.heap hdr o t) (hd : 4 ^ d ≤ t.nodes.length) :
    Faults (clearD (d + 1) hdr) w .stackOverflow ∧ Faults (destroyTreeD (d + 1) hdr) w .stackOverflow := by
  have h1 := h.size_lt
  have h2 : d + 1 < t.rdepth := by
    refine Nat.lt_of_not_le fun hle => ?_
    have : 4 ^ (t.rdepth - 1) ≤ 4 ^ d := Nat.pow_le_pow_right (by omega) (by omega)
    omega
  have h3 := faults_mEraseD h2 h.rep h.ok h.cell rfl
  constructor
  · refine wp.faults_bind ?_
    rw [wp_rd h.cell h.hdr_ne]
    exact Faults.bind h3
  · refine wp.faults_bind ?_
    rw [wp_rd h.cell h.hdr_ne]
    exact Faults.bind h3

theorem eraseRangeD_agree (h : Tree w.heap hdr o t) (hd : frames t.nodes.length ≤ d) (first last : Ptr) :
    eraseRangeD d hdr first last w = eraseRange hdr first last w := by
  unfold eraseRangeD eraseRange
  refine bind_agree rfl fun b w1 hr => ?_
  have : w1 = w := by
    obtain ⟨n, w2, h1, h2⟩ := runs_steps (show Runs (rd hdr >>= fun n => pure n.left) w b w1 from hr)
    cases h2; exact (rd_root h h1).2
  subst this
  split
  · exact bind_agree (clearD_agree h hd) fun _ _ _ => rfl
  · rfl

theorem eraseKeyD_agree {lt : K → K → Bool} (h : Tree w.heap hdr o t) (hd : frames t.nodes.length ≤ d) (k : K) :
    eraseKeyD lt d hdr k w = eraseKey lt hdr k w := by
  unfold eraseKeyD eraseKey
  refine bind_agree rfl fun r w1 hr => ?_
  have hw1 : w1.heap = w.heap := Runs.wp (Q := fun _ w' => w'.heap = w.heap) (wp_equalRange h (fun _ _ _ _ _ _ _ => rfl)) hr
  rw [← hw1] at h
  refine bind_agree rfl fun b w2 hr2 => ?_
  have : w2 = w1 := by
    obtain ⟨n, w3, h1, h2⟩ := runs_steps (show Runs (rd hdr >>= fun n => pure n.count) w1 b w2 from hr2)
    cases h2; exact (rd_root h h1).2
  subst this
  exact bind_agree (eraseRangeD_agree h hd _ _) fun _ _ _ => rfl

theorem eraseKeysD_agree {lt : K → K → Bool} (ks : List K) (h : Tree w.heap hdr o t) (hd : frames t.nodes.length ≤ d) :
    eraseKeysD lt d hdr ks w = eraseKeys lt hdr ks w := by
  induction ks generalizing w t with
  | nil => rfl
  | cons k ks ih =>
    unfold eraseKeysD eraseKeys
    refine bind_agree (eraseKeyD_agree h hd k) fun _ w1 hr => ?_
    obtain ⟨t1, h1, h2⟩ := Runs.wp (Q := fun _ w' => ∃ t', Tree w'.heap hdr o t' ∧ t'.nodes.length ≤ t.nodes.length) (wp_eraseKey h
      (fun n H' t' A M B _ e _ ht e' _ _ => ⟨t', ht, by rw [e, e']; simp⟩)) hr
    exact ih h1 (Nat.le_trans (frames_mono h2) hd)

theorem moveAssignD_agree {prop : Bool} (h : Tree w.heap hdr o t) (hd : frames t.nodes.length ≤ d) :
    moveAssignD d prop hdr src w = moveAssign prop hdr src w := by
  unfold moveAssignD moveAssign
  refine bind_agree rfl fun n w1 hr => ?_
  obtain ⟨-, rfl⟩ := rd_root h hr
  refine bind_agree rfl fun n' w2 hr' => ?_
  obtain ⟨rfl, -⟩ := rd_same hr'
  split
  · exact bind_agree (clearD_agree h hd) fun _ _ _ => rfl
  · rfl

/-- The header still exists, and nothing else was changed apart from the nodes of `t0`. -/
def Intact (hdr : Ptr) (t0 : T K) (w w' : W K) : Prop :=
  (∃ n, w'.heap hdr = some n) ∧ ∀ q, q ≠ hdr → q ∉ t0.ptrs → w'.heap q = w.heap q

theorem Intact.allocOnCopy {prop : Bool} {w1 w2 : W K} {u : Unit} (k : Intact hdr t0 w w1)
    (hr : Runs (allocOnCopy prop hdr src) w1 u w2) : Intact hdr t0 w w2 := by
  cases prop with
  | false => cases hr; exact k
  | true =>
    unfold RB.allocOnCopy at hr
    rw [if_pos rfl] at hr
    obtain ⟨n, w3, h1, h2⟩ := runs_steps hr
    obtain ⟨rfl, -⟩ := rd_same h1
    unfold Runs modCell at h2
    dsimp only at h2
    split at h2
    · cases h2
    · split at h2
      · cases h2
        refine ⟨⟨_, upd_same _ _ _⟩, fun q e1 e2 => ?_⟩
        exact (upd_other _ _ e1).trans (k.2 q e1 e2)
      · cases h2

theorem tryCtor_heap {b : Bool} {w' : W K} (hr : Runs tryCtor w b w') : w'.heap = w.heap := by
  unfold Runs tryCtor at hr
  dsimp only at hr
  split at hr <;> cases hr <;> rfl

theorem copyNothrowD_agree {prop : Bool} (h : Tree w.heap hdr o t0) (hs : Tree w.heap src o' t)
    (hdis : ∀ q ∈ t0.ptrs, q ∉ t.ptrs) (herr : w.err = none)
    (hd : frames t0.nodes.length ≤ d) (hds : frames t.nodes.length ≤ d) :
    copyNothrowD d prop hdr src w = copyNothrow prop hdr src w := by
  unfold copyNothrowD copyNothrow
  split
  case isFalse => rfl
  case isTrue hne =>
  have hht : hdr ∉ t.ptrs := by
    intro e; obtain ⟨i, hi⟩ := hs.ok.dyn _ e; obtain ⟨j, hj⟩ := h.ok.hdr; rw [hi] at hj; cases hj
  have hst0 : src ∉ t0.ptrs := by
    intro e; obtain ⟨i, hi⟩ := h.ok.dyn _ e; obtain ⟨j, hj⟩ := hs.ok.hdr; rw [hi] at hj; cases hj
  refine bind_agree (clearD_agree h hd) fun _ w1 hr1 => ?_
  have k1 : Intact hdr t0 w w1 := Runs.wp (Q := fun _ w' => Intact hdr t0 w w')
    (wp_clear h (fun H' ht _ hf => ⟨⟨_, ht.cell⟩, hf⟩)) hr1
  refine bind_agree rfl fun _ w2 hr2 => ?_
  have k2 := k1.allocOnCopy hr2
  refine bind_agree rfl fun b w3 hr3 => ?_
  cases hr3
  split
  · rfl
  refine bind_agree rfl fun b w4 hr4 => ?_
  have k4 : Intact hdr t0 w w4 := by
    refine ⟨?_, fun q h1 h2 => ?_⟩
    · rw [tryCtor_heap hr4]; exact k2.1
    · rw [tryCtor_heap hr4]; exact k2.2 q h1 h2
  refine bind_agree rfl fun b w5 hr5 => ?_
  cases hr5
  split
  · rfl
  rename_i herr4
  refine bind_agree rfl fun n w6 hr6 => ?_
  obtain ⟨rfl, hn⟩ := rd_same hr6
  rw [k4.2 src (Ne.symm hne) hst0, hs.cell] at hn
  cases hn
  split
  case isFalse => rfl
  case isTrue hp =>
  refine bind_agree rfl fun n w7 hr7 => ?_
  obtain ⟨rfl, hn⟩ := rd_same hr7
  rw [k4.2 src (Ne.symm hne) hst0, hs.cell] at hn
  cases hn
  refine bind_agree ?_ fun _ _ _ => rfl
  have htn : t ≠ .nil := by rintro rfl; exact hp rfl
  have hrd := hs.rdepth_le
  unfold frames at hds
  refine (RB.Sub.mCopyD hdr d _ _).agree (Q := fun _ _ => True)
    ((copyD_spec (o := (w7.heap hdr).elim 0 (·.owner)) h.ok.hdr t d).1 (by omega) htn (o' := o') (pr := src) ?_ hs.null_notMem ?_ h.ok.hdr ?_
      (fun _ _ _ _ _ _ _ => trivial) (fun _ _ _ => trivial))
  · refine Rep_congr (fun q hq => k4.2 q ?_ fun e => hdis q e hq) hs.rep
    rintro rfl; exact hht hq
  · obtain ⟨n, hn⟩ := k4.1
    exact ⟨n, hn, by rw [hn]; rfl⟩
  · cases he : w7.err with
    | none => rfl
    | some e => rw [he] at herr4; exact absurd rfl herr4

end
end Nestl.RB
