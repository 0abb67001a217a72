import Verif.RBTree.Asks
import Verif.RBTree.CopyOp
set_option autoImplicit false
/-
A copy of a tree that fails has requested no more nodes than the source has (C112).
-/
namespace Nestl.RB
variable {K : Type} {w w' : W K} {hdr : Ptr} {o : Nat}

theorem runs_rd {p : Ptr} {n : TNode K} (h : Runs (rd p) w n w') : w' = w ∧ w.heap p = some n := by
  unfold Runs rd at h
  split at h
  · cases h
  · split at h
    · rename_i e; cases h; exact ⟨rfl, e⟩
    · cases h

theorem runs_modCell {p : Ptr} {f : TNode K → TNode K} {r : Unit} (h : Runs (modCell p f) w r w') :
    (∀ q, q ≠ p → w'.heap q = w.heap q) ∧ w'.heap p ≠ none ∧ w'.nAlloc = w.nAlloc ∧ w'.nCtor = w.nCtor ∧ w'.err = w.err := by
  unfold Runs modCell at h
  split at h
  · cases h
  · split at h
    · cases h
      exact ⟨fun q hq => upd_other _ _ hq, by simp [upd], rfl, rfl, rfl⟩
    · cases h

/-- At most `n` requests and constructions. -/
def AtMost (w w' : W K) (n : Nat) : Prop := w'.nAlloc ≤ w.nAlloc + n ∧ w'.nCtor ≤ w.nCtor + n

theorem Costs.cloneNode (hdr x : Ptr) : Costs 1 1 (cloneNode hdr x : M (W K) Ptr) := by
  unfold RB.cloneNode
  exact .bindQ (by quietly) fun _ => .check (i := 1) (j := 1) (i' := 0) (j' := 0) (Costs.createNode _ _) (fun _ => .pure _)
    fun _ => Quiet.costs (by quietly)

/-- The claim about `m_copy` ... -/
def CopyAtMost (hdr : Ptr) (o : Nat) (t : T K) : Prop :=
  ∀ {w w' : W K} {o' : Nat} {pr p r : Ptr}, t ≠ .nil → Rep w.heap o' pr t → Ptr.null ∉ t.ptrs → HdrOk w.heap hdr o → w.err = none →
    Runs (mCopy hdr t.ptr p) w r w' →
    AtMost w w' t.nodes.length ∧ (w'.err = none → ∀ q, w.heap q ≠ none → w'.heap q = w.heap q)

/-- ... and about its loop. -/
def LoopAtMost (hdr : Ptr) (o : Nat) (t : T K) : Prop :=
  ∀ {w w' : W K} {o' : Nat} {pr top p r : Ptr}, Rep w.heap o' pr t → Ptr.null ∉ t.ptrs → HdrOk w.heap hdr o → w.err = none →
    p ∉ t.ptrs → p ≠ hdr → Runs (mCopyLoop hdr top p t.ptr) w r w' →
    AtMost w w' t.nodes.length ∧ (w'.err = none → ∀ q, q ≠ p → w.heap q ≠ none → w'.heap q = w.heap q)

theorem HdrOk.same {H H' : Ptr → Option (TNode K)} (h : HdrOk H hdr o) (e : H' hdr = H hdr) : HdrOk H' hdr o := by
  obtain ⟨n, h1, h2⟩ := h; exact ⟨n, e.trans h1, h2⟩

/-- A cloned node is a new cell. -/
theorem clone_runs {x y : Ptr} {n : TNode K} {k : K} (hx : w.heap x = some n) (hxn : x ≠ .null) (hk : n.val = some k)
    (hh : HdrOk w.heap hdr o) (hs : ∃ i, hdr = .stk i) (herr : w.err = none) (h : Runs (cloneNode hdr x) w y w') :
    AtMost w w' 1 ∧ (w'.err = none → w.heap y = none ∧ ∀ q, q ≠ y → w'.heap q = w.heap q) := by
  refine ⟨⟨(Costs.cloneNode _ _ _ _ _ h herr).1, (Costs.cloneNode _ _ _ _ _ h herr).2.1⟩, fun he => ?_⟩
  obtain ⟨y', w1, h1, h2⟩ := (wp_cloneNode (Q := fun y w' => w'.err = none → w.heap y = none ∧ ∀ q, q ≠ y → w'.heap q = w.heap q)
    hx hxn hk hh hs herr (fun w' e _ _ _ _ h1 h2 => by rw [h1] at h2; cases h2)
    (fun a c w' hf _ _ hheap _ _ _ _ _ => ⟨hf.none, fun q hq => by rw [hheap, upd_other _ _ hq]⟩)).runs
  obtain ⟨rfl, rfl⟩ := Runs.det h h1
  exact h2 he

theorem copyRight_runs {x y top r0 xp : Ptr} {c : Color} {k : K} {l r : T K} {o' : Nat}
    (ihr : CopyAtMost hdr o r) (ihl : LoopAtMost hdr o l)
    (hsrc : Rep w.heap o' xp (.node x c l k r)) (h0 : Ptr.null ∉ (T.node x c l k r).ptrs)
    (hy : y ∉ (T.node x c l k r).ptrs) (hyh : y ≠ hdr) (hh : HdrOk w.heap hdr o) (herr : w.err = none)
    (h : Runs (do
      if (← rd x).right ≠ .null then
        let r ← mCopy hdr (← rd x).right y
        setRight y r
        if (← hasErr) then
          mErase hdr top
          pure .null
        else mCopyLoop hdr top y (← rd x).left
      else mCopyLoop hdr top y (← rd x).left : M (W K) Ptr) w r0 w') :
    AtMost w w' (l.nodes.length + r.nodes.length) ∧ (w'.err = none → ∀ q, q ≠ y → w.heap q ≠ none → w'.heap q = w.heap q) := by
  have hmt : ∀ q, q ∈ (T.node x c l k r).ptrs ↔ q = x ∨ q ∈ l.ptrs ∨ q ∈ r.ptrs := fun q => by rw [ptrs_mk_L, mem_ptrs_mk]
  simp only [hmt, not_or] at h0 hy
  obtain ⟨hx, hl, hr⟩ := hsrc
  obtain ⟨n, w1, h1, h2⟩ := runs_steps h
  obtain ⟨e1, hn⟩ := runs_rd h1
  rw [e1] at h2
  rw [hx] at hn
  cases hn
  have hall : ∀ {t : T K} {pr}, Rep w.heap o' pr t → ∀ q ∈ t.ptrs, w.heap q ≠ none := by
    intro t pr ht q hq; obtain ⟨m, hm, -⟩ := Rep_alloc ht q hq; rw [hm]; simp
  have hhd : w.heap hdr ≠ none := by obtain ⟨m, hm, -⟩ := hh; rw [hm]; simp
  by_cases hnil : r = .nil
  · subst hnil
    rw [if_neg (by simp [cellS, T.ptr])] at h2
    obtain ⟨n, w2, h3, h4⟩ := runs_steps h2
    obtain ⟨e2, hn⟩ := runs_rd h3
    rw [e2] at h4
    rw [hx] at hn
    cases hn
    have := ihl hl h0.2.1 hh herr hy.2.1 hyh h4
    simpa [T.nodes] using this
  · have hrn : r.ptr ≠ .null := by
      cases r with
      | nil => exact absurd rfl hnil
      | node p c a k b => intro e; exact h0.2.2 (by rw [ptrs_mk_L, mem_ptrs_mk]; exact .inl e.symm)
    rw [if_pos (by simpa [cellS] using hrn)] at h2
    obtain ⟨n, w2, h3, h4⟩ := runs_steps h2
    obtain ⟨e2, hn⟩ := runs_rd h3
    rw [e2] at h4
    rw [hx] at hn
    cases hn
    obtain ⟨r2, w3, h5, h6⟩ := runs_steps h4
    obtain ⟨b1, f1⟩ := ihr hnil hr h0.2.2 hh herr h5
    obtain ⟨_, w4, h7, h8⟩ := runs_steps h6
    obtain ⟨f2, a2, n2, c2, e2⟩ := runs_modCell h7
    obtain ⟨_, w5, h9, h10⟩ := runs_steps h8
    cases h9
    by_cases hE : w3.err = none
    · rw [if_neg (by rw [e2, hE]; simp)] at h10
      obtain ⟨n, w6, h11, h12⟩ := runs_steps h10
      obtain ⟨e3, hn⟩ := runs_rd h11
      rw [e3] at h12
      have hsame : ∀ q, q ≠ y → w.heap q ≠ none → w4.heap q = w.heap q := fun q hq hq' => (f2 q hq).trans (f1 hE q hq')
      rw [hsame x (fun e => hy.1 e.symm) (by rw [hx]; simp), hx] at hn
      cases hn
      have hl' : Rep w4.heap o' x l := Rep_congr (fun q hq => hsame q (fun e => hy.2.1 (e ▸ hq)) (hall hl q hq)) hl
      obtain ⟨b2, f3⟩ := ihl hl' h0.2.1 (hh.same (hsame _ (Ne.symm hyh) hhd)) (e2.trans hE) hy.2.1 hyh h12
      refine ⟨⟨?_, ?_⟩, fun he q hq hq' => ?_⟩
      · have := b1.1; have := b2.1; omega
      · have := b1.2; have := b2.2; omega
      · have := hsame q hq hq'
        rw [f3 he q hq (by rw [this]; exact hq'), this]
    · rw [if_pos (by rw [e2]; cases hh : w3.err with
        | none => exact absurd hh hE
        | some _ => rfl)] at h10
      have hq := Quiet.bind (Quiet.mErase hdr top) (fun _ => Quiet.pure Ptr.null) _ _ _ h10
      refine ⟨⟨?_, ?_⟩, fun he => ?_⟩
      · rw [hq.allocs, n2]; have := b1.1; omega
      · rw [hq.ctors, c2]; have := b1.2; omega
      · rw [hq.err, e2] at he; exact absurd he hE

theorem copy_atMost (hs : ∃ i, hdr = .stk i) (t : T K) : CopyAtMost hdr o t ∧ LoopAtMost hdr o t := by
  induction t with
  | nil =>
    refine ⟨fun h => absurd rfl h, ?_⟩
    intro w w' o' pr top p r _ _ _ _ _ _ h
    rw [mCopyLoop, if_neg (by simp [T.ptr])] at h
    cases h
    exact ⟨⟨by simp [T.nodes], by simp [T.nodes]⟩, fun _ _ _ _ => rfl⟩
  | node x c l k r ihl ihr =>
    have hmt : ∀ q, q ∈ (T.node x c l k r).ptrs ↔ q = x ∨ q ∈ l.ptrs ∨ q ∈ r.ptrs := fun q => by rw [ptrs_mk_L, mem_ptrs_mk]
    have hlen : (T.node x c l k r).nodes.length = l.nodes.length + r.nodes.length + 1 := by simp [T.nodes]; omega
    have hall : ∀ {w : W K} {t : T K} {pr o'}, Rep w.heap o' pr t → ∀ q ∈ t.ptrs, w.heap q ≠ none := by
      intro w t pr o' ht q hq; obtain ⟨m, hm, -⟩ := Rep_alloc ht q hq; rw [hm]; simp
    constructor
    · intro w w' o' pr p r0 _ hsrc h0 hh herr h
      rw [mCopy] at h
      obtain ⟨y, w1, h1, h2⟩ := runs_steps h
      have hxn : x ≠ .null := fun e => h0 (by rw [hmt, e]; simp)
      obtain ⟨b1, f1⟩ := clone_runs hsrc.1 hxn rfl hh hs herr h1
      obtain ⟨_, w2, h3, h4⟩ := runs_steps h2
      cases h3
      by_cases hE : w1.err = none
      · rw [if_neg (by rw [hE]; simp)] at h4
        obtain ⟨fy, fq⟩ := f1 hE
        obtain ⟨_, w3, h5, h6⟩ := runs_steps h4
        obtain ⟨f2, a2, n2, c2, e2⟩ := runs_modCell h5
        have hsame : ∀ q, w.heap q ≠ none → w3.heap q = w.heap q := by
          intro q hq
          have : q ≠ y := by rintro rfl; exact hq fy
          rw [f2 q this, fq q this]
        have hhd : w.heap hdr ≠ none := by obtain ⟨m, hm, -⟩ := hh; rw [hm]; simp
        obtain ⟨b2, f3⟩ := copyRight_runs ihr.1 ihl.2 (Rep_congr (fun q hq => hsame q (hall hsrc q hq)) hsrc) h0
          (fun hy => hall hsrc _ hy fy) (by rintro rfl; exact hhd fy) (hh.same (hsame _ hhd)) (e2.trans hE) h6
        refine ⟨⟨?_, ?_⟩, fun he q hq => ?_⟩
        · have := b1.1; have := b2.1; omega
        · have := b1.2; have := b2.2; omega
        · have h7 := hsame q hq
          rw [f3 he q (by rintro rfl; exact hq fy) (by rw [h7]; exact hq), h7]
      · rw [if_pos (by cases hh : w1.err with
          | none => exact absurd hh hE
          | some _ => rfl)] at h4
        cases h4
        refine ⟨⟨?_, ?_⟩, fun he => absurd he hE⟩
        · have := b1.1; omega
        · have := b1.2; omega
    · intro w w' o' pr top p r0 hsrc h0 hh herr hp hph h
      have hxn : x ≠ .null := fun e => h0 (by rw [hmt, e]; simp)
      rw [mCopyLoop, if_pos (by simpa [T.ptr] using hxn)] at h
      obtain ⟨y, w1, h1, h2⟩ := runs_steps h
      obtain ⟨b1, f1⟩ := clone_runs hsrc.1 hxn rfl hh hs herr h1
      obtain ⟨_, w2, h3, h4⟩ := runs_steps h2
      cases h3
      by_cases hE : w1.err = none
      · rw [if_neg (by rw [hE]; simp)] at h4
        obtain ⟨fy, fq⟩ := f1 hE
        obtain ⟨_, w3, h5, h6⟩ := runs_steps h4
        obtain ⟨f2, a2, n2, c2, e2⟩ := runs_modCell h5
        obtain ⟨_, w4, h7, h8⟩ := runs_steps h6
        obtain ⟨f3, a3, n3, c3, e3⟩ := runs_modCell h7
        have hsame : ∀ q, q ≠ p → w.heap q ≠ none → w4.heap q = w.heap q := by
          intro q hqp hq
          have : q ≠ y := by rintro rfl; exact hq fy
          rw [f3 q this, f2 q hqp, fq q this]
        have hhd : w.heap hdr ≠ none := by obtain ⟨m, hm, -⟩ := hh; rw [hm]; simp
        obtain ⟨b2, f4⟩ := copyRight_runs ihr.1 ihl.2
          (Rep_congr (fun q hq => hsame q (by rintro rfl; exact hp hq) (hall hsrc q hq)) hsrc) h0
          (fun hy => hall hsrc _ hy fy) (by rintro rfl; exact hhd fy) (hh.same (hsame _ (Ne.symm hph) hhd))
          (e3.trans (e2.trans hE)) h8
        refine ⟨⟨?_, ?_⟩, fun he q hqp hq => ?_⟩
        · have := b1.1; have := b2.1; omega
        · have := b1.2; have := b2.2; omega
        · have h9 := hsame q hqp hq
          rw [f4 he q (by rintro rfl; exact hq fy) (by rw [h9]; exact hq), h9]
      · rw [if_pos (by cases hh : w1.err with
          | none => exact absurd hh hE
          | some _ => rfl)] at h4
        have hq := Quiet.bind (Quiet.mErase hdr top) (fun _ => Quiet.pure Ptr.null) _ _ _ h4
        refine ⟨⟨?_, ?_⟩, fun he => ?_⟩
        · rw [hq.allocs]; have := b1.1; omega
        · rw [hq.ctors]; have := b1.2; omega
        · rw [hq.err] at he; exact absurd he hE

end Nestl.RB
