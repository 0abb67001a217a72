import Verif.Full.DepthClient
import Verif.Full.HintProps
import Verif.RBTree.DepthOps
set_option autoImplicit false
/-
Property theorems about the recursion depth of the tree operations (C86).
-/
namespace Nestl.Full
open Nestl.RB Nestl.Set Nestl.Multi
variable {K : Type} {lt : K → K → Bool} {w : W K} {s : Ptr} {d : Nat} {L : List (Ptr × K)}

/-- Every object is small enough for the stack. -/
def Small (w : W K) (d : Nat) : Prop := ∀ s L, Alive w s → Contents w s L → 2 * Nat.log2 (L.length + 1) + 2 ≤ d

theorem Small.tree {hdr : Ptr} {o : Nat} {t : T K} (h : Small w d) (ht : Tree w.heap hdr o t) :
    frames t.nodes.length ≤ d := by
  obtain ⟨i, hi⟩ := ht.ok.hdr
  exact h hdr _ ⟨i, hi, ht.ne_none⟩ ((contents_iff ht).2 rfl)

theorem execD_agree {c : Call K} (hI : MInv lt w) (hv : Valid w c) (herr : w.err = none) (hs : Small w d) :
    execD lt d c w = exec lt c w := by
  cases c with
  | eraseKey s k =>
    obtain ⟨i, o, t, rfl, _, ht, -⟩ := hI.tree hv
    exact bind_agree (eraseKeyD_agree ht (hs.tree ht) k) fun _ _ _ => rfl
  | eraseRange s f l =>
    obtain ⟨hv, A, M, B, hL, rfl, rfl⟩ := hv
    obtain ⟨i, o, t, rfl, _, ht, -⟩ := hI.tree hv
    rw [contents_iff ht] at hL
    refine bind_agree rfl fun L w1 hr => ?_
    have e : w1 = w := by
      rw [posOf_eq, posOf_eq] at hr
      exact Runs.wp (Q := fun _ w' => w' = w) (wp_walkRange ht hL.symm rfl) hr
    subst e
    exact bind_agree (eraseRangeD_agree ht (hs.tree ht) _ _) fun _ _ _ => rfl
  | clear s =>
    obtain ⟨i, o, t, rfl, _, ht, -⟩ := hI.tree hv
    exact bind_agree (clearD_agree ht (hs.tree ht)) fun _ _ _ => rfl
  | copy prop t s =>
    obtain ⟨hv1, hv2⟩ := hv
    obtain ⟨i, o, t, rfl, _, ht, -⟩ := hI.tree hv1
    obtain ⟨j, o', t', rfl, _, ht', -⟩ := hI.tree hv2
    refine bind_agree ?_ fun _ _ _ => rfl
    by_cases e : i = j
    · subst e; unfold copyNothrowD copyNothrow; rw [if_neg (by simp), if_neg (by simp)]
    · exact copyNothrowD_agree ht ht' (hI.disj ht ht' e) herr (hs.tree ht) (hs.tree ht')
  | destroy s =>
    obtain ⟨i, o, t, rfl, _, ht, -⟩ := hI.tree hv
    exact bind_agree (destroyTreeD_agree ht (hs.tree ht)) fun _ _ _ => rfl
  | _ => rfl

theorem fexecD_agree {c : FCall K} (hI : MInv lt w) (hv : FValid lt w c) (herr : w.err = none) (hs : Small w d) :
    fexecD lt d c w = fexec lt c w := by
  cases c with
  | multi c =>
    refine bind_agree ?_ fun _ _ _ => rfl
    refine bind_agree rfl fun n w1 hr => ?_
    have e : w1 = w := Runs.wp (Q := fun _ w' => w' = w) (MValid.idx hI hv (fun _ _ => rfl)) hr
    subst e
    refine bind_agree ?_ fun _ _ _ => rfl
    cases c with
    | base c => exact execD_agree hI hv herr hs
    | equal => rfl
  | assign prop t s =>
    obtain ⟨i, o, t, rfl, _, ht, -⟩ := hI.tree hv.1
    exact bind_agree (moveAssignD_agree ht (hs.tree ht)) fun _ _ _ => rfl
  | eraseKeys s ks =>
    obtain ⟨i, o, t, rfl, _, ht, -⟩ := hI.tree hv
    exact bind_agree (eraseKeysD_agree ks ht (hs.tree ht)) fun _ _ _ => rfl
  | _ => rfl

theorem Small.ready (hI : MInv lt w) (h : Small w d) : Small (ready w) d := fun s L ha hc => h s L ha ((contents_ready hI ha).1 hc)

/-- C86: the recursion of the tree operations is logarithmic: if no object has more than `n` elements, a call stack with room
for `2 log2 (n + 1) + 2` activations of the recursive functions suffices for every call of every history, with refused
allocations and constructions too; the call then does exactly what it does on an unlimited stack, in particular it does not
overflow. -/
theorem recursion_logarithmic (hr : FReach lt w) {c : FCall K} (hv : FValid lt w c) {n : Nat}
    (hn : ∀ s L, Alive w s → Contents w s L → L.length ≤ n) (hd : 2 * Nat.log2 (n + 1) + 2 ≤ d) :
    (∀ r w', Runs (fexecD lt d c) (ready w) r w' ↔ Runs (fexec lt c) (ready w) r w') ∧
      (∃ r w', Runs (fexecD lt d c) (ready w) r w') ∧ ¬ Faults (fexecD lt d c) (ready w) .stackOverflow := by
  have hI := hr.inv
  have hs : Small w d := fun s L ha hc => Nat.le_trans (frames_mono (hn s L ha hc)) hd
  have e := fexecD_agree hI.ready (hv.ready hI) rfl (hs.ready hI)
  obtain ⟨r, w', h1, -, -⟩ := hr.step hv
  refine ⟨fun r w' => by unfold Runs; rw [e], ⟨r, w', by unfold Runs; rw [e]; exact h1⟩, ?_⟩
  intro h
  unfold Faults at h
  rw [e, h1] at h
  cases h

theorem faults_call {m : M (W K) Unit} {f : Fault} (h : Faults m w f) :
    Faults (((m >>= fun _ => pure Res.unit) >>= fun r => pure (⟨r, 0⟩ : MRes K)) >>= fun r => pure (FRes.multi r)) w f :=
  h.bind.bind.bind

/-- C86, the bound is sharp up to a constant factor: with `4 ^ d` or more elements, `clear` and the destructor need more than
`d + 1` nested activations. -/
theorem recursion_needs_logarithm (hr : FReach lt w) (ha : Alive w s) (hc : Contents w s L) (hd : 4 ^ d ≤ L.length) :
    Faults (fexecD lt (d + 1) (.multi (.base (.clear s)))) (ready w) .stackOverflow ∧
      Faults (fexecD lt (d + 1) (.multi (.base (.destroy s)))) (ready w) .stackOverflow := by
  obtain ⟨o, t, ht, rfl⟩ := hr.tree ha hc
  obtain ⟨h1, h2⟩ := faults_clearD (w := ready w) (by exact ht) hd
  exact ⟨faults_call h1, faults_call h2⟩

theorem many_hist (lt : K → K → Bool) (k : K) (n : Nat) : ∃ h w, MHist lt (fineEnv K) h w ∧ Good w ∧ w.sp = 1 ∧
    ∃ o t, Tree w.heap (.stk 0) o t ∧ t.nodes.length = n := by
  induction n with
  | zero =>
    have hI0 := InvP.start (P := fun L => SWO lt → WSorted lt L) (fineEnv K)
    obtain ⟨r1, w1, hr1, he1⟩ := wp.runs (mexec_effect (lt := lt) (c := .base (.create 7)) hI0.ready trivial rfl)
    obtain ⟨z1, g1⟩ := he1.good hI0.ready fine_good
    have m1 := MHist.call (lt := lt) (env := fineEnv K) MHist.start (c := .base (.create 7)) trivial hr1
    cases he1 with
    | base he _ =>
      cases he with
      | create hc _ => exact ⟨_, w1, m1, g1, hc.sp, 7, .nil, hc.tree, rfl⟩
  | succ n ih =>
    obtain ⟨h, w, m1, g1, sp1, o, t, t1, hn⟩ := ih
    have hI1 := m1.inv
    have a1 : Alive w (.stk 0) := ⟨0, rfl, t1.ne_none⟩
    obtain ⟨r2, w2, hr2, he2⟩ := wp.runs (mexec_effect (lt := lt) (c := .equal .upper (.stk 0) k) hI1.ready (MValid.ready hI1 a1) rfl)
    obtain ⟨z2, g2⟩ := he2.good hI1.ready ⟨g1.some, g1.inj, g1.ctor, g1.past⟩
    have m2 := MHist.call m1 (c := .equal .upper (.stk 0) k) a1 hr2
    cases he2 with
    | fail _ _ _ _ he => rw [he] at z2; simp at z2
    | @new _ _ _ _ _ o' u u' A B a _ ht ht' hn1 hn' hp hc =>
      obtain ⟨rfl, rfl⟩ := Tree.unique ht t1
      refine ⟨_, w2, m2, g2, hc.ext.sp.trans sp1, _, _, ht', ?_⟩
      rw [hn']
      rw [hn1] at hn
      simp at hn ⊢; omega

/-- Whatever the comparator is, an object with any given number of elements can be reached, as the only object. -/
theorem many_reach (lt : K → K → Bool) (k : K) (n : Nat) :
    ∃ w L, FReach lt w ∧ Good w ∧ Alive w (.stk 0) ∧ Contents w (.stk 0) L ∧ L.length = n ∧
      ∀ s L', Alive w s → Contents w s L' → L'.length ≤ n := by
  obtain ⟨h, w, hh, hg, hsp, o, t, ht, hn⟩ := many_hist lt k n
  have hI := hh.inv
  obtain ⟨h', hf, -⟩ := FHist.ofMulti hh
  refine ⟨w, t.nodes, ⟨_, _, hf⟩, hg, ⟨0, rfl, ht.ne_none⟩, (contents_iff ht).2 rfl, hn, ?_⟩
  rintro s L ⟨i, rfl, hi⟩ hc
  obtain ⟨h1, -⟩ := hI.alive i hi
  obtain rfl : i = 0 := by omega
  rw [(contents_iff ht).1 hc]
  omega

/-- C86: no fixed stack suffices for all sizes: for every `d` some history leads to an object whose destruction needs more than
`d` activations. -/
theorem no_fixed_stack (lt : K → K → Bool) (k : K) (d : Nat) : ∃ w, FReach lt w ∧ Good w ∧
    FValid lt w (.multi (.base (.destroy (.stk 0)))) ∧
    Faults (fexecD lt d (.multi (.base (.destroy (.stk 0))))) (ready w) .stackOverflow := by
  cases d with
  | zero =>
    obtain ⟨w, L, h1, h2, h3, h4, h5, h6⟩ := many_reach lt k 0
    obtain ⟨o, t, ht, rfl⟩ := h1.tree h3 h4
    refine ⟨w, h1, h2, h3, ?_⟩
    have : Faults (destroyTreeD 0 (.stk 0)) (ready w) .stackOverflow := by
      unfold destroyTreeD
      refine wp.faults_bind ?_
      rw [wp_rd (w := ready w) (by exact ht.cell) ht.hdr_ne]
      exact Faults.bind rfl
    exact faults_call this
  | succ d =>
    obtain ⟨w, L, h1, h2, h3, h4, h5, h6⟩ := many_reach lt k (4 ^ d)
    exact ⟨w, h1, h2, h3, (recursion_needs_logarithm h1 h3 h4 (by rw [h5]; exact Nat.le_refl _)).2⟩

/-- A set of a million elements is destroyed with 40 activations ... -/
example : ∃ w L, FReach pairLt w ∧ Alive w (.stk 0) ∧ Contents w (.stk 0) L ∧ L.length = 1000000 ∧
    ¬ Faults (fexecD pairLt 40 (.multi (.base (.destroy (.stk 0))))) (ready w) .stackOverflow := by
  obtain ⟨w, L, h1, h2, h3, h4, h5, h6⟩ := many_reach pairLt (0, 0) 1000000
  have : 2 * Nat.log2 (1000000 + 1) + 2 ≤ 40 := by decide
  exact ⟨w, L, h1, h3, h4, h5, (recursion_logarithmic h1 (c := .multi (.base (.destroy (.stk 0)))) h3 h6 this).2.2⟩

/-- ... but not with 10. -/
example : ∃ w, FReach pairLt w ∧ Alive w (.stk 0) ∧
    Faults (fexecD pairLt 10 (.multi (.base (.destroy (.stk 0))))) (ready w) .stackOverflow := by
  obtain ⟨w, L, h1, h2, h3, h4, h5, h6⟩ := many_reach pairLt (0, 0) 1000000
  exact ⟨w, h1, h3, (recursion_needs_logarithm (d := 9) h1 h3 h4 (by rw [h5]; decide)).2⟩

end Nestl.Full
