import Verif.TreeOf.DepthSim
import Verif.TreeOf.Demo
import Verif.Full.Depth
set_option autoImplicit false
set_option maxHeartbeats 1000000
/-
Property theorems about the recursion depth of trees of objects (C129).
-/
namespace Nestl.TO
open Nestl.VO (Elem ElemOps boxOps)
open Nestl.NO
open Nestl.RB (TNode T Tree)
open Nestl.Set (InvP Alive Contents contents_iff)
open Nestl.Full (FCall FValid Small)
variable {S A X K : Type} {E : Elem S A X} {s : ST S} {u : (Ptr → Option A) × X} {i : S} {c : Call S A} {d n : Nat}

/-! ### Trees of values -/

/-- `vexec` with room for `d` activations. -/
def vexecD (lt : K → K → Bool) (d : Nat) : FCall K → M (RB.W K) Res
  | .multi (.base (.eraseKey s k)) => do pure (.num (← RB.eraseKeyD lt d s k))
  | .multi (.base (.eraseRange s f l)) => do pure (.pos (← RB.eraseRangeD d s f l))
  | .multi (.base (.clear s)) => do RB.clearD d s; pure .unit
  | .multi (.base (.copy prop t s)) => do RB.copyNothrowD d prop t s; pure .unit
  | .multi (.base (.destroy s)) => do RB.destroyTreeD d s; pure .unit
  | .assign prop t s => do pure (.ok (← RB.moveAssignD d prop t s))
  | .eraseKeys s ks => do RB.eraseKeysD lt d s ks; pure .unit
  | c => vexec lt c

theorem vexecD_agree {lt : K → K → Bool} {w : RB.W K} {c : FCall K} (hI : TInv w) (hv : FValid lt w c) (herr : w.err = none) (hs : Small w d) :
    vexecD lt d c w = vexec lt c w := by
  cases c with
  | multi c =>
    cases c with
    | equal => rfl
    | base c =>
      cases c with
      | eraseKey s k =>
        obtain ⟨i, o, t, rfl, _, ht, -⟩ := hI.tree hv
        exact bind_agree (RB.eraseKeyD_agree ht (hs.tree ht) k) fun _ _ _ => rfl
      | eraseRange s f l =>
        obtain ⟨hv, -⟩ := hv
        obtain ⟨i, o, t, rfl, _, ht, -⟩ := hI.tree hv
        exact bind_agree (RB.eraseRangeD_agree ht (hs.tree ht) _ _) fun _ _ _ => rfl
      | clear s =>
        obtain ⟨i, o, t, rfl, _, ht, -⟩ := hI.tree hv
        exact bind_agree (RB.clearD_agree ht (hs.tree ht)) fun _ _ _ => rfl
      | copy prop t s =>
        obtain ⟨hv1, hv2⟩ := hv
        obtain ⟨i, o, t, rfl, _, ht, -⟩ := hI.tree hv1
        obtain ⟨j, o', t', rfl, _, ht', -⟩ := hI.tree hv2
        refine bind_agree ?_ fun _ _ _ => rfl
        by_cases e : i = j
        · subst e; unfold RB.copyNothrowD RB.copyNothrow; rw [if_neg (by simp), if_neg (by simp)]
        · exact RB.copyNothrowD_agree ht ht' (hI.disj ht ht' e) herr (hs.tree ht) (hs.tree ht')
      | destroy s =>
        obtain ⟨i, o, t, rfl, _, ht, -⟩ := hI.tree hv
        exact bind_agree (RB.destroyTreeD_agree ht (hs.tree ht)) fun _ _ _ => rfl
      | _ => rfl
  | assign prop t s =>
    obtain ⟨i, o, t, rfl, _, ht, -⟩ := hI.tree hv.1
    exact bind_agree (RB.moveAssignD_agree ht (hs.tree ht)) fun _ _ _ => rfl
  | eraseKeys s ks =>
    obtain ⟨i, o, t, rfl, _, ht, -⟩ := hI.tree hv
    exact bind_agree (RB.eraseKeysD_agree ks ht (hs.tree ht)) fun _ _ _ => rfl
  | _ => rfl

/-! ### Trees of objects -/

/-- The calls that a bounded stack concerns. -/
def Deep : Call S A → Prop
  | .eraseKey .. | .eraseKeys .. | .eraseRange .. | .clear .. | .copy .. | .assign .. | .destroy .. => True
  | _ => False

theorem sim_execD {o : RB.W Ptr} {lt0 : Ptr → Ptr → Bool} {c' : FCall A} (hdp : Deep c) (hv : FValid lt0 o c.addr)
    (hc : ∀ ord, c.ord = some ord → Compares E ord.less ord.lt) (hm : c.Means E.blank (E.val i) c')
    (hout : ∀ q, c.outer q → u.1 q = E.val i q) :
    NO.Sim E (Begin E u i) (execD E.toElemOps d c) (vexecD c.lt d c') fun _ _ => True := by
  have hL := Keep.loose (N := TNode) (E := E) (u := u)
  have hq : ∀ {β γ : Type} {m : M (ST S) β} {n : M (RB.W A) β} (r : β → γ), QSim E (Keep E u) m n (fun _ => Keep E u) →
      NO.Sim E (Begin E u i) (m >>= fun x => pure (r x)) (n >>= fun x => pure (r x)) fun _ _ => True :=
    fun r h => NO.Sim.bind (h.sim.weaken (fun _ h => h.1) fun _ _ h => h) fun _ => NO.Sim.pure _ fun _ _ => trivial
  cases c with
  | eraseKey ord v t =>
    obtain ⟨x, hx, rfl⟩ := hm
    have h := q_eraseKeyD (k := t) (v := x) (hc ord rfl) hL d v
    exact NO.Sim.bind (h.sim.weaken (fun s h => ⟨h.1, (congrArg (E.val · t) h.2.2).trans hx⟩) fun _ _ h => h) fun _ =>
      NO.Sim.pure _ fun _ _ => trivial
  | eraseKeys ord v ts =>
    obtain ⟨xs, hx, rfl⟩ := hm
    refine hq _ (q_eraseKeysD (hc ord rfl) d v ts xs ?_)
    rw [← hx]
    exact List.map_congr_left fun q hq => hout q hq
  | eraseRange v f l => obtain rfl := hm; exact hq _ (q_eraseRangeD hL d v f l)
  | clear v => obtain rfl := hm; exact hq _ (q_clearD hL d v)
  | copy prop t v =>
    obtain rfl := hm
    exact NO.Sim.bind ((s_copyNothrowD hL d prop t v).weaken (fun _ h => h.1) fun _ _ h => h) fun _ => NO.Sim.pure _ fun _ _ => trivial
  | assign prop t v => obtain rfl := hm; exact hq _ (q_moveAssignD hL d prop t v)
  | destroy v =>
    obtain rfl := hm
    obtain ⟨k, rfl⟩ := stk_of_alive hv
    exact hq _ (q_destroyTreeD hL d k)
  | _ => exact hdp.elim

theorem execD_eq (F : ElemOps S) (h : ¬ Deep c) : execD F d c = exec F c := by
  cases c <;> first | rfl | exact (h trivial).elim

theorem small_lift {w : RB.W A} (hR : Rel E s w) (hI : TInv s.o) (hn : ∀ t qs, Alive s.o t → Objs s t qs → qs.length ≤ n)
    (hd : 2 * Nat.log2 (n + 1) + 2 ≤ d) : Small w d := by
  rintro v L ⟨k, rfl, hk⟩ hL
  have ha : Alive s.o (.stk k) := ⟨k, rfl, fun e => hk ((hR.same.none _).2 e)⟩
  obtain ⟨j, a, t, e, -, ht, -⟩ := hI.tree ha
  cases e
  obtain ⟨t', h1, h2⟩ := rel_lift hR ht
  rw [(contents_iff h2).1 hL]
  have h3 := hn _ _ ha ((contents_iff ht).2 rfl)
  have h4 : t'.nodes.length = t.nodes.length := by simpa [T.ptrs] using (congrArg List.length h1.ptrs).symm
  rw [h4]
  exact Nat.le_trans (RB.frames_mono h3) hd

theorem NInv.runsD (h : NInv E s) (he : s.o.err = none) {lt0 : Ptr → Ptr → Bool} {c' : FCall A} (hdp : Deep c) (hv : FValid lt0 s.o c.addr)
    (hok : c.insertOk) (hc : ∀ ord, c.ord = some ord → Compares E ord.less ord.lt) (hm : c.Means E.blank (E.val s.i) c')
    (hout : ∀ q, c.outer q → (outside E s).1 q = E.val s.i q) (hn : ∀ t qs, Alive s.o t → Objs s t qs → qs.length ≤ n)
    (hd : 2 * Nat.log2 (n + 1) + 2 ≤ d) : ∃ r s', Runs (execD E.toElemOps d c) s r s' := by
  have hR := h.rel
  obtain ⟨B, hB, -⟩ := h.shows
  obtain ⟨r, s', w', h1, -⟩ := sim_execD (d := d) hdp hv hc hm hout s (absW E s) hR ⟨rfl, he, rfl⟩ (fun cc _ => by
    have hR' := rel_oracle hR cc
    have hI := inv_lift hR' h.outer
    have hv' := valid_lift hR' h.outer hv hok hm
    obtain ⟨r, w', h1, -⟩ := (vexec_spec hI ((shows_iff hR' h.outer).1 hB) hv' he).runs
    refine ⟨r, w', ?_⟩
    unfold Runs
    rw [vexecD_agree hI hv' he (small_lift hR' h.outer hn hd)]
    exact h1)
  exact ⟨r, s', h1⟩

/-- C129: if no tree of objects has more than `n` elements, a call stack with room for `2 log2 (n + 1) + 2` activations of the
recursive functions of the tree suffices for every call of every history, with refused allocations and constructions too; the
call then does exactly what it does on an unlimited stack, in particular it does not overflow. -/
theorem treeOf_recursion_logarithmic (hr : Reach E s) (hv : Valid E s c) (hn : ∀ t qs, Alive s.o t → Objs s t qs → qs.length ≤ n)
    (hd : 2 * Nat.log2 (n + 1) + 2 ≤ d) :
    (∀ r s', Runs (execD E.toElemOps d c) (ready s) r s' ↔ Runs (exec E.toElemOps c) (ready s) r s') ∧
      (∃ r s', Runs (execD E.toElemOps d c) (ready s) r s') ∧ ¬ Faults (execD E.toElemOps d c) (ready s) .stackOverflow := by
  have hI := hr.inv
  obtain ⟨c', hm⟩ := hv.means
  obtain ⟨B, hB, -⟩ := hI.shows
  have hrun : ∃ r s', Runs (execD E.toElemOps d c) (ready s) r s' := by
    by_cases hdp : Deep c
    · obtain ⟨h1, h2, h3, h4, h5, h6⟩ := hv
      exact hI.ready.runsD rfl hdp (h1.ready hI.outer) h2 h6 hm (fun q hq => hI.out (h5 q hq))
        (fun t qs ha hc => hn t qs ha ((Set.contents_ready hI.outer ha).1 hc)) hd
    · rw [execD_eq _ hdp]
      obtain ⟨r, s', -, h1, -⟩ := hI.call hB hv hm
      exact ⟨r, s', h1⟩
  obtain ⟨r, s', h1⟩ := hrun
  refine ⟨fun r1 s1 => ⟨within_execD _ _ _ _ _ _, fun h => ?_⟩, ⟨r, s', h1⟩, fun h => ?_⟩
  · obtain ⟨rfl, rfl⟩ := Runs.det h (within_execD _ _ _ _ _ _ h1)
    exact h1
  · unfold Faults at h
    rw [show execD E.toElemOps d c (ready s) = _ from h1] at h
    cases h

/-! ### The bound is sharp -/

/-- The number of activations of `m_erase` on the way to the right. -/
def spine : T K → Nat
  | .nil => 1
  | .node _ _ _ _ r => spine r + 1

theorem spine_ge {t : T K} {n : Nat} (h : RB.RB t n) : n + 1 ≤ spine t := by
  induction t generalizing n with
  | nil => rw [show n = 0 from h]; exact Nat.le_refl _
  | node p c l k r ihl ihr =>
    cases c with
    | red => have := ihr h.2.2.2; simp only [spine]; omega
    | black =>
      obtain ⟨m, rfl, -, h2⟩ := h
      have := ihr h2
      simp only [spine]; omega

theorem faults_mEraseD {F : ElemOps S} {hdr par : Ptr} {o : Nat} {t : T Ptr} (hd : d < spine t) (hr : RB.Rep s.o.heap o par t)
    (hok : RB.PtrsOk hdr t.ptrs) : Faults (mEraseD F hdr d t.ptr) s .stackOverflow := by
  induction t generalizing par d with
  | nil =>
    obtain rfl : d = 0 := by simp only [spine] at hd; omega
    rfl
  | node p cl l k r ihl ihr =>
    cases d with
    | zero => rfl
    | succ d =>
      simp only [spine] at hd
      have hmem : ∀ q, q ∈ (T.node p cl l k r).ptrs ↔ q = p ∨ q ∈ l.ptrs ∨ q ∈ r.ptrs := fun q => by
        rw [RB.ptrs_mk_L, RB.mem_ptrs_mk]
      obtain ⟨hn1, hn2, hn3, hn4, hn5⟩ := (RB.nodup_ptrs_mk (s := .L)).1 hok.nodup
      obtain ⟨a, rfl⟩ := hok.dyn p (by rw [hmem]; simp)
      have hokr : RB.PtrsOk hdr r.ptrs := ⟨hn4, fun q hq => hok.dyn q (by rw [hmem]; simp [hq]), hok.hdr⟩
      obtain ⟨hc, hrl, hrr⟩ := (RB.Rep_mk (s := .L)).1 hr
      rw [T.ptr, mEraseD, mEraseW, if_pos (by simp)]
      have h1 : Runs (node (.dyn a)) s _ s := runs_onO (runs_rd.2 ⟨by simp, hc, rfl⟩)
      have h2 := ihr (d := d) (by omega) hrr hokr
      exact wp.faults_bind (wp_iff_runs.2 ⟨_, _, h1, Faults.bind h2⟩)

/-- C129, the bound is sharp up to a constant factor: with `4 ^ d` or more elements, `clear` and the destructor need more than
`d + 1` nested activations. -/
theorem treeOf_recursion_needs_logarithm (hr : Reach E s) {v : Ptr} {qs : List (Ptr × Ptr)} (ha : Alive s.o v) (hc : Objs s v qs)
    (hd : 4 ^ d ≤ qs.length) :
    Faults (execD (A := A) E.toElemOps (d + 1) (.clear v)) (ready s) .stackOverflow ∧
      Faults (execD (A := A) E.toElemOps (d + 1) (.destroy v)) (ready s) .stackOverflow := by
  obtain ⟨k, o, t, rfl, -, ht, -⟩ := hr.inv.outer.tree ha
  rw [(contents_iff ht).1 hc] at hd
  obtain ⟨n, hn⟩ := ht.rb
  have h1 := RB.RB_size_le hn
  rw [ht.black] at h1
  simp only [reduceCtorEq, if_false] at h1
  have h2 := spine_ge hn
  have h3 : d + 1 < spine t := by
    refine Nat.lt_of_not_le fun hle => ?_
    have : 4 ^ n ≤ 4 ^ d := Nat.pow_le_pow_right (by omega) (by omega)
    omega
  have h4 : Faults (mEraseD E.toElemOps (.stk k) (d + 1) t.ptr) (ready s) .stackOverflow := faults_mEraseD h3 ht.rep ht.ok
  have h5 : Runs (node (.stk k)) (ready s) _ (ready s) := runs_onO (runs_rd.2 ⟨by simp, ht.cell, rfl⟩)
  constructor
  · exact Faults.bind (wp.faults_bind (wp_iff_runs.2 ⟨_, _, h5, Faults.bind h4⟩))
  · exact Faults.bind (wp.faults_bind (wp_iff_runs.2 ⟨_, _, h5, Faults.bind h4⟩))

/-- Copying and destroying the trees of the example with room for 4 activations; with room for one, destruction overflows. -/
example : Reach Elem.box Demo.s5 ∧ Valid Elem.box Demo.s5 (.copy false Demo.u Demo.v) ∧
    (∃ r s', Runs (execD (A := Nat) boxOps 4 (.copy false Demo.u Demo.v)) (ready Demo.s5) r s') ∧
    Faults (execD (A := Nat) boxOps 1 (.destroy Demo.v)) (ready Demo.s5) .stackOverflow := by
  refine ⟨Demo.r5, Demo.v5'', ?_, ?_⟩
  · refine (treeOf_recursion_logarithmic (n := 2) (d := 4) Demo.r5 Demo.v5'' ?_ (by decide)).2.1
    intro t qs ha hc
    rcases Demo.alive5 ha with rfl | rfl
    · rw [(contents_iff Demo.t5).1 hc]; decide
    · rw [(contents_iff Demo.t5u).1 hc]; decide
  · exact (treeOf_recursion_needs_logarithm (d := 0) Demo.r5 (Demo.alive (by decide +kernel)) Demo.o5 (by decide)).2

end Nestl.TO
