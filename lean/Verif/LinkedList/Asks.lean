import Verif.LinkedList.Told
import Verif.LinkedList.Props2
import Verif.LinkedList.Demo
import Verif.Report
import Verif.Grows
set_option autoImplicit false
/-
C112 for lists: how many allocation requests and element constructions a call makes.
-/
namespace Nestl.LL
variable {V : Type}

theorem Costs.createNode (s : Ptr) (v : V) : Costs 1 1 (createNode s v) := by
  unfold LL.createNode
  refine .bindQ (.rd _) fun _ => .check (i := 1) (j := 0) (i' := 0) (j' := 1) (.allocCell _) (fun _ => .pure _) fun n => ?_
  have hq : Quiet (do
      if (← hasErr) then
        putNode s n
        pure Ptr.null
      else pure n : M (W V) Ptr) := .bind .hasErr fun _ => .ite (.bind (Quiet.putNode _ _) fun _ => .pure _) (.pure _)
  refine .then .tryCtor fun _ => .ite (.bind (.rd _) fun c => ?_) (by quietly)
  cases c.val
  · exact .bind (.modCell _ _) fun _ => hq
  · quietly

theorem Costs.emplace (s pos : Ptr) (v : V) : Costs 1 1 (emplace s pos v) :=
  .check (i := 1) (j := 1) (i' := 0) (j' := 0) (Costs.createNode _ _) (fun _ => Quiet.end_ _) fun _ => Quiet.costs
    (.bind (Quiet.initEmpty _) fun _ => .bind (Quiet.checkNode _) fun _ => .bind (Quiet.inject _ _) fun _ =>
      .bind (Quiet.checkNode _) fun _ => .pure _)

theorem Costs.insertN (s pos : Ptr) (v : V) (n : Nat) : Costs n n (insertN s pos v n) := by
  induction n generalizing pos with
  | zero => exact (Quiet.pure _).costs
  | succ n ih => exact .check (Costs.emplace _ _ _) (fun _ => .pure _) fun _ => ih _

theorem Costs.insertRange (s pos : Ptr) (vs : List V) : Costs vs.length vs.length (insertRange s pos vs) := by
  induction vs generalizing pos with
  | nil => exact (Quiet.pure _).costs
  | cons v vs ih => exact .check (Costs.emplace _ _ _) (fun _ => .pure _) fun _ => ih _

theorem Costs.pushBack (s : Ptr) (v : V) : Costs 1 1 (pushBack s v) := by
  unfold LL.pushBack
  exact .bindQ (Quiet.end_ _) fun _ => .then (Costs.emplace _ _ _) fun _ => .pure _
theorem Costs.pushFront (s : Ptr) (v : V) : Costs 1 1 (pushFront s v) := by
  unfold LL.pushFront
  exact .bindQ (Quiet.begin_ _) fun _ => .then (Costs.emplace _ _ _) fun _ => .pure _

theorem Costs.assignLoop (s : Ptr) (v : V) (n : Nat) : Costs n n (assignLoop s v n) := by
  induction n with
  | zero => exact (Quiet.pure _).costs
  | succ n ih => exact .check (Costs.pushBack _ _) (fun _ => .pure _) fun _ => ih

theorem Costs.assignValsLoop (s : Ptr) (vs : List V) : Costs vs.length vs.length (assignValsLoop s vs) := by
  induction vs with
  | nil => exact (Quiet.pure _).costs
  | cons v vs ih => exact .check (Costs.pushBack _ _) (fun _ => .pure _) fun _ => ih

theorem Costs.assignN (s : Ptr) (n : Nat) (v : V) : Costs n n (assignN s n v) :=
  .bindQ (Quiet.newList _) fun _ => .bindQ (Quiet.swap _ _) fun _ => .then (Costs.assignLoop _ _ _) fun _ =>
    Quiet.destroyList _
theorem Costs.assignVals (s : Ptr) (vs : List V) : Costs vs.length vs.length (assignVals s vs) :=
  .bindQ (Quiet.newList _) fun _ => .bindQ (Quiet.swap _ _) fun _ => .then (Costs.assignValsLoop _ _) fun _ =>
    Quiet.destroyList _

/-- What is known about the numbers of requests and constructions between `w` and `w'`. -/
def Spent (w w' : W V) (n : Nat) : Prop :=
  w'.nAlloc ≤ w.nAlloc + n ∧ w'.nCtor ≤ w.nCtor + n ∧
    (w'.err = none → w'.nAlloc = w.nAlloc + n ∧ w'.nCtor = w.nCtor + n)

section
variable {w : W V} {σ : Sg V} {s : Ptr} {ls : Lst V}

/-- The number of requests of the loop is the length of the range. -/
theorem assignItLoop_spent (h : Inv w σ) (hs : σ s = some ls) {t : Ptr} {lt : Lst V} (ht : σ t = some lt) (hst : s ≠ t)
    {X M Y : List (El V)} (hX : lt.els = X ++ (M ++ Y)) (he : w.err = none) {r : Unit} {w' : W V}
    (hr : Runs (assignItLoop s (posE t (M ++ Y)) (posE t Y)) w r w') : Spent w w' M.length := by
  induction M generalizing w σ ls X r with
  | nil =>
    have : wp (assignItLoop s (posE t ([] ++ Y)) (posE t Y)) w fun _ w1 => w1 = w := by
      rw [assignItLoop, wp_bind]
      exact wp_itEq_true (h.on_pos ht hX) rfl (wp_if_pos rfl rfl)
    obtain rfl := Runs.wp this hr
    exact ⟨Nat.le_refl _, Nat.le_refl _, fun _ => ⟨rfl, rfl⟩⟩
  | cons e M ih =>
    have hX2 : lt.els = (X ++ e :: M) ++ Y := by simp [hX]
    have hne : posE t (e :: M ++ Y) ≠ posE t Y := by
      have hn := h.st.ring_nodup ht
      rw [hX, ptrs_append, ptrs_append] at hn
      simp only [List.cons_append, posE_cons]
      rcases firstP_mem t (ptrs Y) with h3 | h3
      · unfold posE; rw [h3]; exact h.pos_ne_end ht (by simp [hX])
      · intro h2; unfold posE at h2; rw [← h2] at h3
        simp only [ptrs_cons, List.nodup_cons, List.nodup_append, List.mem_cons] at hn
        exact hn.2.2.1.2.2 _ (.inl rfl) _ h3 rfl
    rw [assignItLoop] at hr
    obtain ⟨b, w0, h1, k1⟩ := runs_steps hr
    have : wp (itEq (posE t (e :: M ++ Y)) (posE t Y)) w fun b w1 => b = false ∧ w1 = w :=
      wp_itEq_false (h.on_pos ht hX) (h.on_pos ht hX2) hne ⟨rfl, rfl⟩
    obtain ⟨rfl, e0⟩ := Runs.wp this h1
    rw [e0] at k1
    rw [if_neg (by simp)] at k1
    simp only [List.cons_append, posE_cons] at k1
    obtain ⟨v, w1, h2, k2⟩ := runs_steps k1
    have : wp (deref e.p) w fun v w1 => v = e.v ∧ w1 = w := wp_deref h ht (by simp [hX]) ⟨rfl, rfl⟩
    obtain ⟨rfl, e1⟩ := Runs.wp this h2
    rw [e1] at k2
    obtain ⟨u, w2, h3, k3⟩ := runs_steps k2
    obtain ⟨a1, a2, a3⟩ := Costs.pushBack s e.v _ _ _ h3 he
    have hp : wp (pushBack s e.v) w fun _ w2 => w2.err.isSome ∨
        (w2.err = none ∧ ∃ n, Inv w2 (upd σ s (some ⟨ls.alloc, ls.els ++ [⟨n, e.v, ls.alloc⟩]⟩))) :=
      wp_pushBack h hs (v := e.v) he (fun w2 _ _ h3 _ _ _ => .inl h3)
        (fun w2 n _ _ h3 _ _ h4 => .inr ⟨h3, n, h4⟩)
    obtain ⟨b, w3, h4, k4⟩ := runs_steps k3
    cases h4
    rcases Runs.wp hp h3 with h5 | ⟨h5, n, h6⟩
    · rw [if_pos h5] at k4
      cases k4
      rw [List.length_cons]
      exact ⟨by omega, by omega, fun h => by simp [h] at h5⟩
    · rw [if_neg (by rw [h5]; simp)] at k4
      have ht' : upd σ s (some ⟨ls.alloc, ls.els ++ [⟨n, e.v, ls.alloc⟩]⟩) t = some lt := by
        rw [upd_other _ _ (Ne.symm hst)]; exact ht
      obtain ⟨p, w4, h7, k5⟩ := runs_steps k4
      have : wp (incr e.p) w2 fun p w4 => p = posE t (M ++ Y) ∧ w4 = w2 :=
        wp_incr h6 ht' (A := X) (B := M ++ Y) (by simp [hX]) ⟨rfl, rfl⟩
      obtain ⟨rfl, e4⟩ := Runs.wp this h7
      rw [e4] at k5
      obtain ⟨b1, b2, b3⟩ := ih h6 (upd_same _ _ _) ht' (X := X ++ [e]) (by simp [hX]) h5 k5
      obtain ⟨a4, a5⟩ := a3 h5
      rw [List.length_cons]
      refine ⟨by omega, by omega, fun h => ?_⟩
      have := b3 h
      omega

/-- The same for the whole call: `hloop` is about the loop, which runs after the old elements were put aside. -/
theorem assignIt_spent (h : Inv w σ) (hs : σ s = some ls) (he : w.err = none) {f l : Ptr} {n : Nat}
    (hloop : ∀ (w2 w3 : W V) (tmp : Ptr) (u : Unit), σ tmp = none → tmp ≠ s → w2.err = none →
      Inv w2 (upd (upd σ tmp (some ⟨defaultAlloc, ls.els⟩)) s (some ⟨ls.alloc, []⟩)) →
      Runs (assignItLoop s f l) w2 u w3 → Spent w2 w3 n) {r : Unit} {w' : W V} (hr : Runs (assignIt s f l) w r w') :
    Spent w w' n := by
  unfold assignIt at hr
  obtain ⟨p, w1, h1, hr⟩ := runs_steps hr
  have hw : wp (newList defaultAlloc) w fun p w1 => σ p = none ∧ Inv w1 (upd σ p (some ⟨defaultAlloc, []⟩)) :=
    wp_newList h _ fun w1 _ _ _ h4 h5 => ⟨h4, h5⟩
  obtain ⟨hnone, hi1⟩ := Runs.wp hw h1
  have q1 := Quiet.newList _ _ _ _ h1
  have hps : p ≠ s := by rintro rfl; rw [hnone] at hs; cases hs
  have hs1 : upd σ p (some ⟨defaultAlloc, []⟩) s = some ls := by rw [upd_other _ _ (Ne.symm hps)]; exact hs
  obtain ⟨u, w2, h2, hr⟩ := runs_steps hr
  have q2 := Quiet.swap _ _ _ _ _ h2
  have hw2 : wp (swap p s) w1 fun _ w2 =>
      Inv w2 (upd (upd (upd σ p (some ⟨defaultAlloc, []⟩)) s (some ⟨ls.alloc, []⟩)) p (some ⟨defaultAlloc, ls.els⟩)) := by
    unfold swap
    exact wp_swapNodes2 hi1 hs1 (upd_same _ _ _) (Ne.symm hps) fun w2 _ _ _ h4 => h4
  have hi2 := Runs.wp hw2 h2
  have e1 : upd (upd (upd σ p (some ⟨defaultAlloc, []⟩)) s (some ⟨ls.alloc, []⟩)) p (some ⟨defaultAlloc, ls.els⟩) =
      upd (upd σ p (some ⟨defaultAlloc, ls.els⟩)) s (some ⟨ls.alloc, []⟩) := by
    rw [upd_comm _ _ _ (Ne.symm hps), upd_upd]
  rw [e1] at hi2
  obtain ⟨u3, w3, h3, hr⟩ := runs_steps hr
  have q4 := Quiet.destroyList _ _ _ _ hr
  have := hloop w2 w3 p u3 hnone hps (by rw [q2.err, q1.err, he]) hi2 h3
  unfold Spent at this ⊢
  rwa [← q4.allocs, ← q4.ctors, ← q4.err, q2.allocs, q1.allocs, q2.ctors, q1.ctors] at this

end
end Nestl.LL

namespace Nestl.LC
open Nestl.LL
variable {V : Type} {w w' : W V} {c : Call V} {r : Res} {n : Nat}

/-- The number of elements the call `c` made in the state `w` is to create. -/
def Creates (w : W V) : Call V → Nat → Prop
  | .insert .., n | .pushBack .., n | .pushFront .., n => n = 1
  | .insertN _ _ k _, n | .assignN _ k _, n => n = k
  | .insertRange _ _ vs, n | .assignVals _ vs, n => n = vs.length
  | .assignRange s t f l, n => ∃ X M Y, Contents w t (X ++ (M ++ Y)) ∧ f = posOf t (M ++ Y) ∧ l = posOf t Y ∧
      (s = t → Y ≠ []) ∧ n = M.length
  | .copy _ s, n => ∃ L, Contents w s L ∧ n = L.length
  | _, n => n = 0

theorem exec_spent {σ : Sg V} (hi : Inv w σ) (hv : Valid w c) (hc : Creates w c n) (h : Runs (exec c) (ready w) r w') :
    Spent w w' n := by
  cases c
  case create => obtain rfl := hc; exact Quiet.costs (.bind (Quiet.newList _) fun _ => .pure _) (ready w) _ _ h rfl
  case insert => obtain rfl := hc; exact Costs.then (Costs.emplace _ _ _) (fun _ => .pure _) (ready w) _ _ h rfl
  case insertN => obtain rfl := hc; exact Costs.then (Costs.insertN _ _ _ _) (fun _ => .pure _) (ready w) _ _ h rfl
  case insertRange => obtain rfl := hc; exact Costs.then (Costs.insertRange _ _ _) (fun _ => .pure _) (ready w) _ _ h rfl
  case erase => obtain rfl := hc; exact Quiet.costs (.bind (Quiet.erase _ _) fun _ => .pure _) (ready w) _ _ h rfl
  case eraseRange => obtain rfl := hc; exact Quiet.costs (.bind (Quiet.eraseRange _ _ _) fun _ => .pure _) (ready w) _ _ h rfl
  case pushBack => obtain rfl := hc; exact Costs.then (Costs.pushBack _ _) (fun _ => .pure _) (ready w) _ _ h rfl
  case pushFront => obtain rfl := hc; exact Costs.then (Costs.pushFront _ _) (fun _ => .pure _) (ready w) _ _ h rfl
  case popBack => obtain rfl := hc; exact Quiet.costs (.bind (Quiet.popBack _) fun _ => .pure _) (ready w) _ _ h rfl
  case popFront => obtain rfl := hc; exact Quiet.costs (.bind (Quiet.popFront _) fun _ => .pure _) (ready w) _ _ h rfl
  case clear => obtain rfl := hc; exact Quiet.costs (.bind (Quiet.clear _) fun _ => .pure _) (ready w) _ _ h rfl
  case assignN => obtain rfl := hc; exact Costs.then (Costs.assignN _ _ _) (fun _ => .pure _) (ready w) _ _ h rfl
  case assignVals => obtain rfl := hc; exact Costs.then (Costs.assignVals _ _) (fun _ => .pure _) (ready w) _ _ h rfl
  case move => obtain rfl := hc; exact Quiet.costs (.bind (Quiet.moveCtor _) fun _ => .pure _) (ready w) _ _ h rfl
  case moveAssign => obtain rfl := hc; exact Quiet.costs (.bind (Quiet.moveAssign _ _) fun _ => .pure _) (ready w) _ _ h rfl
  case swap => obtain rfl := hc; exact Quiet.costs (.bind (Quiet.swap _ _) fun _ => .pure _) (ready w) _ _ h rfl
  case merge => obtain rfl := hc; exact Quiet.costs (.bind (Quiet.merge _ _ _) fun _ => .pure _) (ready w) _ _ h rfl
  case spliceAll => obtain rfl := hc; exact Quiet.costs (.bind (Quiet.spliceAll _ _) fun _ => .pure _) (ready w) _ _ h rfl
  case spliceOne => obtain rfl := hc; exact Quiet.costs (.bind (Quiet.spliceOne _ _) fun _ => .pure _) (ready w) _ _ h rfl
  case spliceRange => obtain rfl := hc; exact Quiet.costs (.bind (Quiet.spliceRange _ _ _) fun _ => .pure _) (ready w) _ _ h rfl
  case sort => obtain rfl := hc; exact Quiet.costs (.bind (Quiet.sort _ _) fun _ => .pure _) (ready w) _ _ h rfl
  case destroy => obtain rfl := hc; exact Quiet.costs (.bind (Quiet.destroyList _) fun _ => .pure _) (ready w) _ _ h rfl
  case assignRange s t f l =>
    obtain ⟨X, M, Y, h1, rfl, rfl, hst, rfl⟩ := hc
    obtain ⟨ls, hs⟩ := (alive_iff hi).1 hv.1
    obtain ⟨l2, ht⟩ := (alive_iff hi).1 hv.2.1
    obtain ⟨A, R, hA, rfl, hR⟩ := view_split ((contents_iff hi ht).1 h1).symm
    obtain ⟨M, B, rfl, rfl, rfl⟩ := view_split hR
    obtain ⟨u, w1, h2, h3⟩ := runs_steps h
    cases h3
    rw [← view_append, posOf_view, posOf_view] at h2
    have hi' : Inv (ready w) σ := ⟨hi.st, hi.sp⟩
    have := assignIt_spent hi' hs rfl (n := M.length) ?_ h2
    · simpa [Spent, ready] using this
    · intro w2 w3 tmp u htmp hne he2 hi2 hl
      by_cases e : s = t
      · subst e
        rw [hs] at ht; cases ht
        have e1 : ∀ L : List (El V), L ≠ [] → posE s L = posE tmp L := by
          intro L hL; cases L with
          | nil => exact absurd rfl hL
          | cons => rfl
        have hB : B ≠ [] := fun e => hst rfl (by rw [e]; rfl)
        rw [e1 _ hB, e1 _ (by simp [hB])] at hl
        exact assignItLoop_spent hi2 (upd_same _ _ _) (t := tmp) (lt := ⟨defaultAlloc, ls.els⟩)
          (by rw [upd_other _ _ hne, upd_same]) (Ne.symm hne) hA he2 hl
      · have htt : t ≠ tmp := by rintro rfl; rw [htmp] at ht; cases ht
        exact assignItLoop_spent hi2 (upd_same _ _ _) (t := t) (lt := l2)
          (by rw [upd_other _ _ (Ne.symm e), upd_other _ _ htt]; exact ht) e hA he2 hl
  case copy d s =>
    obtain ⟨L, h1, rfl⟩ := hc
    obtain ⟨ls, hs⟩ := (alive_iff hi).1 hv.1
    obtain ⟨l2, ht⟩ := (alive_iff hi).1 hv.2.1
    obtain rfl := (contents_iff hi ht).1 h1
    have hi' : Inv (ready w) σ := ⟨hi.st, hi.sp⟩
    obtain ⟨u, w1, h2, h3⟩ := runs_steps h
    cases h3
    unfold copyNothrow at h2
    obtain ⟨a, w2, h3, h4⟩ := runs_steps h2
    have : wp (begin_ s) (ready w) fun a w2 => a = posE s (l2.els ++ []) ∧ w2 = ready w := by
      rw [List.append_nil]; exact wp_begin hi' ht ⟨rfl, rfl⟩
    obtain ⟨rfl, e⟩ := Runs.wp this h3
    rw [e] at h4
    obtain ⟨a, w2, h5, h6⟩ := runs_steps h4
    have : wp (end_ s) (ready w) fun a w2 => a = posE s ([] : List (El V)) ∧ w2 = ready w := wp_end hi' ht ⟨rfl, rfl⟩
    obtain ⟨ea, e⟩ := Runs.wp this h5
    rw [ea, e] at h6
    have := assignIt_spent hi' hs rfl (n := l2.els.length) ?_ h6
    · simpa [Spent, ready] using this
    · intro w2 w3 tmp u htmp hne he2 hi2 hl
      have htt : s ≠ tmp := by rintro rfl; rw [htmp] at ht; cases ht
      exact assignItLoop_spent hi2 (upd_same _ _ _) (t := s) (lt := l2) (X := [])
        (by rw [upd_other _ _ (Ne.symm hv.2.2.2), upd_other _ _ htt]; exact ht) hv.2.2.2 (by simp) he2 hl

/-- See `list_requests`. -/
theorem exec_requests {σ : Sg V} (hi : Inv w σ) (hv : Valid w c) (hc : Creates w c n) (h : Runs (exec c) (ready w) r w') :
    w'.nAlloc ≤ w.nAlloc + n ∧ w'.nCtor ≤ w.nCtor + n ∧
    (w'.err = none → w'.nAlloc = w.nAlloc + n ∧ w'.nCtor = w.nCtor + n) ∧ (n = 0 → w'.err = none) := by
  obtain ⟨h1, h2, h3⟩ := exec_spent hi hv hc h
  refine ⟨h1, h2, h3, ?_⟩
  rintro rfl
  have hr := (Told.exec (B := False) c _ _ _ h rfl).report
  generalize w'.err = e at hr ⊢
  cases hr with
  | success => rfl
  | badAlloc k a b => change w.nAlloc ≤ k at a; omega
  | ctorFailed k a b => change w.nCtor ≤ k at a; omega

/-- C112 (lists): a call requests memory once for every element it is to create, and constructs that many elements; if it
fails it has made at most as many requests.  A call that creates no elements (`erase`, `pop_*`, `clear`, move, `swap`, `merge`,
`splice`, `sort`, destruction, and insertion of nothing) makes no request and does not fail. -/
theorem list_requests (hr : Reach w) (hv : Valid w c) (hc : Creates w c n) (h : Runs (exec c) (ready w) r w') :
    w'.nAlloc ≤ w.nAlloc + n ∧ w'.nCtor ≤ w.nCtor + n ∧
    (w'.err = none → w'.nAlloc = w.nAlloc + n ∧ w'.nCtor = w.nCtor + n) ∧ (n = 0 → w'.err = none) := by
  obtain ⟨σ, hi, -⟩ := hr.inv
  exact exec_requests hi hv hc h

/-- With two lists of three and two elements: the copy of the second over the first makes two requests, `splice` none. -/
example : ∃ (w : W Nat) (s t : Ptr), Reach w ∧ Valid w (.copy s t) ∧ Creates w (.copy s t) 2 ∧
    Valid w (.spliceAll s s t) ∧ Creates w (.spliceAll s s t) 0 ∧
    ∃ r w', Runs (exec (.copy s t)) (ready w) r w' ∧ w'.nAlloc = w.nAlloc + 2 := by
  obtain ⟨w, s, t, u, p, q, r, x, y, z, h1, h2, h3, h4, h5, h6, h7, h8, h9, h10, h11, h12, h13, -⟩ := demo
  have hv : Valid w (.copy s t) := ⟨h6, h7, .inl h12, h3⟩
  have hc : Creates w (.copy s t) 2 := ⟨_, h10, rfl⟩
  refine ⟨w, s, t, h1, hv, hc, ⟨h6, h7, ⟨_, h12, h13⟩, h3, ⟨_, [], by rw [List.append_nil]; exact h9, rfl⟩⟩, rfl, ?_⟩
  obtain ⟨A, hs⟩ := h1.sim
  obtain ⟨r, w', h, -⟩ := (hs.call hv).runs
  have hd : Distinct w.env := fun i j a h5 h6 => h2.inj i j (h5.trans h6.symm)
  exact ⟨r, w', h, ((list_requests h1 hv hc h).2.2.1 ((list_report h).good h2)).1⟩

end Nestl.LC
