import Verif.Vector.Told
import Verif.VectorOf.Runs
set_option autoImplicit false
/-
What the operations of `vector` ask the allocator for: the sizes of the requests are determined by the state of the vector and
the arguments of the call.
-/
namespace Nestl.Vec
open Nestl.VO (runs_rdObj runs_slotPut runs_destroySlot runs_setObj runs_allocate runs_slotRd runs_bind_iff)
variable {V α β : Type} {B : Prop} {s p : Ptr}

/-- `m` changes no vector object. -/
def KeepObj (m : M (W V) α) : Prop := ∀ w a w', Runs m w a w' → ∀ x o, w.heap x = some (.obj o) → w'.heap x = some (.obj o)

namespace KeepObj

theorem bind {m : M (W V) α} {k : α → M (W V) β} (h : KeepObj m) (hk : ∀ a, KeepObj (k a)) : KeepObj (m >>= k) := by
  intro w b w' hr x o hx
  obtain ⟨a, w1, h1, h2⟩ := runs_bind_iff.1 hr
  exact hk a _ _ _ h2 _ _ (h _ _ _ h1 _ _ hx)

theorem pure (a : α) : KeepObj (Pure.pure a : M (W V) α) := by
  intro w b w' hr x o hx; cases hr; exact hx

theorem ite {c : Prop} {inst : Decidable c} {m n : M (W V) α} (hm : KeepObj m) (hn : KeepObj n) :
    KeepObj (@_root_.ite _ c inst m n) := by split <;> assumption

theorem hasErr : KeepObj (Nestl.hasErr : M (W V) Bool) := by
  intro w b w' hr x o hx; cases hr; exact hx

theorem assertM (b : Bool) : KeepObj (Nestl.assertM b : M (W V) Unit) := by
  intro w r w' hr x o hx
  obtain ⟨-, rfl⟩ := VO.of_assert hr; exact hx

theorem tryCtor : KeepObj (Nestl.tryCtor : M (W V) Bool) := by
  intro w b w' hr x o hx
  unfold Runs Nestl.tryCtor at hr
  simp only at hr
  split at hr <;> (cases hr; exact hx)

theorem rdObj (s : Ptr) : KeepObj (Vec.rdObj s : M (W V) Obj) := by
  intro w b w' hr x o hx
  obtain ⟨-, -, rfl⟩ := runs_rdObj.1 hr; exact hx

theorem slotRd (p : Ptr) (i : Nat) : KeepObj (Vec.slotRd p i : M (W V) V) := by
  intro w b w' hr x o hx
  obtain ⟨-, -, rfl⟩ := runs_slotRd.1 hr; exact hx

theorem set {w : W V} {b : Blk V} {c : VCell V} (hb : w.heap p = some (.blk b)) {x : Ptr} {o : Obj} (hx : w.heap x = some (.obj o)) :
    (w.setHeap (upd w.heap p (some c))).heap x = some (.obj o) := by
  have : x ≠ p := by rintro rfl; rw [hb] at hx; cases hx
  exact (upd_other _ _ this).trans hx

theorem slotPut (p : Ptr) (i : Nat) (v : V) : KeepObj (Vec.slotPut p i v : M (W V) Unit) := by
  intro w r w' hr x o hx
  obtain ⟨-, b, h1, -, rfl⟩ := runs_slotPut.1 hr
  exact set h1 hx

theorem destroySlot (p : Ptr) (i : Nat) : KeepObj (Vec.destroySlot p i : M (W V) Unit) := by
  intro w r w' hr x o hx
  obtain ⟨-, b, v, h1, -, rfl⟩ := runs_destroySlot.1 hr
  exact set h1 hx

theorem destroyRange (p : Ptr) (i n : Nat) : KeepObj (Vec.destroyRange p i n : M (W V) Unit) := by
  induction n generalizing i with
  | zero => exact .pure _
  | succ n ih => exact .bind (destroySlot _ _) fun _ => ih _

theorem argVal (a : Arg V) : KeepObj (Vec.argVal a : M (W V) V) := by
  cases a
  · exact .pure _
  · exact slotRd _ _

theorem construct (p : Ptr) (i : Nat) (a : Arg V) : KeepObj (Vec.construct p i a) :=
  .bind (argVal _) fun _ => .bind tryCtor fun _ => .ite (slotPut _ _ _) (.pure _)

theorem ucLoop (p : Ptr) (i : Nat) (as : List (Arg V)) : KeepObj (Vec.ucLoop p i as) := by
  induction as generalizing i with
  | nil => exact .pure _
  | cons a as ih => exact .bind (construct _ _ _) fun _ => .bind hasErr fun _ => .ite (.pure _) (ih _)

theorem uninitCopy (as : List (Arg V)) (p : Ptr) (i : Nat) : KeepObj (Vec.uninitCopy as p i) :=
  .bind (ucLoop _ _ _) fun _ => .ite (.pure _) (.bind (destroyRange _ _ _) fun _ => .pure _)

theorem shift (p : Ptr) (i n : Nat) : KeepObj (Vec.shift p i n : M (W V) Bool) := by
  induction n with
  | zero => exact .pure _
  | succ n ih =>
    exact .bind (construct _ _ _) fun _ => .bind hasErr fun _ => .ite (.pure _) (.bind (destroySlot _ _) fun _ => ih)

theorem deallocate (a : Nat) (p : Ptr) (n : Nat) : KeepObj (Vec.deallocate a p n : M (W V) Unit) := by
  intro w r w' hr x o hx
  rcases VO.runs_deallocate.1 hr with ⟨-, rfl⟩ | ⟨-, b, -, h1, -, -, -, rfl⟩
  · exact hx
  · have : x ≠ p := by rintro rfl; rw [h1] at hx; cases hx
    exact (upd_other _ _ this).trans hx

theorem allocate [ElemSize V] (a n : Nat) : KeepObj (Vec.allocate a n : M (W V) Ptr) := by
  intro w r w' hr x o hx
  rcases runs_allocate hr with ⟨rfl, -⟩ | ⟨y, b, -, -, h1, -, rfl⟩
  · exact hx
  · have : x ≠ .dyn y := by rintro rfl; rw [h1] at hx; cases hx
    exact (upd_other _ _ this).trans hx

end KeepObj

/-- `m`, started with a fresh error object and with members of the vector object `s` that satisfy `K`, reports what was refused,
where `B` stands for further reasons to refuse memory, and if it succeeds, the members satisfy `Q`. -/
def Pays (s : Ptr) (K : Obj → Prop) (B : Prop) (m : M (W V) α) (Q : α → Obj → Prop) : Prop :=
  ∀ w a w' o, Runs m w a w' → w.err = none → w.heap s = some (.obj o) → K o →
    Outcome B w w' ∧ (w'.err = none → ∃ o', w'.heap s = some (.obj o') ∧ Q a o')

namespace Pays
variable {K : Obj → Prop} {Q : α → Obj → Prop} {R : β → Obj → Prop}

theorem keep {m : M (W V) α} (h : Told B m) (hk : KeepObj m) : Pays s K B m fun _ => K :=
  fun _ _ _ _ hr he hs hK => ⟨h _ _ _ hr he, fun _ => ⟨_, hk _ _ _ hr _ _ hs, hK⟩⟩

theorem bindF {m : M (W V) α} {k : α → M (W V) β} {P : α → Prop} (h : Pays s K B m Q) (hf : Flags m P)
    (hs : ∀ a, P a → Stops (k a)) (hk : ∀ a, Pays s (Q a) B (k a) R) : Pays s K B (m >>= k) R := by
  intro w b w2 o hr he ho hK
  obtain ⟨a, w1, h1, h3⟩ := runs_steps hr
  obtain ⟨k1, k2⟩ := h _ _ _ _ h1 he ho hK
  by_cases hn : w1.err = none
  · obtain ⟨o1, h4, h5⟩ := k2 hn
    obtain ⟨k3, k4⟩ := hk a _ _ _ _ h3 hn h4 h5
    exact ⟨k1.trans hn k3, k4⟩
  · have := hs a (hf _ _ _ h1 he hn) _ _ _ h3 hn
    exact ⟨k1.still this, fun h => absurd (this.err.symm.trans h) hn⟩

theorem bindQ {m : M (W V) α} {k : α → M (W V) β} (h : Quiet m) (hm : KeepObj m) (hk : ∀ a, Pays s K B (k a) R) :
    Pays s K B (m >>= k) R := by
  intro w b w2 o hr he ho hK
  obtain ⟨a, w1, h1, h3⟩ := runs_steps hr
  have hq := h _ _ _ h1
  obtain ⟨k1, k2⟩ := hk a _ _ _ _ h3 (hq.err.trans he) (hm _ _ _ h1 _ _ ho) hK
  exact ⟨(hq.outcome he).trans (hq.err.trans he) k1, k2⟩

/-- A step that cannot fail. -/
theorem bindP {m : M (W V) α} {k : α → M (W V) β} (h : Quiet m) (hm : Pays s K B m Q) (hk : ∀ a, Pays s (Q a) B (k a) R) :
    Pays s K B (m >>= k) R :=
  bindF (P := fun _ => False) hm (fun _ _ _ hr he hn => hn ((h _ _ _ hr).err.trans he)) (fun _ h => h.elim) hk

theorem rd {k : Obj → M (W V) β} (hk : ∀ o, K o → Pays s (· = o) B (k o) R) : Pays s K B (rdObj s >>= k) R := by
  intro w b w2 o hr he ho hK
  obtain ⟨o1, w1, h1, h3⟩ := runs_bind_iff.1 hr
  obtain ⟨-, h4, rfl⟩ := runs_rdObj.1 h1
  rw [ho] at h4; cases h4
  exact hk _ hK _ _ _ _ h3 he ho rfl

theorem set {T : Obj → Prop} {o : Obj} (ho : T o) : Pays s K B (setObj s o : M (W V) Unit) fun _ => T := by
  intro w b w2 o' hr he ho' hK
  have hq := Quiet.setObj _ _ _ _ _ hr
  obtain ⟨-, rfl⟩ := runs_setObj hr
  exact ⟨hq.outcome he, fun _ => ⟨o, upd_same _ _ _, ho⟩⟩

theorem pure (a : α) (h : ∀ o, K o → Q a o) : Pays s K B (Pure.pure a : M (W V) α) Q := by
  intro w b w2 o hr he ho hK
  have hq := Quiet.pure a _ _ _ hr
  cases hr
  exact ⟨hq.outcome he, fun _ => ⟨o, ho, h _ hK⟩⟩

theorem ite {c : Prop} {inst : Decidable c} {m n : M (W V) α} (hm : c → Pays s K B m Q) (hn : ¬ c → Pays s K B n Q) :
    Pays s K B (@_root_.ite _ c inst m n) Q := by split <;> simp_all

theorem assume {φ : Prop} {m : M (W V) α} (hK : ∀ o, K o → φ) (h : φ → Pays s K B m Q) : Pays s K B m Q :=
  fun w a w' o hr he ho hk => h (hK _ hk) w a w' o hr he ho hk

theorem assert {b : Bool} {k : Unit → M (W V) β} (h : b = true → Pays s K B (k ()) R) : Pays s K B (assertM b >>= k) R := by
  intro w r w2 o hr he ho hK
  obtain ⟨_, w1, h1, h3⟩ := runs_bind_iff.1 hr
  obtain ⟨hb, rfl⟩ := VO.of_assert h1
  exact h hb _ _ _ _ h3 he ho hK

theorem mono {m : M (W V) α} {K' : Obj → Prop} {Q' : α → Obj → Prop} {B' : Prop} (h : Pays s K B m Q) (hK : ∀ o, K' o → K o)
    (hQ : ∀ a o, Q a o → Q' a o) (hB : B → B') : Pays s K' B' m Q' := by
  intro w a w' o hr he ho hk
  obtain ⟨h1, h2⟩ := h _ _ _ _ hr he ho (hK _ hk)
  refine ⟨⟨h1.env, h1.allocs, h1.ctors, h1.heap, ?_⟩, fun h => ?_⟩
  · have := h1.report
    generalize w'.err = e at this ⊢
    cases this with
    | success a b => exact .success a b
    | badAlloc k a b c d e => exact .badAlloc k a b c d (e.imp_right hB)
    | ctorFailed k a b c d e => exact .ctorFailed k a b c d e
  · obtain ⟨o', h3, h4⟩ := h2 h
    exact ⟨o', h3, hQ _ _ h4⟩

/-- `if (err) n else m` after a step that may fail. -/
theorem check {l : M (W V) α} {n m : α → M (W V) β} (hl : Pays s K B l Q) (hn : ∀ a, Quiet (n a))
    (hm : ∀ a, Pays s (Q a) B (m a) R) : Pays s K B (l >>= fun b => hasErr >>= fun e => if e = true then n b else m b) R := by
  refine bindF (P := fun _ => True) hl (fun _ _ _ _ _ _ => trivial) (fun a _ => .check (hn a).stops) fun a => ?_
  intro w b w2 o hr he ho hK
  obtain ⟨e, w1, h1, h3⟩ := runs_bind_iff.1 hr
  cases h1
  rw [he] at h3
  exact hm a _ _ _ _ h3 he ho hK

theorem «then» {m : M (W V) α} {k : α → M (W V) β} (h : Pays s K B m Q) (hq : ∀ a, Quiet (k a))
    (hk : ∀ a, KeepObj (k a)) : Pays s K B (m >>= k) fun _ o => ∃ a, Q a o :=
  bindF (P := fun _ => True) h (fun _ _ _ _ _ _ => trivial) (fun a _ => (hq a).stops) fun a =>
    (keep (hq a).told (hk a)).mono (fun _ h => h) (fun _ _ h => ⟨a, h⟩) id

end Pays

section sized
variable [ElemSize V]

/-- The allocator cannot provide `n` elements. -/
def Big (V : Type) [ElemSize V] (n : Nat) : Prop := maxBytes < wrap (n * ElemSize.size V)

/-- What `grow` makes of the capacity (vector.hpp:796-806). -/
def grown (cap required : Nat) : Nat :=
  if wrap (wrap (cap + 1) * 3) / 2 < required then required else wrap (wrap (cap + 1) * 3) / 2

theorem Told.allocate_big (a n : Nat) : Told (Big V n) (Vec.allocate a n : M (W V) Ptr) := by
  intro w p w' h he
  unfold Runs Vec.allocate at h
  by_cases hb : maxBytes < wrap (n * ElemSize.size V)
  · rw [if_pos hb] at h
    cases h
    exact ⟨rfl, Nat.le_succ _, Nat.le_refl _, fun _ h => .inl h,
      .badAlloc w.nAlloc (Nat.le_refl _) rfl (fun k h1 h2 => absurd h2 (Nat.not_lt.2 h1))
        (fun k h1 h2 => absurd h2 (Nat.not_lt.2 h1)) (.inr hb)⟩
  · rw [if_neg hb] at h
    exact Told.allocCell _ _ _ _ h he

theorem pays_doReserve {K : Obj → Prop} (n : Nat) :
    Pays s K (Big V n) (doReserve s n : M (W V) Unit) fun _ o' => ∃ o p, K o ∧ o' = { o with start := p, cap := n } := by
  refine .rd fun o hK => .check (.keep (Told.allocate_big _ _) (.allocate _ _)) (fun _ => .pure _) fun p => ?_
  refine .check (.keep (Told.uninitCopy _ _ _) (.uninitCopy _ _ _)) (fun _ => Quiet.deallocate _ _ _) fun _ => ?_
  refine .bindQ (Quiet.destroyRange _ _ _) (.destroyRange _ _ _) fun _ => ?_
  refine .bindQ (Quiet.deallocate _ _ _) (.deallocate _ _ _) fun _ => ?_
  exact Pays.set ⟨o, p, hK, rfl⟩

theorem pays_reserve (o : Obj) (n : Nat) :
    Pays s (· = o) (o.cap < n ∧ Big V n) (reserve s n : M (W V) Unit) fun _ o' => o'.fin = o.fin ∧ o.cap ≤ o'.cap ∧ n ≤ o'.cap := by
  refine .rd ?_
  rintro _ rfl
  refine .ite (fun h => .pure _ ?_) fun h => ?_
  · rintro _ rfl; exact ⟨rfl, Nat.le_refl _, h⟩
  · refine (pays_doReserve n).mono (fun _ h => h) ?_ fun hb => ⟨by omega, hb⟩
    rintro _ _ ⟨_, p, rfl, rfl⟩
    exact ⟨rfl, Nat.le_of_lt (Nat.not_le.1 h), Nat.le_refl _⟩

theorem pays_shrink (o : Obj) :
    Pays s (· = o) (o.fin < o.cap ∧ Big V o.fin) (shrinkToFit s : M (W V) Unit) fun _ o' => o'.fin = o.fin := by
  refine .rd ?_
  rintro _ rfl
  refine .ite (fun h => ?_) fun h => .pure _ ?_
  · refine (pays_doReserve _).mono (fun _ h => h) ?_ fun hb => ⟨by omega, hb⟩
    rintro _ _ ⟨_, p, rfl, rfl⟩
    rfl
  · rintro _ rfl; rfl

theorem pays_grow (o : Obj) (n : Nat) :
    Pays s (· = o) (Big V (grown o.cap n)) (grow s n : M (W V) Unit) fun _ o' =>
      o'.fin = o.fin ∧ o.cap ≤ o'.cap ∧ grown o.cap n ≤ o'.cap := by
  refine .rd ?_
  rintro _ rfl
  exact .assert fun _ => (pays_reserve _ _).mono (fun _ h => h) (fun _ _ h => h) fun h => h.2

/-- The vector has `k` elements and room for at least `c`. -/
def Holds (k c : Nat) (o : Obj) : Prop := o.fin = k ∧ c ≤ o.cap

/-- The request of a vector with `k` elements and room for at least `c` that gets one more is too large. -/
def BigNext (V : Type) [ElemSize V] (k c : Nat) : Prop := c ≤ k ∧ Big V (grown k (wrap (k + 1)))

theorem Pays.thenErr {K : Obj → Prop} {Q : α → Obj → Prop} {m : M (W V) α} (h : Pays s K B m Q) :
    Pays s K B (m >>= fun _ => hasErr) fun b o => b = false ∧ ∃ a, Q a o := by
  refine .bindF (P := fun _ => True) h (fun _ _ _ _ _ _ => trivial) (fun _ _ => Quiet.hasErr.stops) fun a => ?_
  intro w b w2 o hr he ho hK
  have hq := Quiet.hasErr _ _ _ hr
  cases hr
  exact ⟨hq.outcome he, fun _ => ⟨o, ho, by rw [he]; rfl, a, hK⟩⟩

theorem pays_growIfFull {k c : Nat} :
    Pays s (Holds k c) (BigNext V k c) (growIfFull s : M (W V) Bool) fun b o => b = false ∧ Holds k c o := by
  refine .rd ?_
  rintro o ⟨rfl, hc⟩
  refine .ite (fun h => ?_) fun h => .pure _ ?_
  · exact (pays_grow o _).thenErr.mono (fun _ h => h) (fun _ o' ⟨h0, _, h1⟩ => ⟨h0, h1.1, by omega⟩)
      fun hb => ⟨by omega, by rw [← h]; exact hb⟩
  · rintro _ rfl; exact ⟨rfl, rfl, hc⟩

theorem shift_true {p : Ptr} {i n : Nat} {b : Bool} {w w' : W V} (h : Runs (shift p i n) w b w') (he : w'.err = none) : b = true := by
  induction n generalizing w with
  | zero => cases h; rfl
  | succ n ih =>
    unfold shift at h
    obtain ⟨_, w1, -, h2⟩ := runs_bind_iff.1 h
    obtain ⟨e, w2, h3, h4⟩ := runs_bind_iff.1 h2
    cases h3
    split at h4
    · rename_i hb; cases h4; rw [he] at hb; cases hb
    · obtain ⟨_, w3, -, h5⟩ := runs_bind_iff.1 h4
      exact ih h5

theorem pays_shift {K : Obj → Prop} (p : Ptr) (i n : Nat) : Pays s K B (shift p i n : M (W V) Bool) fun b o => b = true ∧ K o := by
  intro w b w' o hr he ho hK
  obtain ⟨h1, h2⟩ := Pays.keep (s := s) (K := K) (B := B) (Told.shift p i n) (.shift _ _ _) _ _ _ _ hr he ho hK
  refine ⟨h1, fun h => ?_⟩
  obtain ⟨o', h3, h4⟩ := h2 h
  exact ⟨o', h3, shift_true hr h, h4⟩

theorem pays_insertValue {k c : Nat} (i : Nat) (a : Arg V) :
    Pays s (Holds k c) (BigNext V k c) (insertValue s i a) fun _ => Holds (k + 1) c := by
  unfold insertValue
  refine .rd fun o ho => .assert fun _ => ?_
  refine Pays.bindF (pays_growIfFull.mono (by rintro _ rfl; exact ho) (fun _ _ h => h) id) (Flags.growIfFull _)
    (fun b hb => by subst hb; exact (Quiet.pure _).stops) fun b => .assume (fun _ h => h.1) fun hb => ?_
  subst hb
  refine .rd fun o1 ho1 => .assert fun _ => ?_
  refine Pays.bindF (pays_shift _ _ _) (Flags.shift _ _ _) (fun b hb => by subst hb; exact (Quiet.pure _).stops) fun b =>
    .assume (fun _ h => h.1) fun hb => ?_
  subst hb
  refine .check (.keep (Told.construct _ _ _) (.construct _ _ _)) (fun _ => .pure _) fun _ => ?_
  refine Pays.bindF (P := fun _ => True) (Pays.set (T := Holds (k + 1) c) ⟨?_, ho1.2.2⟩) (fun _ _ _ _ _ _ => trivial)
    (fun _ _ => (Quiet.pure _).stops) fun _ => .pure _ fun _ h => h
  rw [ho1.2.1]

/-- The requests of a vector with `k` elements and room for at least `c` that gets `n` more are too large. -/
def BigLater (V : Type) [ElemSize V] (k c n : Nat) : Prop := ∃ j, k ≤ j ∧ j < k + n ∧ BigNext V j c

theorem BigNext.later {k c n : Nat} (h : BigNext V k c) : BigLater V k c (n + 1) := ⟨k, Nat.le_refl _, by omega, h⟩

theorem BigLater.later {k c n : Nat} (h : BigLater V (k + 1) c n) : BigLater V k c (n + 1) := by
  obtain ⟨j, h1, h2, h3⟩ := h
  exact ⟨j, by omega, by omega, h3⟩

theorem pays_insertRangeLoop {c : Nat} (as : List (Arg V)) : ∀ {k : Nat} (i : Nat),
    Pays s (Holds k c) (BigLater V k c as.length) (insertRangeLoop s i as) fun _ => Holds (k + as.length) c := by
  induction as with
  | nil => exact fun i => .pure _ fun _ h => h
  | cons a as ih =>
    intro k i
    refine .check ((pays_insertValue _ _).mono (fun _ h => h) (fun _ _ h => h) BigNext.later) (fun _ => .pure _) fun _ => ?_
    exact (ih _).mono (fun _ h => h) (fun _ o h => ⟨h.1.trans (by simp only [List.length_cons]; omega), h.2⟩) .later

theorem pays_pushBack {k c : Nat} (a : Arg V) : Pays s (Holds k c) (BigNext V k c) (pushBack s a) fun _ => Holds (k + 1) c :=
  .rd fun o ho => ((pays_insertValue _ _).then (fun _ => .pure _) fun _ => .pure _).mono (by rintro _ rfl; exact ho)
    (fun _ _ ⟨_, h⟩ => h) id

theorem pays_assignLoop {c : Nat} (a : Arg V) (n : Nat) : ∀ {k : Nat},
    Pays s (Holds k c) (BigLater V k c n) (assignLoop s a n) fun _ => Holds (k + n) c := by
  induction n with
  | zero => exact .pure _ fun _ h => h
  | succ n ih =>
    intro k
    refine .check ((pays_pushBack _).mono (fun _ h => h) (fun _ _ h => h) BigNext.later) (fun _ => .pure _) fun _ => ?_
    exact ih.mono (fun _ h => h) (fun _ o h => ⟨h.1.trans (by omega), h.2⟩) .later

theorem pays_assignIter {c : Nat} (as : List (Arg V)) : ∀ {k : Nat},
    Pays s (Holds k c) (BigLater V k c as.length) (assignIter s as) fun _ => Holds (k + as.length) c := by
  induction as with
  | nil => exact .pure _ fun _ h => h
  | cons a as ih =>
    intro k
    refine .check ((pays_pushBack _).mono (fun _ h => h) (fun _ _ h => h) BigNext.later) (fun _ => .pure _) fun _ => ?_
    exact ih.mono (fun _ h => h) (fun _ o h => ⟨h.1.trans (by simp only [List.length_cons]; omega), h.2⟩) .later

theorem pays_resizeLoop {K : Obj → Prop} (a : Arg V) (n : Nat) : Pays s K B (resizeLoop s a n) fun _ _ => True := by
  induction n generalizing K with
  | zero => exact .pure _ fun _ _ => trivial
  | succ n ih =>
    exact .rd fun o _ => .check (.keep (Told.construct _ _ _) (.construct _ _ _)) (fun _ => .pure _) fun _ =>
      .bindP (Quiet.setObj _ _) (Pays.set (T := fun _ => True) trivial) fun _ => ih

theorem pays_resize (o : Obj) (n : Nat) (a : Arg V) :
    Pays s (· = o) (o.fin < n ∧ Big V (grown o.cap n)) (resize s n a) fun _ _ => True := by
  refine .rd ?_
  rintro _ rfl
  refine .ite (fun _ => ?_) fun h => ?_
  · exact .bindQ (Quiet.destroyRange _ _ _) (.destroyRange _ _ _) fun _ => .set trivial
  · exact .check ((pays_grow _ _).mono (fun _ h => h) (fun _ _ h => h) fun hb => ⟨by omega, hb⟩) (fun _ => .pure _) fun _ =>
      pays_resizeLoop _ _

theorem pays_destroyVec {K : Obj → Prop} {t : Ptr} (hne : s ≠ t) : Pays s K B (destroyVec t : M (W V) Unit) fun _ => K := by
  unfold destroyVec
  refine .bindQ (Quiet.rdObj _) (.rdObj _) fun _ => .bindQ (Quiet.destroyRange _ _ _) (.destroyRange _ _ _) fun _ =>
    .bindQ (Quiet.deallocate _ _ _) (.deallocate _ _ _) fun _ => ?_
  intro w r w' o hr he ho hK
  have hq := Quiet.dropObj _ _ _ _ hr
  obtain ⟨-, rfl⟩ := NO.runs_dropObj.1 hr
  exact ⟨hq.outcome he, fun _ => ⟨o, (upd_other _ _ hne).trans ho, hK⟩⟩

/-- The members of a vector object that was default-constructed. -/
def emptyObj : Obj := ⟨defaultAlloc, .null, 0, 0⟩

/-- The first steps of the assignments: the vector is exchanged with an empty one. -/
theorem outcome_assign {k : Ptr → M (W V) α} {Q : α → Obj → Prop} {w w' : W V} {a : α} {o : Obj}
    (hk : ∀ tmp, s ≠ tmp → Pays s (· = emptyObj) B (k tmp) Q) (he : w.err = none) (ho : w.heap s = some (.obj o))
    (hf : w.heap (.stk w.sp) = none) (h : Runs (do let tmp ← newVec defaultAlloc; swap tmp s; k tmp) w a w') : Outcome B w w' := by
  obtain ⟨tmp, w1, h1, h2⟩ := runs_bind_iff.1 h
  have q1 := Quiet.newVec _ _ _ _ h1
  obtain ⟨rfl, rfl⟩ := VO.runs_newVec h1
  obtain ⟨_, w2, h3, h4⟩ := runs_bind_iff.1 h2
  have q2 := Quiet.swap _ _ _ _ _ h3
  have hne : s ≠ .stk w.sp := by rintro rfl; rw [hf] at ho; cases ho
  have := VO.runs_swap hne.symm (o := emptyObj) (u := o) (upd_same _ _ _) ((upd_other _ _ hne).trans ho) h3
  have q := q1.trans q2
  have e2 := q.err.trans he
  refine (q.outcome he).trans e2 ((hk _ hne _ _ _ emptyObj h4 e2 ?_ rfl).1)
  rw [this]
  exact upd_same _ _ _

theorem grown_zero (n : Nat) : grown 0 n = max 1 n := by
  unfold grown wrap
  by_cases h : 1 < n
  · rw [if_pos (by omega)]; omega
  · rw [if_neg (by omega)]; omega

/-- Nothing more is requested once there is room. -/
theorem BigLater.elim {k c n : Nat} (h : BigLater V k c n) (hn : k + n ≤ c) : False := by
  obtain ⟨j, -, h1, h2, -⟩ := h
  omega

theorem pays_assignN (n : Nat) (a : Arg V) {t : Ptr} (hne : s ≠ t) : Pays s (· = emptyObj) (Big V (max 1 n))
    (do assertM ((← rdObj s).fin = 0)
        grow s n
        if (← hasErr) then pure () else assignLoop s a n
        destroyVec t) fun _ _ => True := by
  refine .rd ?_
  rintro _ rfl
  refine .assert fun _ => .check ((pays_grow emptyObj n).mono (fun _ h => h) (Q' := fun _ => Holds 0 n) (fun _ o h => ⟨h.1, ?_⟩) ?_)
    (fun _ => Quiet.destroyVec _) fun _ => ?_
  · have := h.2.2
    rw [show emptyObj.cap = 0 from rfl, grown_zero] at this
    omega
  · rw [show emptyObj.cap = 0 from rfl, grown_zero]; exact id
  · exact .bindF (P := fun _ => True) ((pays_assignLoop a n).mono (fun _ h => h) (fun _ _ h => h) fun h => (h.elim (by omega)).elim)
      (fun _ _ _ _ _ _ => trivial) (fun _ _ => (Quiet.destroyVec _).stops) fun _ =>
      (pays_destroyVec hne).mono (fun _ h => h) (fun _ _ _ => trivial) id

theorem pays_assignRandom (src : List (Arg V)) {t : Ptr} (hne : s ≠ t) : Pays s (· = emptyObj) (Big V (max 1 src.length))
    (do assertM ((← rdObj s).fin = 0)
        grow s src.length
        if (← hasErr) then pure () else do
          assertM ((← rdObj s).fin = 0)
          assignIter s src
        destroyVec t) fun _ _ => True := by
  refine .rd ?_
  rintro _ rfl
  refine .assert fun _ => .check ((pays_grow emptyObj src.length).mono (fun _ h => h) (Q' := fun _ => Holds 0 src.length) (fun _ o h => ⟨h.1, ?_⟩) ?_)
    (fun _ => Quiet.destroyVec _) fun _ => ?_
  · have := h.2.2
    rw [show emptyObj.cap = 0 from rfl, grown_zero] at this
    omega
  · rw [show emptyObj.cap = 0 from rfl, grown_zero]; exact id
  · refine .rd fun o ho => .assert fun _ => ?_
    exact .bindF (P := fun _ => True) ((pays_assignIter src (k := 0) (c := src.length)).mono (by rintro _ rfl; exact ho) (fun _ _ h => h) fun h => (h.elim (by omega)).elim)
      (fun _ _ _ _ _ _ => trivial) (fun _ _ => (Quiet.destroyVec _).stops) fun _ =>
      (pays_destroyVec hne).mono (fun _ h => h) (fun _ _ _ => trivial) id

theorem pays_assignInput (src : List (Arg V)) {t : Ptr} (hne : s ≠ t) : Pays s (· = emptyObj) (BigLater V 0 0 src.length)
    (do assertM ((← rdObj s).fin = 0)
        assignIter s src
        destroyVec t) fun _ _ => True := by
  refine .rd ?_
  rintro _ rfl
  refine .assert fun _ => ?_
  exact .bindF (P := fun _ => True) ((pays_assignIter src).mono (by rintro _ rfl; exact ⟨rfl, Nat.le_refl _⟩) (fun _ _ h => h) id)
      (fun _ _ _ _ _ _ => trivial) (fun _ _ => (Quiet.destroyVec _).stops) fun _ =>
      (pays_destroyVec hne).mono (fun _ h => h) (fun _ _ _ => trivial) id

theorem Big.lt {n : Nat} (h : Big V n) : maxBytes < n * ElemSize.size V :=
  Nat.lt_of_lt_of_le h (Nat.mod_le _ _)

/-- A request that is too large is one that is too large without the wrap-around of `size_t`. -/
theorem Big.grown {c n : Nat} (h : Big V (grown c n)) : maxBytes < max ((c + 1) * 3 / 2) n * ElemSize.size V := by
  have hp := ElemSize.pos (V := V)
  by_cases hw : (c + 1) * 3 < 2 ^ 64
  · have e : Vec.grown c n = max ((c + 1) * 3 / 2) n := by
      unfold Vec.grown wrap
      rw [Nat.mod_eq_of_lt (by omega : c + 1 < 2 ^ 64), Nat.mod_eq_of_lt hw]
      split <;> omega
    rw [← e]
    exact h.lt
  · have : 2 ^ 63 ≤ max ((c + 1) * 3 / 2) n := by omega
    have := Nat.le_trans this (Nat.le_mul_of_pos_right _ hp)
    unfold maxBytes
    omega

theorem BigNext.lt {k c : Nat} (h : BigNext V k c) : maxBytes < ((k + 1) * 3 / 2) * ElemSize.size V := by
  have h1 := h.2.grown
  by_cases hw : k + 1 < 2 ^ 64
  · rw [show wrap (k + 1) = k + 1 from Nat.mod_eq_of_lt hw, Nat.max_eq_left (by omega)] at h1
    exact h1
  · have hp := ElemSize.pos (V := V)
    have : 2 ^ 63 ≤ (k + 1) * 3 / 2 := by omega
    have := Nat.le_trans this (Nat.le_mul_of_pos_right _ hp)
    unfold maxBytes
    omega

end sized
end Nestl.Vec
