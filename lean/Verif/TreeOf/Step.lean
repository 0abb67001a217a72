import Verif.TreeOf.Inv
import Verif.TreeOf.Funs
set_option autoImplicit false
set_option maxHeartbeats 1000000
/-
The effect of calls on trees of objects.
-/
namespace Nestl.TO
open Nestl.VO (Elem ElemOps)
open Nestl.NO
open Nestl.RB (TNode T Tree)
open Nestl.Set (InvP Alive Contents contents_iff posOf)
open Nestl.Multi (MCall Asym HintOf)
open Nestl.Full (FCall FValid)
variable {S A X : Type} {E : Elem S A X} {s : ST S} {u : (Ptr → Option A) × X} {i : S}

/-- The state at the beginning of a call. -/
def Begin (E : Elem S A X) (u : (Ptr → Option A) × X) (i : S) (s : ST S) : Prop := Keep E u s ∧ NoErr s ∧ s.i = i

/-- An insertion that has not looked at more than the argument. -/
def insEffect (E : Elem S A X) (u : (Ptr → Option A) × X) (t : Ptr) : How → Res → ST S → Prop
  | .plain, .ins _ false, s => Keep E u s
  | _, _, s => Tried (Keep E u) (Keep E (movedOut E u t)) s

/-- What a call does outside of the trees. -/
def Effect (E : Elem S A X) (u : (Ptr → Option A) × X) : Call S A → Res → ST S → Prop
  | .insert _ h _ (.mov t), r => insEffect E u t h r
  | _, _ => Keep E u

theorem Begin.arg {a : Arg} {x : A} (h : ArgMeans E.blank (E.val i) a x) (ha : ∀ t, a ≠ .mov t) (s : ST S) (hs : Begin E u i s) :
    ArgRel E a x s := by
  cases a with
  | obj t => exact (congrArg (E.val · t) hs.2.2).trans h
  | none => exact h
  | mov t => exact (ha t rfl).elim

theorem Tried.keep {P P1 : ST S → Prop} (h0 : ∀ s, P s → Keep E u s) (h1 : ∀ s, P1 s → Keep E u s) {s : ST S} (h : Tried P P1 s) :
    Keep E u s := h.elim (fun h => h0 s h.1) fun h => h1 s h.1

/-- Inserting a copy, or an element constructed without arguments. -/
theorem sim_insert {ord : Order S A} {h : How} {v : Ptr} {a : Arg} {x : A} (hc : Compares E ord.less ord.lt) (hok : h.accepts a)
    (hx : ArgMeans E.blank (E.val i) a x) (ha : ∀ t, a ≠ .mov t) :
    NO.Sim E (Begin E u i) (exec E.toElemOps (.insert ord h v a)) (vexec ord.lt (h.call v x)) fun _ => Keep E u := by
  have hL := Keep.loose (N := TNode) (E := E) (u := u)
  have hP := hL.grows.and (ArgRel.grows (N := TNode) (E := E) (a := a) (v := x))
  have hb : ∀ s, Begin E u i s → Keep E u s ∧ ArgRel E a x s := fun s hs => ⟨hs.1, Begin.arg hx ha s hs⟩
  have hC : Ctor E (fun s => Keep E u s ∧ ArgRel E a x s) a x fun s => Keep E u s ∧ ArgRel E a x s := .copy hP fun _ h => h.2
  have hC' := hC.weaken (P1' := Keep E u) fun _ h => h.1
  have hT : ∀ {s : ST S}, Tried (fun s => Keep E u s ∧ ArgRel E a x s) (Keep E u) s → Keep E u s := Tried.keep (fun _ h => h.1) fun _ h => h
  have hT' : ∀ {s : ST S}, Tried (fun s => Keep E u s ∧ ArgRel E a x s) (fun s => Keep E u s ∧ ArgRel E a x s) s → Keep E u s :=
    Tried.keep (fun _ h => h.1) fun _ h => h.1
  have hd : ∀ {β γ : Type} {m : M (ST S) β} {n : M (RB.W A) β} (r : β → γ) {Q : β → ST S → Prop}, (∀ b s, Q b s → Keep E u s) →
      NO.Sim E (fun s => Keep E u s ∧ ArgRel E a x s) m n Q →
      NO.Sim E (Begin E u i) (m >>= fun x => pure (r x)) (n >>= fun x => pure (r x)) fun _ => Keep E u :=
    fun r _ hq h => NO.Sim.bind (h.weaken hb fun _ _ h => h) fun _ => NO.Sim.pure _ fun _ h => hq _ _ h
  have hk : (a ≠ .none) → ∀ s : ST S, Keep E u s ∧ ArgRel E a x s → Knows E (theArg a) x s := by
    intro hn s h
    cases a with
    | obj t => exact h.2
    | none => exact (hn rfl).elim
    | mov t => exact (ha t rfl).elim
  cases h with
  | plain =>
    have hn : a ≠ .none := by rintro rfl; exact hok
    refine hd _ ?_ (s_insertUnique hc hP hP.stable hC (hk hn) v)
    intro b s h
    split at h
    · exact hT' h
    · exact h.1
  | «at» pos =>
    have hn : a ≠ .none := by rintro rfl; exact hok
    exact hd _ (fun _ _ h => h.elim (fun h => h.1) hT') (s_insertUniqueAt hc hP hP.stable hC (hk hn) v pos)
  | emplace => exact hd _ (fun _ _ h => hT h) (s_emplaceUnique hc hL hP hC' v)
  | emplaceAt pos => exact hd _ (fun _ _ h => hT h) (s_emplaceHintUnique hc hL hP hC' v pos)
  | upper => exact hd _ (fun _ _ h => hT h) (s_emplaceEqual hc hL hP hC' v)
  | lower =>
    have hn : a ≠ .none := by rintro rfl; exact hok
    exact hd _ (fun _ _ h => hT' h) (s_insertEqualLower hc hP hP.stable hC (hk hn) v)
  | hint pos => exact hd _ (fun _ _ h => hT h) (s_emplaceHintEqual hc hL hP hC' v pos)

/-- Inserting a moved object. -/
theorem sim_insertMove {ord : Order S A} {h : How} {v t : Ptr} {x : A} (hc : Compares E ord.less ord.lt) (hok : h.accepts (.mov t))
    (hx : u.1 t = some x) :
    NO.Sim E (Begin E u i) (exec E.toElemOps (.insert ord h v (.mov t))) (vexec ord.lt (h.call v x)) fun r => insEffect E u t h r := by
  have hL := Keep.loose (N := TNode) (E := E) (u := u)
  have hL1 := Keep.loose (N := TNode) (E := E) (u := movedOut E u t)
  have hP := hL.grows
  have hC : Ctor E (Keep E u) (.mov t) x (Keep E (movedOut E u t)) := .move hx
  have hk : ∀ s, Keep E u s → Knows E t x s := fun s h => Keep.knows hx h
  have hd : ∀ {β γ : Type} {m : M (ST S) β} {n : M (RB.W A) β} (r : β → γ) {Q : β → ST S → Prop} {R : γ → ST S → Prop},
      (∀ b s, Q b s → R (r b) s) → NO.Sim E (Keep E u) m n Q →
      NO.Sim E (Begin E u i) (m >>= fun x => pure (r x)) (n >>= fun x => pure (r x)) R :=
    fun r _ _ hq h => NO.Sim.bind (h.weaken (fun _ h => h.1) fun _ _ h => h) fun _ => NO.Sim.pure _ fun _ h => hq _ _ h
  cases h with
  | plain =>
    refine hd _ ?_ (s_insertUnique hc hP hL1.grows.stable hC hk v)
    rintro ⟨p, b⟩ s h
    cases b
    · exact (by simpa using h : Keep E u s)
    · exact (by simpa using h : Tried (Keep E u) (Keep E (movedOut E u t)) s)
  | «at» pos => exact hok.elim
  | emplace => exact hd _ (fun _ _ h => h) (s_emplaceUnique hc hL1 hP hC v)
  | emplaceAt pos => exact hd _ (fun _ _ h => h) (s_emplaceHintUnique hc hL1 hP hC v pos)
  | upper => exact hd _ (fun _ _ h => h) (s_emplaceEqual hc hL1 hP hC v)
  | lower => exact hd _ (fun _ _ h => h) (s_insertEqualLower hc hP hL1.grows.stable hC hk v)
  | hint pos => exact hd _ (fun _ _ h => h) (s_emplaceHintEqual hc hL1 hP hC v pos)

theorem stk_of_alive {V : Type} {o : RB.W V} {v : Ptr} (h : Alive o v) : ∃ k, v = .stk k := by
  obtain ⟨k, rfl, -⟩ := h; exact ⟨k, rfl⟩

theorem sim_exec {o : RB.W Ptr} {lt0 : Ptr → Ptr → Bool} {c : Call S A} {c' : FCall A} (hv : FValid lt0 o c.addr) (hok : c.insertOk)
    (hc : ∀ ord, c.ord = some ord → Compares E ord.less ord.lt) (hm : c.Means E.blank (E.val i) c')
    (hmv : ∀ q, c.moves q → u.1 q = E.val i q) (hout : ∀ q, c.outer q → u.1 q = E.val i q) :
    NO.Sim E (Begin E u i) (exec E.toElemOps c) (vexec c.lt c') fun r => Effect E u c r := by
  have hL := Keep.loose (N := TNode) (E := E) (u := u)
  have hG := hL.grows
  have hS := hG.stable
  have hq : ∀ {β γ : Type} {m : M (ST S) β} {n : M (RB.W A) β} (r : β → γ), QSim E (Keep E u) m n (fun _ => Keep E u) →
      NO.Sim E (Begin E u i) (m >>= fun x => pure (r x)) (n >>= fun x => pure (r x)) fun _ => Keep E u :=
    fun r h => NO.Sim.bind (h.sim.weaken (fun _ h => h.1) fun _ _ h => h) fun _ => NO.Sim.pure _ fun _ h => h
  have hk : ∀ {β γ : Type} {m : M (ST S) β} {n : M (RB.W A) β} (r : β → γ) {t : Ptr} {x : A}, E.val i t = some x →
      QSim E (fun s => Keep E u s ∧ Knows E t x s) m n (fun _ => Keep E u) →
      NO.Sim E (Begin E u i) (m >>= fun x => pure (r x)) (n >>= fun x => pure (r x)) fun _ => Keep E u := by
    intro β γ m n r t x hx h
    exact NO.Sim.bind (h.sim.weaken (fun s h => ⟨h.1, (congrArg (E.val · t) h.2.2).trans hx⟩) fun _ _ h => h) fun _ => NO.Sim.pure _ fun _ h => h
  cases c with
  | create a => obtain rfl := hm; exact hq _ ((n_newTree a).quiet' hS)
  | insert ord h v a =>
    obtain ⟨x, hx, rfl⟩ := hm
    have hcc := hc ord rfl
    cases a with
    | obj t => exact sim_insert hcc hok.1 hx (fun _ => by simp)
    | none => exact sim_insert hcc hok.1 hx (fun _ => by simp)
    | mov t => exact sim_insertMove hcc hok.1 ((hmv t rfl).trans hx)
  | eraseKey ord v t =>
    obtain ⟨x, hx, rfl⟩ := hm
    exact hk _ hx (q_eraseKey (hc ord rfl) hL v)
  | eraseKeys ord v ts =>
    obtain ⟨xs, hx, rfl⟩ := hm
    refine hq _ (q_eraseKeys (hc ord rfl) v ts xs ?_)
    rw [← hx]
    exact List.map_congr_left fun q hq => hout q hq
  | eraseAt v it => obtain rfl := hm; exact hq _ (q_eraseIter hL v it)
  | eraseRange v f l => obtain rfl := hm; exact hq _ (q_eraseRange hL v f l)
  | clear v => obtain rfl := hm; exact hq _ (q_clear hL v)
  | find ord v t =>
    obtain ⟨x, hx, rfl⟩ := hm
    exact hk _ hx ((q_find (hc ord rfl) (hG.and Knows.grows).calm (fun _ h => h.2) v).weaken (fun _ h => h) fun _ _ h => h.1)
  | copy prop d v =>
    obtain rfl := hm
    exact NO.Sim.bind ((s_copyNothrow hL prop d v).weaken (fun _ h => h.1) fun _ _ h => h) fun _ => NO.Sim.pure _ fun _ h => h
  | move v => obtain rfl := hm; exact hq _ ((n_moveCtor v).quiet' hS)
  | swap prop v t => obtain rfl := hm; exact hq _ ((n_swapTrees prop v t).quiet' hS)
  | assign prop d v => obtain rfl := hm; exact hq _ (q_moveAssign hL prop d v)
  | destroy v =>
    obtain rfl := hm
    obtain ⟨k, rfl⟩ := stk_of_alive hv
    exact hq _ (q_destroyTree hL k)

/-! ### Preconditions -/

theorem Lifts.split {f : Ptr → Option A} {v : T Ptr} {t : T A} (h : Lifts f v t) {L M : List (Ptr × Ptr)} (he : v.nodes = L ++ M) :
    ∃ L' M', t.nodes = L' ++ M' ∧ L'.map Prod.fst = L.map Prod.fst ∧ M'.map Prod.fst = M.map Prod.fst := by
  have h1 : t.nodes.map Prod.fst = L.map Prod.fst ++ M.map Prod.fst := by
    rw [← List.map_append, ← he]; exact h.ptrs.symm
  obtain ⟨L', M', h2, h3, h4⟩ := List.map_eq_append_iff.1 h1
  exact ⟨L', M', h2, h3, h4⟩

theorem posOf_fst {K K' : Type} {e : Ptr} {L : List (Ptr × K)} {L' : List (Ptr × K')} (h : L.map Prod.fst = L'.map Prod.fst) :
    posOf e L = posOf e L' := by
  cases L <;> cases L' <;> simp_all [posOf]

/-- The preconditions in terms of the values. -/
theorem valid_lift {w : RB.W A} (hR : Rel E s w) (hI : TInv s.o) {lt0 : Ptr → Ptr → Bool} {c : Call S A} {c' : FCall A}
    (hv : FValid lt0 s.o c.addr) (hok : c.insertOk) {f : Ptr → Option A} (hm : c.Means E.blank f c') : FValid c.lt w c' := by
  have ha : ∀ {v : Ptr}, Alive s.o v → Alive w v := by
    rintro v ⟨k, rfl, hk⟩
    exact ⟨k, rfl, fun e => hk ((hR.same.none _).1 e)⟩
  have hc : ∀ {v : Ptr} {L : List (Ptr × Ptr)}, Alive s.o v → Contents s.o v L →
      ∃ L' : List (Ptr × A), Contents w v L' ∧ L'.map Prod.fst = L.map Prod.fst := by
    intro v L hv hL
    obtain ⟨k, a, t, rfl, -, ht, -⟩ := hI.tree hv
    obtain ⟨t', h1, h2⟩ := rel_lift hR ht
    rw [(contents_iff ht).1 hL]
    exact ⟨t'.nodes, (contents_iff h2).2 rfl, h1.ptrs.symm⟩
  have hh : ∀ {v pos : Ptr}, Alive s.o v → (∃ L, Contents s.o v L ∧ HintOf v pos L) → ∃ L, Contents w v L ∧ HintOf v pos L := by
    rintro v pos hv ⟨L, h1, h2⟩
    obtain ⟨L', h3, h4⟩ := hc hv h1
    refine ⟨L', h3, h2.imp id ?_⟩
    rintro ⟨k, hk⟩
    have : pos ∈ L'.map Prod.fst := by rw [h4]; exact List.mem_map.2 ⟨_, hk, rfl⟩
    obtain ⟨x, hx, rfl⟩ := List.mem_map.1 this
    exact ⟨x.2, hx⟩
  have hal : ∀ {v : Ptr} {a : Nat}, Full.UsesAlloc s.o v a → Full.UsesAlloc w v a := by
    rintro v a ⟨n, h1, h2⟩
    exact ⟨_, by rw [hR.same.heap, h1]; rfl, h2⟩
  cases c with
  | create a => obtain rfl := hm; trivial
  | insert ord h v a =>
    obtain ⟨x, -, rfl⟩ := hm
    cases h with
    | plain => exact ha hv
    | «at» pos => exact ⟨ha hv.1, hok.2 trivial, hh hv.1 hv.2.2⟩
    | emplace => exact ⟨ha hv.1, trivial⟩
    | emplaceAt pos => exact ⟨ha hv.1, hok.2 trivial, hh hv.1 hv.2.2⟩
    | upper => exact ha hv
    | lower => exact ha hv
    | hint pos => exact ⟨ha hv.1, hok.2 trivial, hh hv.1 hv.2.2⟩
  | eraseKey ord v t => obtain ⟨x, -, rfl⟩ := hm; exact ha hv
  | eraseKeys ord v ts => obtain ⟨x, -, rfl⟩ := hm; exact ha hv
  | eraseAt v it =>
    obtain rfl := hm
    obtain ⟨h1, L, q, h2, h3⟩ := hv
    obtain ⟨L', h4, h5⟩ := hc h1 h2
    have : it ∈ L'.map Prod.fst := by rw [h5]; exact List.mem_map.2 ⟨_, h3, rfl⟩
    obtain ⟨x, hx, rfl⟩ := List.mem_map.1 this
    exact ⟨ha h1, L', x.2, h4, hx⟩
  | eraseRange v f l =>
    obtain rfl := hm
    obtain ⟨h1, Y, M, Z, h2, rfl, rfl⟩ := hv
    obtain ⟨L', h4, h5⟩ := hc h1 h2
    rw [List.map_append, List.map_append] at h5
    obtain ⟨Y', R', rfl, h6, h7⟩ := List.map_eq_append_iff.1 h5
    obtain ⟨M', Z', rfl, h8, h9⟩ := List.map_eq_append_iff.1 h7
    exact ⟨ha h1, Y', M', Z', h4, posOf_fst (by rw [List.map_append, List.map_append, h8, h9]), posOf_fst h9.symm⟩
  | clear v => obtain rfl := hm; exact ha hv
  | find ord v t => obtain ⟨x, -, rfl⟩ := hm; exact ha hv
  | copy prop d v => obtain rfl := hm; exact ⟨ha hv.1, ha hv.2⟩
  | move v => obtain rfl := hm; exact ha hv
  | swap prop v t =>
    obtain rfl := hm
    obtain ⟨h1, h2, h3⟩ := hv
    exact ⟨ha h1, ha h2, h3.imp id fun ⟨a, k1, k2⟩ => ⟨a, hal k1, hal k2⟩⟩
  | assign prop d v => obtain rfl := hm; exact ⟨ha hv.1, ha hv.2⟩
  | destroy v => obtain rfl := hm; exact ha hv

theorem rel_oracle {w : RB.W A} (h : Rel E s w) (cc : Nat → Bool) : Rel E s (oracle w cc) :=
  ⟨h.inv, ⟨h.same.heap, h.same.live, h.same.typed, h.same.addr, h.same.junk, h.same.nAlloc, h.same.nCmp, h.same.sp⟩, h.uniq, h.err⟩

/-- The effect of a call. -/
theorem NInv.step (h : NInv E s) (he : s.o.err = none) {B : AState A} (hB : Shows E s B) {lt0 : Ptr → Ptr → Bool} {c : Call S A}
    {c' : FCall A} (hv : FValid lt0 s.o c.addr) (hok : c.insertOk) (hc : ∀ ord, c.ord = some ord → Compares E ord.less ord.lt)
    (hm : c.Means E.blank (E.val s.i) c') (hmv : ∀ q, c.moves q → (outside E s).1 q = E.val s.i q)
    (hout : ∀ q, c.outer q → (outside E s).1 q = E.val s.i q) :
    ∃ r s' B', Runs (exec E.toElemOps c) s r s' ∧ NInv E s' ∧ Effect E (outside E s) c r s' ∧ Shows E s' B' ∧
      Spec c.lt B c' r s'.o.err.isSome B' := by
  have hR := h.rel
  have hall : ∀ cc, wp (vexec c.lt c') (oracle (absW E s) cc) fun r w' => TInv w' ∧ ∃ B', Abs w' B' ∧ Spec c.lt B c' r w'.err.isSome B' := by
    intro cc
    have hR' := rel_oracle hR cc
    exact vexec_spec (inv_lift hR' h.outer) ((shows_iff hR' h.outer).1 hB) (valid_lift hR' h.outer hv hok hm) he
  obtain ⟨r, s', w', h1, h2, h3, h4, h6⟩ := sim_exec hv hok hc hm hmv hout s (absW E s) hR ⟨rfl, he, rfl⟩ (fun cc _ => by
    obtain ⟨r, w', h1, -⟩ := (hall cc).runs
    exact ⟨r, w', h1⟩)
  have h7 := h6 w'.env.ctor fun _ _ => rfl
  obtain ⟨hI, B', hA, hS⟩ := h7.wp (hall _)
  have hI : TInv w' := hI
  have hN := NInv.of_rel h2 hI
  refine ⟨r, s', B', h1, hN, h3, (shows_iff h2 hN.outer).2 hA, ?_⟩
  have h12 : w'.err.isSome = s'.o.err.isSome := h2.err
  rw [← h12]
  exact hS

end Nestl.TO
