import Verif.TreeOf.PropLemmas
import Verif.ListOf.Demo
set_option autoImplicit false
/-
Concrete reachable states used by the examples beside the theorems of C98: trees of boxes (Verif/VectorOf/Demo.lean).
-/
namespace Nestl.TO
open Nestl.VO (Elem ElemOps Boxes boxOps)
open Nestl.NO
open Nestl.RB (TNode T Tree)
open Nestl.Set (Alive Contents contents_iff)
open Nestl.LO.Demo (boxLess boxLess_ok boxEq boxEq_ok)
namespace Demo
variable {S A X α β : Type} {E : Elem S A X}

/-! ### Insertions with bounded loops, for evaluation -/

/-- What `m` returns, `m'` returns. -/
def Covers (m m' : M (ST S) α) : Prop := ∀ s r s', Runs m s r s' → Runs m' s r s'

theorem Covers.refl (m : M (ST S) α) : Covers m m := fun _ _ _ h => h

theorem Covers.bind {m m' : M (ST S) α} {f g : α → M (ST S) β} (h : Covers m m') (hf : ∀ a, Covers (f a) (g a)) :
    Covers (m >>= f) (m' >>= g) := by
  intro s r s' hr
  obtain ⟨a, s1, h1, h2⟩ := VO.runs_bind_iff.1 hr
  exact VO.runs_bind_iff.2 ⟨a, s1, h _ _ _ h1, hf _ _ _ _ h2⟩

theorem Covers.ite {c : Prop} [Decidable c] {m m' n n' : M (ST S) α} (h : Covers m m') (h' : Covers n n') :
    Covers (if c then m else n) (if c then m' else n') := by
  split
  · exact h
  · exact h'

theorem Covers.fault {m : M (ST S) α} : Covers (fun _ => some (.error .wild)) m := by
  intro s r s' h; cases h

/-- At most `n` steps of `insDescend`. -/
def insDescendN (less : Ptr → Ptr → M S Bool) (k : Ptr) : Nat → Ptr → Ptr → Bool → M (ST S) (Ptr × Bool)
  | 0, _, _, _ => fun _ => some (.error .wild)
  | n + 1, x, y, comp => do
    if x ≠ .null then
      let c ← compare less k (← keyOf x)
      let m ← node x
      insDescendN less k n (if c then m.left else m.right) x c
    else pure (y, comp)

theorem insDescendN_ok (less : Ptr → Ptr → M S Bool) (k : Ptr) (n : Nat) (x y : Ptr) (b : Bool) :
    Covers (insDescendN less k n x y b) (insDescend less k x y b) := by
  induction n generalizing x y b with
  | zero => exact .fault
  | succ n ih =>
    rw [insDescend]
    exact .ite (.bind (.refl _) fun _ => .bind (.refl _) fun _ => .bind (.refl _) fun _ => ih _ _ _) (.refl _)

/-- `insFix` where nothing has to be rebalanced. -/
def insFix0 (hdr x : Ptr) : M (RB.W Ptr) Unit := do
  let root := (← rd hdr).parent
  if x = root then pure () else do
  let xp := (← rd x).parent
  if (← rd xp).color = .red then fun _ => some (.error .wild) else pure ()

/-- `insertAndRebalance` where nothing has to be rebalanced. -/
def rebalance0 (insertLeft : Bool) (x p hdr : Ptr) : M (RB.W Ptr) Unit := do
  RB.insLink insertLeft x p hdr
  insFix0 hdr x
  RB.setColor (← rd hdr).parent .black

/-- `linkNode` where nothing has to be rebalanced. -/
def linkNode0 (insertLeft : Bool) (hdr p l : Ptr) : M (RB.W Ptr) Ptr := do
  rebalance0 insertLeft l p hdr
  RB.setCount hdr (· + 1)
  pure l

theorem linkNode0_ok (b : Bool) (hdr p l : Ptr) {w w' : RB.W Ptr} {r : Ptr} (h : Runs (linkNode0 b hdr p l) w r w') :
    Runs (linkNode b hdr p l) w r w' := by
  have hc : ∀ {γ δ : Type} {m m' : M (RB.W Ptr) γ} {f g : γ → M (RB.W Ptr) δ}, (∀ s r s', Runs m s r s' → Runs m' s r s') →
      (∀ a s r s', Runs (f a) s r s' → Runs (g a) s r s') → ∀ s r s', Runs (m >>= f) s r s' → Runs (m' >>= g) s r s' := by
    intro γ δ m m' f g h1 h2 s r s' hr
    obtain ⟨a, s1, k1, k2⟩ := VO.runs_bind_iff.1 hr
    exact VO.runs_bind_iff.2 ⟨a, s1, h1 _ _ _ k1, h2 _ _ _ _ k2⟩
  have hid : ∀ {γ : Type} {m : M (RB.W Ptr) γ}, ∀ s r s', Runs m s r s' → Runs m s r s' := fun _ _ _ h => h
  have hfix : ∀ s r s', Runs (insFix0 hdr l) s r s' → Runs (RB.insFix hdr l) s r s' := by
    rw [RB.insFix]
    refine hc hid fun _ => ?_
    intro s r s' h
    dsimp only at h ⊢
    split at h
    · rename_i e; rw [if_pos e]; exact h
    · rename_i e
      rw [if_neg e]
      revert s r s' h
      refine hc hid fun _ => hc hid fun _ => ?_
      intro s r s' h
      split at h
      · cases h
      · rename_i e; rw [if_neg e]; exact h
  exact hc (hc hid fun _ => hc hfix fun _ => hid) (fun _ => hid) _ _ _ h

/-- `getInsertUniquePos` with bounded loops. -/
def posN (less : Ptr → Ptr → M S Bool) (hdr k : Ptr) : M (ST S) (Ptr × Ptr) := do
  let (y, comp) ← insDescendN less k 10 (← node hdr).parent hdr true
  if comp then
    if y = (← node hdr).left then pure (.null, y) else fun _ => some (.error .wild)
  else
    if (← compare less (← keyOf y) k) then pure (.null, y) else pure (y, .null)

theorem posN_ok (less : Ptr → Ptr → M S Bool) (hdr k : Ptr) : Covers (posN less hdr k) (getInsertUniquePos less hdr k) := by
  refine .bind (.refl _) fun _ => .bind (insDescendN_ok _ _ _ _ _ _) ?_
  rintro ⟨y, b⟩
  exact .ite (.bind (.refl _) fun _ => .ite (.refl _) .fault) (.refl _)

theorem link_ok (b : Bool) (hdr p l : Ptr) : Covers (onO (linkNode0 b hdr p l) : M (ST S) Ptr) (onO (linkNode b hdr p l)) := by
  intro s r s' h
  unfold Runs onO at h
  split at h
  · next o h1 =>
    cases h
    exact runs_onO (linkNode0_ok _ _ _ _ h1)
  · cases h
  · cases h

/-- `insert_` with bounded loops. -/
def insN (less : Ptr → Ptr → M S Bool) (E : ElemOps S) (hdr x p : Ptr) (a : Arg) : M (ST S) Ptr := do
  let insertLeft ← (if x ≠ .null then pure true else if p = hdr then pure true
    else do compare less (theArg a) (← keyOf p))
  let l ← createNode E hdr a
  if (← failed) then pure hdr else onO (linkNode0 insertLeft hdr p l)

/-- `insertUnique` with bounded loops. -/
def uniqueN (less : Ptr → Ptr → M S Bool) (E : ElemOps S) (hdr : Ptr) (a : Arg) : M (ST S) (Ptr × Bool) := do
  let (x, p) ← posN less hdr (theArg a)
  if p ≠ .null then
    let pos ← insN less E hdr x p a
    pure (pos, true)
  else pure (x, false)

theorem uniqueN_ok (less : Ptr → Ptr → M S Bool) (E : ElemOps S) (hdr : Ptr) (a : Arg) :
    Covers (uniqueN less E hdr a) (insertUnique less E hdr a) := by
  refine .bind (posN_ok _ _ _) ?_
  rintro ⟨x, p⟩
  refine .ite (.bind ?_ fun _ => .refl _) (.refl _)
  exact .bind (.refl _) fun _ => .bind (.refl _) fun _ => .bind (.refl _) fun _ => .ite (.refl _) (link_ok _ _ _ _)

/-- `insertNode` with bounded loops. -/
def nodeN (less : Ptr → Ptr → M S Bool) (hdr x p z : Ptr) : M (ST S) Ptr := do
  let insertLeft ← (if x ≠ .null then pure true else if p = hdr then pure true
    else do compare less (← keyOf z) (← keyOf p))
  onO (linkNode0 insertLeft hdr p z)

/-- `getInsertEqualPos` with bounded loops. -/
def equalPosN (less : Ptr → Ptr → M S Bool) (hdr k : Ptr) : M (ST S) (Ptr × Ptr) := do
  let (y, _) ← insDescendN less k 10 (← node hdr).parent hdr true
  pure (.null, y)

/-- `emplaceEqual` with bounded loops. -/
def equalN (less : Ptr → Ptr → M S Bool) (E : ElemOps S) (hdr : Ptr) (a : Arg) : M (ST S) Ptr := do
  let z ← createNode E hdr a
  if (← failed) then pure hdr else do
  let (x, p) ← equalPosN less hdr (← keyOf z)
  nodeN less hdr x p z

theorem equalN_ok (less : Ptr → Ptr → M S Bool) (E : ElemOps S) (hdr : Ptr) (a : Arg) :
    Covers (equalN less E hdr a) (emplaceEqual less E hdr a) := by
  refine .bind (.refl _) fun _ => .bind (.refl _) fun _ => .ite (.refl _) (.bind (.refl _) fun _ => .bind ?_ ?_)
  · refine .bind (.refl _) fun _ => .bind (insDescendN_ok _ _ _ _ _ _) fun _ => .refl _
  · rintro ⟨x, p⟩
    exact .bind (.refl _) fun _ => link_ok _ _ _ _

/-- Calls with bounded loops. -/
def execN (E : ElemOps S) : Call S A → M (ST S) Res
  | .create a => do pure (.obj (← onO (RB.newTree a)))
  | .insert ord .plain s a => do let r ← uniqueN ord.less E s a; pure (.ins r.1 r.2)
  | .insert ord .upper s a => do pure (.pos (← equalN ord.less E s a))
  | _ => fun _ => some (.error .wild)

theorem execN_ok (E : ElemOps S) (c : Call S A) : Covers (execN E c) (exec E c) := by
  cases c with
  | create a => exact .refl _
  | insert ord h s a =>
    cases h with
    | plain => exact .bind (uniqueN_ok _ _ _ _) fun _ => .refl _
    | upper => exact .bind (equalN_ok _ _ _ _) fun _ => .refl _
    | _ => exact .fault
  | _ => exact .fault

/-- The state after a call. -/
def go (E : ElemOps S) (c : Call S A) (s : ST S) : ST S :=
  match execN E c (ready s) with
  | some (.ok (_, s')) => s'
  | _ => s

/-- The result of a call. -/
def res (E : ElemOps S) (c : Call S A) (s : ST S) : Option Res :=
  match execN E c (ready s) with
  | some (.ok (r, _)) => some r
  | _ => none

theorem runs {E : ElemOps S} {s : ST S} {c : Call S A} {r : Res} (h : res E c s = some r) : Runs (exec E c) (ready s) r (go E c s) := by
  unfold res at h
  unfold go
  split at h
  · rename_i x s' e
    cases h
    exact execN_ok _ _ _ _ _ e
  · cases h

theorem step {s : ST S} {c : Call S A} {r : Res} (hr : Reach E s) (hv : Valid E s c) (h : res E.toElemOps c s = some r) :
    Reach E (go E.toElemOps c s) := .call hr hv (runs h)

theorem alive {s : ST S} {i : Nat} (h : (s.o.heap (.stk i)).isSome = true) : Alive s.o (.stk i) :=
  ⟨i, rfl, by intro e; rw [e] at h; cases h⟩

theorem objs {s : ST S} {v : Ptr} {a : Nat} {t : T Ptr} (h : Tree s.o.heap v a t) : Objs s v t.nodes := (contents_iff h).2 rfl

theorem values {s : ST S} {v : Ptr} {qs : List (Ptr × Ptr)} {L : List (Ptr × A)} (h : Objs s v qs)
    (e : (qs.map fun x => (x.1, E.val s.i x.2)) = L.map fun x => (x.1, some x.2)) : Values E s v L := ⟨qs, h, e⟩

theorem live {s : ST S} {q : Ptr} (h : (E.val s.i q).isSome = true) : E.val s.i q ≠ none := by
  intro e; rw [e] at h; cases h

/-- No node holds `q`. -/
theorem notElem {s : ST S} {q : Ptr} (hr : Reach E s)
    (h : ((List.range s.o.nAlloc).all fun k => match s.o.env.addr k with
      | some a => (match s.o.heap (.dyn a) with | some n => n.val != some q | none => true)
      | none => true) = true) : ¬ IsElem s q := by
  intro hq
  obtain ⟨p, hp⟩ := hr.inv.isElem.1 hq
  obtain ⟨a, rfl⟩ := hr.inv.typed _ _ hp
  obtain ⟨c, h1, h2⟩ := hp
  obtain ⟨k, h3, h4⟩ := hr.inv.outer.past a (by rw [h1]; simp)
  have h5 := List.all_eq_true.1 h k (List.mem_range.2 h3)
  rw [h4] at h5
  simp only [h1] at h5
  rw [show c.val = some q from h2] at h5
  simp at h5

/-- The order of boxes. -/
def ord : Order Boxes Nat := ⟨boxLess, fun x y => x < y⟩

theorem ord_ok : Compares Elem.box ord.less ord.lt := boxLess_ok

theorem ord_swo : SWO ord.lt := by
  refine ⟨?_, ?_, ?_⟩ <;> simp [ord] <;> omega

/-- Unlimited memory. -/
def env : Env (TNode Ptr) := { addr := fun n => some n, ctor := fun _ => true, junk := fun _ => ⟨.red, .null, .null, .null, none, 0, 0⟩ }

/-- The client has boxes with the values 7 and 8; two copies will succeed. -/
def s0 : ST Boxes := ⟨Set.start env, ⟨fun p => if p = .stk 0 then some 7 else if p = .stk 1 then some 8 else none, 2, 2⟩⟩

def v : Ptr := .stk 0
def u : Ptr := .stk 1

/-- Two trees. -/
def s1 : ST Boxes := go boxOps (.create 0 : Call Boxes Nat) s0
def s2 : ST Boxes := go boxOps (.create 0 : Call Boxes Nat) s1
/-- The box with 7 is copied into the first tree. -/
def s3 : ST Boxes := go boxOps (.insert ord .plain v (.obj (.stk 0))) s2
/-- The box with 8 is moved into it. -/
def s4 : ST Boxes := go boxOps (.insert ord .plain v (.mov (.stk 1))) s3
/-- An element of the first tree is copied into the second tree. -/
def s5 : ST Boxes := go boxOps (.insert ord .upper u (.obj (.stk 2))) s4
/-- The copies have run out: the error is reported and nothing changes. -/
def s6 : ST Boxes := go boxOps (.insert ord .upper u (.obj (.stk 0))) s5

theorem r0 : Reach Elem.box s0 := .start (by
  intro n hn
  show (if _ then _ else if _ then _ else _) = _
  rw [if_neg, if_neg]
  · simp only [Ptr.stk.injEq]
    have hn : 2 ≤ n := hn
    omega
  · simp only [Ptr.stk.injEq]
    have hn : 2 ≤ n := hn
    omega)

/-- A call that uses no objects and no comparator. -/
theorem plain {s : ST S} {c : Call S A} (h : Full.FValid (fun _ _ => false) s.o c.addr) (h0 : c.insertOk) (h1 : ∀ q, ¬ c.reads q)
    (h2 : ∀ q, ¬ c.moves q) (h3 : ∀ q, ¬ c.outer q) (h4 : c.ord = none) : Valid E s c :=
  ⟨h, h0, fun q hq => (h1 q hq).elim, fun q hq => (h2 q hq).elim, fun q hq => (h3 q hq).elim, fun o ho => by rw [h4] at ho; cases ho⟩

theorem v_create {s : ST S} {a : Nat} : Valid E s (.create a) := plain trivial trivial (fun _ h => h) (fun _ h => h) (fun _ h => h) rfl
theorem r1 : Reach Elem.box s1 := step r0 v_create (r := .obj v) (by rfl)
theorem r2 : Reach Elem.box s2 := step r1 v_create (r := .obj u) (by rfl)

/-- A live object can be copied into a tree. -/
theorem v_insert {s : ST Boxes} {v t : Ptr} (h : Alive s.o v) (ht : Elem.box.val s.i t ≠ none) : Valid Elem.box s (.insert ord .plain v (.obj t)) :=
  ⟨h, ⟨trivial, fun h => h.elim⟩, by rintro q rfl; exact ht, fun _ h => h.elim, fun _ h => h.elim, by rintro o ho; cases ho; exact ord_ok⟩
theorem v_upper {s : ST Boxes} {v t : Ptr} (h : Alive s.o v) (ht : Elem.box.val s.i t ≠ none) : Valid Elem.box s (.insert ord .upper v (.obj t)) :=
  ⟨h, ⟨trivial, fun h => h.elim⟩, by rintro q rfl; exact ht, fun _ h => h.elim, fun _ h => h.elim, by rintro o ho; cases ho; exact ord_ok⟩
theorem v_find {s : ST Boxes} {v t : Ptr} (h : Alive s.o v) (ht : Elem.box.val s.i t ≠ none) : Valid Elem.box s (.find ord v t) :=
  ⟨h, trivial, by rintro q rfl; exact ht, fun _ h => h.elim, fun _ h => h.elim, by rintro o ho; cases ho; exact ord_ok⟩
theorem v_move {s : ST Boxes} {v t : Ptr} (h : Alive s.o v) (ht : Elem.box.val s.i t ≠ none) (hn : ¬ IsElem s t) :
    Valid Elem.box s (.insert ord .plain v (.mov t)) :=
  ⟨h, ⟨trivial, fun h => h.elim⟩, fun _ h => h.elim, by rintro q rfl; exact ⟨ht, hn⟩, fun _ h => h.elim, by rintro o ho; cases ho; exact ord_ok⟩

theorem v2 : Valid Elem.box s2 (.insert ord .plain v (.obj (.stk 0))) := v_insert (alive (by decide +kernel)) (live (by decide +kernel))
theorem r3 : Reach Elem.box s3 := step r2 v2 (r := .ins (.dyn 0) true) (by rfl)

theorem v3 : Valid Elem.box s3 (.insert ord .plain v (.mov (.stk 1))) :=
  v_move (alive (by decide +kernel)) (live (by decide +kernel)) (notElem r3 (by decide +kernel))
theorem run3 : Runs (exec boxOps (.insert ord .plain v (.mov (.stk 1)))) (ready s3) (.ins (.dyn 1) true) s4 := runs (by rfl)
theorem r4 : Reach Elem.box s4 := step r3 v3 (r := .ins (.dyn 1) true) (by rfl)

deriving instance DecidableEq for TNode

/-- An empty tree. -/
theorem tree0 {H : Ptr → Option (TNode Ptr)} {v : Ptr} {o : Nat} (h : H v = some (RB.hdCell ⟨v, v, o, 0⟩ .null))
    (hv : ∃ i, v = .stk i) : Tree H v o .nil := ⟨h, trivial, ⟨by simp [RB.T.ptrs, RB.T.nodes], by simp [RB.T.ptrs, RB.T.nodes], hv⟩, ⟨0, rfl⟩, rfl⟩

/-- A tree with one element. -/
theorem tree1 {H : Ptr → Option (TNode Ptr)} {v : Ptr} {o p q : _} (h : H v = some (RB.hdCell ⟨.dyn p, .dyn p, o, 1⟩ (.dyn p)))
    (h' : H (.dyn p) = some (RB.cellS .L .black v .null .null q o)) (hv : ∃ i, v = .stk i) : Tree H v o (.node (.dyn p) .black .nil q .nil) :=
  ⟨h, ⟨h', trivial, trivial⟩, ⟨by simp [RB.T.ptrs, RB.T.nodes], by simp [RB.T.ptrs, RB.T.nodes], hv⟩, ⟨1, 0, rfl, rfl, rfl⟩, rfl⟩

/-- A tree with two elements. -/
theorem tree2 {H : Ptr → Option (TNode Ptr)} {v : Ptr} {o p q p' q' : _} (h : H v = some (RB.hdCell ⟨.dyn p, .dyn p', o, 2⟩ (.dyn p)))
    (h' : H (.dyn p) = some (RB.cellS .L .black v .null (.dyn p') q o))
    (h'' : H (.dyn p') = some (RB.cellS .L .red (.dyn p) .null .null q' o)) (hv : ∃ i, v = .stk i) (hp : p ≠ p') :
    Tree H v o (.node (.dyn p) .black .nil q (.node (.dyn p') .red .nil q' .nil)) :=
  ⟨h, ⟨h', trivial, h'', trivial, trivial⟩, ⟨by simp [RB.T.ptrs, RB.T.nodes, hp], by simp [RB.T.ptrs, RB.T.nodes], hv⟩,
    ⟨1, 0, rfl, rfl, rfl, rfl, rfl, rfl⟩, rfl⟩

theorem t3 : Tree s3.o.heap v 0 (.node (.dyn 0) .black .nil (.stk 2) .nil) := tree1 (by decide +kernel) (by decide +kernel) ⟨_, rfl⟩
theorem o3 : Objs s3 v [(.dyn 0, .stk 2)] := objs t3
theorem vals3 : Values Elem.box s3 v [(.dyn 0, 7)] := values o3 (by decide +kernel)
theorem t3u : Tree s3.o.heap u 0 .nil := tree0 (by decide +kernel) ⟨_, rfl⟩
theorem vals3u : Values Elem.box s3 u [] := values (objs t3u) rfl
/-- The trees of `s3` are `u` and `v`. -/
theorem alive3 {t : Ptr} (h : Alive s3.o t) : t = v ∨ t = u := by
  obtain ⟨i, rfl, h1⟩ := h
  have h2 := (r3.inv.outer.alive i h1).1
  have h3 : s3.o.sp = 2 := by decide +kernel
  rw [h3] at h2
  match i, h2 with
  | 0, _ => exact .inl rfl
  | 1, _ => exact .inr rfl

/-- The element is inserted into its own tree: it is there already. -/
theorem v3' : Valid Elem.box s3 (.insert ord .plain v (.obj (.stk 2))) := v_insert (alive (by decide +kernel)) (live (by decide +kernel))
theorem run3' : Runs (exec boxOps (.insert ord .plain v (.obj (.stk 2)))) (ready s3) (.ins (.dyn 0) false)
    (go boxOps (.insert ord .plain v (.obj (.stk 2))) s3) := runs (by rfl)

theorem t4 : Tree s4.o.heap v 0 (.node (.dyn 0) .black .nil (.stk 2) (.node (.dyn 1) .red .nil (.stk 3) .nil)) :=
  tree2 (by decide +kernel) (by decide +kernel) (by decide +kernel) ⟨_, rfl⟩ (by decide)
theorem o4 : Objs s4 v [(.dyn 0, .stk 2), (.dyn 1, .stk 3)] := objs t4
theorem vals4 : Values Elem.box s4 v [(.dyn 0, 7), (.dyn 1, 8)] := values o4 (by decide +kernel)
theorem isElem4 : IsElem s4 (.stk 2) := ⟨v, _, .dyn 0, alive (by decide +kernel), o4, by simp⟩
theorem v4 : Valid Elem.box s4 (.insert ord .upper u (.obj (.stk 2))) := v_upper (alive (by decide +kernel)) (live (by decide +kernel))
theorem r5 : Reach Elem.box s5 := step r4 v4 (r := .pos (.dyn 2)) (by rfl)

theorem t5 : Tree s5.o.heap v 0 (.node (.dyn 0) .black .nil (.stk 2) (.node (.dyn 1) .red .nil (.stk 3) .nil)) :=
  tree2 (by decide +kernel) (by decide +kernel) (by decide +kernel) ⟨_, rfl⟩ (by decide)
theorem o5 : Objs s5 v [(.dyn 0, .stk 2), (.dyn 1, .stk 3)] := objs t5
theorem vals5 : Values Elem.box s5 v [(.dyn 0, 7), (.dyn 1, 8)] := values o5 (by decide +kernel)
theorem t5u : Tree s5.o.heap u 0 (.node (.dyn 2) .black .nil (.stk 4) .nil) := tree1 (by decide +kernel) (by decide +kernel) ⟨_, rfl⟩
theorem o5u : Objs s5 u [(.dyn 2, .stk 4)] := objs t5u
theorem vals5u : Values Elem.box s5 u [(.dyn 2, 7)] := values o5u (by decide +kernel)
theorem isElem5 : IsElem s5 (.stk 3) := ⟨v, _, .dyn 1, alive (by decide +kernel), o5, by simp⟩

theorem v5 : Valid Elem.box s5 (.insert ord .upper u (.obj (.stk 0))) := v_upper (alive (by decide +kernel)) (live (by decide +kernel))
theorem run5 : Runs (exec boxOps (.insert ord .upper u (.obj (.stk 0)))) (ready s5) (.pos u) s6 := runs (by rfl)
theorem r6 : Reach Elem.box s6 := step r5 v5 (r := .pos u) (by rfl)
theorem t6u : Tree s6.o.heap u 0 (.node (.dyn 2) .black .nil (.stk 4) .nil) := tree1 (by decide +kernel) (by decide +kernel) ⟨_, rfl⟩
theorem vals6u : Values Elem.box s6 u [(.dyn 2, 7)] := values (objs t6u) (by decide +kernel)

/-- Trees can be exchanged, moved, copied, destroyed. -/
theorem v_swap {s : ST S} {u v : Ptr} {b : Bool} {a a' : Nat} (h : Alive s.o u) (h' : Alive s.o v) (ha : Full.UsesAlloc s.o u a)
    (ha' : Full.UsesAlloc s.o v a') (e : b = true ∨ a = a') : Valid E s (.swap b u v) :=
  plain ⟨h, h', e.imp (fun h => h) fun (e : a = a') => ⟨a, ha, by rw [e]; exact ha'⟩⟩ trivial (fun _ h => h) (fun _ h => h) (fun _ h => h) rfl
theorem v_move' {s : ST S} {v : Ptr} (h : Alive s.o v) : Valid E s (.move v) :=
  plain h trivial (fun _ h => h) (fun _ h => h) (fun _ h => h) rfl
theorem v_copy {s : ST S} {u v : Ptr} {b : Bool} (h : Alive s.o u) (h' : Alive s.o v) : Valid E s (.copy b u v) :=
  plain ⟨h, h'⟩ trivial (fun _ h => h) (fun _ h => h) (fun _ h => h) rfl
theorem v_destroy {s : ST S} {v : Ptr} (h : Alive s.o v) : Valid E s (.destroy v) :=
  plain h trivial (fun _ h => h) (fun _ h => h) (fun _ h => h) rfl
theorem v_eraseAt {s : ST S} {v it q : Ptr} {L : List (Ptr × Ptr)} (h : Alive s.o v) (hL : Objs s v L) (hm : (it, q) ∈ L) :
    Valid E s (.eraseAt v it) := plain ⟨h, L, q, hL, hm⟩ trivial (fun _ h => h) (fun _ h => h) (fun _ h => h) rfl

theorem v5' : Valid Elem.box s5 (.swap false u v) := v_swap (alive (by decide +kernel)) (alive (by decide +kernel))
  ⟨_, t5u.cell, rfl⟩ ⟨_, t5.cell, rfl⟩ (.inr rfl)
theorem v5'' : Valid Elem.box s5 (.copy false u v) := v_copy (alive (by decide +kernel)) (alive (by decide +kernel))
theorem v5e : Valid Elem.box s5 (.eraseAt v (.dyn 1)) := v_eraseAt (q := .stk 3) (alive (by decide +kernel)) o5 (by simp)

/-- A destroyed tree is gone. -/
theorem destroyed {s : ST S} {v : Ptr} (hr : Reach E s) (hv : Valid E s (.destroy v)) :
    ∃ s', Reach E s' ∧ ∀ t, Alive s'.o t ↔ t ≠ v ∧ Alive s.o t := by
  have h := hr.inv
  obtain ⟨B, hB, -⟩ := h.shows
  obtain ⟨r, s', B', h1, -, -, h2, -, -, -, h3⟩ := h.call hB hv (c' := .multi (.base (.destroy v))) rfl
  refine ⟨s', .call hr hv h1, fun t => ?_⟩
  rw [h2.1 t, h3, hB.1 t, Set.put]
  split
  · rename_i e; simp [e]
  · rename_i e; simp [e]

/-- The trees of `s5` are `u` and `v`. -/
theorem alive5 {t : Ptr} (h : Alive s5.o t) : t = v ∨ t = u := by
  obtain ⟨i, rfl, h1⟩ := h
  have h2 := (r5.inv.outer.alive i h1).1
  have h3 : s5.o.sp = 2 := by decide +kernel
  rw [h3] at h2
  match i, h2 with
  | 0, _ => exact .inl rfl
  | 1, _ => exact .inr rfl

/-- The trees are destroyed. -/
theorem gone : ∃ s, Reach Elem.box s ∧ ∀ t, ¬ Alive s.o t := by
  obtain ⟨s6, r6, h6⟩ := destroyed r5 (v_destroy (v := v) (alive (by decide +kernel)))
  obtain ⟨s7, r7, h7⟩ := destroyed r6 (v_destroy (v := u) ((h6 u).2 ⟨by decide, alive (by decide +kernel)⟩))
  refine ⟨s7, r7, fun t ht => ?_⟩
  obtain ⟨h1, h⟩ := (h7 t).1 ht
  obtain ⟨h2, h⟩ := (h6 t).1 h
  exact (alive5 h).elim h2 h1

/-- The client changes the value of an element. -/
theorem set {s : ST Boxes} {q : Ptr} (hr : Reach Elem.box s) (hq : IsElem s q) (x : Nat) :
    Elem.box.inv { s.i with box := upd s.i.box q (some x) } ∧
    ∀ p, IsElem s p → Elem.box.val { s.i with box := upd s.i.box q (some x) } p ≠ none := by
  have h := hr.inv
  have hl : ∀ p, IsElem s p → s.i.box p ≠ none := by
    intro p hp
    obtain ⟨x, hx⟩ := h.isElem.1 hp
    exact h.live _ _ hx
  constructor
  · intro n hn
    have hn : s.i.next ≤ n := hn
    show upd s.i.box q (some x) (.stk n) = none
    rw [upd_other]
    · exact h.inv n hn
    · rintro rfl
      exact hl _ hq (h.inv n hn)
  · intro p hp
    show upd s.i.box q (some x) p ≠ none
    rw [upd_apply]
    split
    · simp
    · exact hl p hp

end Demo
end Nestl.TO
