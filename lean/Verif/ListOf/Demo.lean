import Verif.ListOf.PropLemmas
import Verif.VectorOf.Demo
set_option autoImplicit false
/-
Concrete reachable states used by the examples beside the theorems of C97: lists of boxes (Verif/VectorOf/Demo.lean).
-/
namespace Nestl.LO
open Nestl.VO (Elem ElemOps Boxes boxOps)
open Nestl.NO
namespace Demo

/-- Unlimited memory. -/
def env : Env (LL.LNode Ptr) := { addr := fun n => some n, ctor := fun _ => true, junk := fun _ => ⟨.null, .null, none, 0⟩ }

variable {S A X : Type} {E : Elem S A X}

/-- The state after a call. -/
def go (E : ElemOps S) (c : Call S) (s : ST S) : ST S :=
  match exec E c (ready s) with
  | some (.ok (_, s')) => s'
  | _ => s

/-- The call returns. -/
def okB (E : ElemOps S) (c : Call S) (s : ST S) : Bool :=
  match exec E c (ready s) with
  | some (.ok _) => true
  | _ => false

theorem runs {E : ElemOps S} {s : ST S} {c : Call S} (h : okB E c s = true) : ∃ r, Runs (exec E c) (ready s) r (go E c s) := by
  unfold okB at h
  unfold go Runs
  split at h
  · rename_i x e
    rw [e]; exact ⟨x.1, rfl⟩
  · cases h

theorem step {s : ST S} {c : Call S} (hr : Reach E s) (hv : Valid E s c) (h : okB E.toElemOps c s = true) :
    Reach E (go E.toElemOps c s) := by
  obtain ⟨r, h⟩ := runs h
  exact .call hr hv h

theorem alive {s : ST S} {i : Nat} (h : (s.o.heap (.stk i)).isSome = true) : LC.Alive s.o (.stk i) :=
  ⟨i, rfl, by intro e; rw [e] at h; cases h⟩

/-- Visit at most `n` elements. -/
def walkN : Nat → Ptr → Ptr → M (LL.W Ptr) (List (Ptr × Ptr))
  | 0, _, _ => fault .wild
  | n + 1, it, last => do
    if (← LL.itEq it last) then pure [] else do
      let v ← LL.deref it
      let rest ← walkN n (← LL.incr it) last
      pure ((it, v) :: rest)

theorem walkN_ok {n : Nat} {it last : Ptr} {w w' : LL.W Ptr} {L : List (Ptr × Ptr)} (h : Runs (walkN n it last) w L w') :
    Runs (LC.walkFrom it last) w L w' := by
  induction n generalizing it w w' L with
  | zero => cases h
  | succ n ih =>
    rw [LC.walkFrom]
    unfold walkN at h
    obtain ⟨b, w1, h1, h2⟩ := VO.runs_bind_iff.1 h
    refine VO.runs_bind_iff.2 ⟨b, w1, h1, ?_⟩
    split at h2
    · rename_i hb; rw [if_pos hb]; exact h2
    · rename_i hb
      rw [if_neg hb]
      obtain ⟨x, w2, h3, h4⟩ := VO.runs_bind_iff.1 h2
      obtain ⟨y, w3, h5, h6⟩ := VO.runs_bind_iff.1 h4
      obtain ⟨z, w4, h7, h8⟩ := VO.runs_bind_iff.1 h6
      exact VO.runs_bind_iff.2 ⟨x, w2, h3, VO.runs_bind_iff.2 ⟨y, w3, h5, VO.runs_bind_iff.2 ⟨z, w4, ih h7, h8⟩⟩⟩

/-- The elements of a list with less than ten elements. -/
def elems (s : ST S) (v : Ptr) : Option (List (Ptr × Ptr)) :=
  match (do walkN 10 (← LL.begin_ v) (← LL.end_ v)) s.o with
  | some (.ok (L, _)) => some L
  | _ => none

theorem elems_ok {s : ST S} {v : Ptr} {L L' : List (Ptr × Ptr)} (h : elems s v = some L) (h' : Objs s v L') : L' = L := by
  unfold elems at h
  split at h
  · rename_i M w e
    cases h
    obtain ⟨x, w2, h3, h4⟩ := VO.runs_bind_iff.1 (show Runs _ _ L w from e)
    obtain ⟨y, w3, h5, h6⟩ := VO.runs_bind_iff.1 h4
    exact (Runs.det h' (show Runs (LC.walk v) s.o L w from VO.runs_bind_iff.2 ⟨x, w2, h3, VO.runs_bind_iff.2 ⟨y, w3, h5, walkN_ok h6⟩⟩)).1
  · cases h

theorem objs {s : ST S} {v : Ptr} {L : List (Ptr × Ptr)} (hr : Reach E s) (ha : LC.Alive s.o v) (h : elems s v = some L) :
    Objs s v L := by
  obtain ⟨σ, hi⟩ := hr.inv
  obtain ⟨x, hx⟩ := (LC.alive_iff hi.outer).1 ha
  have h1 : Objs s v (LC.view x.els) := (LC.contents_iff hi.outer hx).2 rfl
  rw [← elems_ok h h1]
  exact h1

/-- The allocator of a list. -/
def allocB (s : ST S) (v : Ptr) (a : Nat) : Bool :=
  match LC.getAlloc v s.o with
  | some (.ok (b, _)) => a == b
  | _ => false

theorem hasAlloc {s : ST S} {v : Ptr} {a : Nat} (hr : Reach E s) (ha : LC.Alive s.o v) (h : allocB s v a = true) :
    LC.HasAlloc s.o v a := by
  obtain ⟨σ, hi⟩ := hr.inv
  obtain ⟨x, hx⟩ := (LC.alive_iff hi.outer).1 ha
  have h1 : LC.HasAlloc s.o v x.alloc := (LC.hasAlloc_iff hi.outer hx).2 rfl
  unfold allocB at h
  rw [show LC.getAlloc v s.o = _ from h1] at h
  have := beq_iff_eq.1 h
  rw [this]; exact h1

theorem sp_bound {s : ST S} (hr : Reach E s) {i : Nat} (h : s.o.heap (.stk i) ≠ none) : i < s.o.sp := by
  obtain ⟨σ, hi⟩ := hr.inv
  exact hi.outer.sp i h

theorem notElem {s : ST S} {q : Ptr} (hr : Reach E s)
    (h : ((List.range s.o.sp).all fun i => !(s.o.heap (.stk i)).isSome ||
      match elems s (.stk i) with | some L => !(L.map Prod.snd).contains q | none => false) = true) : ¬ IsElem s q := by
  rintro ⟨v, qs, p, h1, h2, h3⟩
  obtain ⟨i, rfl, h4⟩ := h1
  have h6 := List.all_eq_true.1 h i (List.mem_range.2 (sp_bound hr h4))
  rw [Option.isSome_iff_ne_none.2 h4] at h6
  cases h7 : elems s (.stk i) with
  | none => rw [h7] at h6; cases h6
  | some L =>
    obtain rfl := elems_ok h7 h2
    rw [h7] at h6
    have : q ∈ qs.map Prod.snd := List.mem_map.2 ⟨_, h3, rfl⟩
    simp only [List.contains_iff_mem.2 this] at h6
    cases h6

/-- Valid calls return. -/
theorem ok {s : ST S} {c : Call S} (hr : Reach E s) (hv : Valid E s c) : okB E.toElemOps c s = true := by
  obtain ⟨σ, h⟩ := hr.inv
  obtain ⟨c', hm⟩ := hv.means
  obtain ⟨r, s', σ', h1, -⟩ := h.call hv hm
  unfold okB
  rw [show exec _ _ _ = _ from h1]

/-- A destroyed list is gone. -/
theorem destroyed {s : ST S} {v : Ptr} (hr : Reach E s) (hv : Valid E s (.destroy v)) (t : Ptr) :
    LC.Alive (go E.toElemOps (.destroy v) s).o t ↔ t ≠ v ∧ LC.Alive s.o t := by
  obtain ⟨σ, h⟩ := hr.inv
  obtain ⟨r, s', σ', h1, h2, -, h3, al, L, h4, h5⟩ := h.call hv (c' := .destroy v) rfl
  have h6 : go E.toElemOps (.destroy v) s = s' := by
    unfold go
    rw [show exec _ _ _ = _ from h1]
  rw [h6, (h2.shows.2 rfl).1 t, h5, (h.shows.2 rfl).1 t, upd_apply]
  split
  · rename_i e; simp [e]
  · rename_i e; simp [e]

theorem gone {s : ST S} (hr : Reach E s) (h : ((List.range s.o.sp).all fun i => !(s.o.heap (.stk i)).isSome) = true) :
    ∀ v, ¬ LC.Alive s.o v := by
  rintro v ⟨i, rfl, h1⟩
  have h7 := List.all_eq_true.1 h i (List.mem_range.2 (sp_bound hr h1))
  cases e : s.o.heap (.stk i) with
  | none => exact h1 e
  | some x => rw [e] at h7; cases h7

theorem live {s : ST S} {q : Ptr} (h : (E.val s.i q).isSome = true) : E.val s.i q ≠ none := by
  intro e; rw [e] at h; cases h

theorem values {s : ST S} {v : Ptr} {qs : List (Ptr × Ptr)} {L : List (Ptr × A)} (h : Objs s v qs)
    (e : (qs.map fun x => (x.1, E.val s.i x.2)) = L.map fun x => (x.1, some x.2)) : Values E s v L := ⟨qs, h, e⟩

/-- The comparison of boxes. -/
def boxLess (p q : Ptr) : M Boxes Bool := fun b =>
  match b.box p, b.box q with
  | some x, some y => some (.ok (x < y, b))
  | _, _ => some (.error .wild)

theorem boxLess_ok : Compares Elem.box boxLess fun x y => x < y := by
  intro i p q a b hi hp hq
  have hp : i.box p = some a := hp
  have hq : i.box q = some b := hq
  refine wp_iff_runs.2 ⟨_, i, ?_, rfl, hi, rfl, rfl⟩
  unfold Runs boxLess
  rw [hp, hq]

/-- The equality of boxes. -/
def boxEq (p q : Ptr) : M Boxes Bool := fun b =>
  match b.box p, b.box q with
  | some x, some y => some (.ok (x == y, b))
  | _, _ => some (.error .wild)

theorem boxEq_ok : Compares Elem.box boxEq fun x y => x == y := by
  intro i p q a b hi hp hq
  have hp : i.box p = some a := hp
  have hq : i.box q = some b := hq
  refine wp_iff_runs.2 ⟨_, i, ?_, rfl, hi, rfl, rfl⟩
  unfold Runs boxEq
  rw [hp, hq]

/-! ### Lists of boxes -/

/-- The client has boxes with the values 7 and 8; two copies will succeed. -/
def s0 : ST Boxes := ⟨LC.start env, ⟨fun p => if p = .stk 0 then some 7 else if p = .stk 1 then some 8 else none, 2, 2⟩⟩

def v : Ptr := .stk 0
def u : Ptr := .stk 1

/-- Two lists. -/
def s1 : ST Boxes := go boxOps (.create 0) s0
def s2 : ST Boxes := go boxOps (.create 0) s1
/-- The box with 7 is copied to the end of the first list. -/
def s3 : ST Boxes := go boxOps (.pushBack v (.obj (.stk 0))) s2
/-- The box with 8 is moved to its front. -/
def s4 : ST Boxes := go boxOps (.pushFrontMove v (.stk 1)) s3
/-- Its last element is copied to its front. -/
def s5 : ST Boxes := go boxOps (.pushFront v (.obj (.stk 2))) s4
/-- The copies have run out: the error is reported and nothing changes. -/
def s6 : ST Boxes := go boxOps (.pushBack v (.obj (.stk 0))) s5
/-- The list is sorted. -/
def s7 : ST Boxes := go boxOps (.sort boxLess v) s6
/-- The lists are merged. -/
def s8 : ST Boxes := go boxOps (.merge boxLess u v) s7
/-- The lists are destroyed. -/
def s9 : ST Boxes := go boxOps (.destroy u) s8
def s10 : ST Boxes := go boxOps (.destroy v) s9

theorem r0 : Reach Elem.box s0 := .start (by
  intro n hn
  show (if _ then _ else if _ then _ else _) = _
  rw [if_neg, if_neg]
  · simp only [Ptr.stk.injEq]
    have hn : 2 ≤ n := hn
    omega
  · simp only [Ptr.stk.injEq]
    have hn : 2 ≤ n := hn
    omega)

/-- A call that uses no objects and no comparator. -/
theorem plain {s : ST S} {c : Call S} (h : LC.Valid s.o c.addr) (h1 : ∀ q, ¬ c.copies q) (h2 : ∀ q, ¬ c.moves q) (h3 : ∀ f, ¬ c.compares f) :
    Valid E s c := ⟨h, fun q hq => (h1 q hq).elim, fun q hq => (h2 q hq).elim, fun f hf => (h3 f hf).elim⟩

theorem r1 : Reach Elem.box s1 := step r0 (plain trivial (fun _ h => h) (fun _ h => h) fun _ h => h) (by decide +kernel)
theorem r2 : Reach Elem.box s2 := step r1 (plain trivial (fun _ h => h) (fun _ h => h) fun _ h => h) (by decide +kernel)

/-- A live object can be copied to the end of a list. -/
theorem v_pushBack {s : ST Boxes} {v t : Ptr} (h : LC.Alive s.o v) (ht : Elem.box.val s.i t ≠ none) : Valid Elem.box s (.pushBack v (.obj t)) :=
  ⟨h, by rintro q rfl; exact ht, fun _ h => h.elim, fun _ h => h.elim⟩
theorem v_pushFront {s : ST Boxes} {v t : Ptr} (h : LC.Alive s.o v) (ht : Elem.box.val s.i t ≠ none) : Valid Elem.box s (.pushFront v (.obj t)) :=
  ⟨h, by rintro q rfl; exact ht, fun _ h => h.elim, fun _ h => h.elim⟩

theorem v2 : Valid Elem.box s2 (.pushBack v (.obj (.stk 0))) := v_pushBack (alive (by decide +kernel)) (live (by decide +kernel))
theorem r3 : Reach Elem.box s3 := step r2 v2 (by decide +kernel)

theorem v3 : Valid Elem.box s3 (.pushFrontMove v (.stk 1)) :=
  ⟨alive (by decide +kernel), fun _ h => h.elim, by
    rintro q rfl; exact ⟨live (by decide +kernel), notElem r3 (by decide +kernel)⟩, fun _ h => h.elim⟩
theorem run3 : ∃ r, Runs (exec boxOps (.pushFrontMove v (.stk 1))) (ready s3) r s4 := runs (by decide +kernel)
theorem r4 : Reach Elem.box s4 := step r3 v3 (by decide +kernel)

theorem o4 : Objs s4 v [(.dyn 1, .stk 3), (.dyn 0, .stk 2)] := objs r4 (alive (by decide +kernel)) (by decide +kernel)

/-- An element of the list is copied into the list. -/
theorem v4 : Valid Elem.box s4 (.pushFront v (.obj (.stk 2))) := v_pushFront (alive (by decide +kernel)) (live (by decide +kernel))
theorem isElem4 : IsElem s4 (.stk 2) := ⟨v, _, .dyn 0, alive (by decide +kernel), o4, by simp⟩
theorem r5 : Reach Elem.box s5 := step r4 v4 (by decide +kernel)
theorem o5 : Objs s5 v [(.dyn 2, .stk 4), (.dyn 1, .stk 3), (.dyn 0, .stk 2)] := objs r5 (alive (by decide +kernel)) (by decide +kernel)

theorem vals5 : Values Elem.box s5 v [(.dyn 2, 7), (.dyn 1, 8), (.dyn 0, 7)] := values o5 (by decide +kernel)
theorem o5u : Objs s5 u [] := objs r5 (alive (by decide +kernel)) (by decide +kernel)

theorem v5 : Valid Elem.box s5 (.pushBack v (.obj (.stk 0))) := v_pushBack (alive (by decide +kernel)) (live (by decide +kernel))
/-- Lists can be exchanged. -/
theorem v_swap {s : ST Boxes} {u v : Ptr} (h : LC.Alive s.o u) (h' : LC.Alive s.o v) (ha : LC.SameAlloc s.o u v) : Valid Elem.box s (.swap u v) :=
  plain ⟨h, h', ha⟩ (fun _ h => h) (fun _ h => h) fun _ h => h
theorem v5' : Valid Elem.box s5 (.swap u v) := v_swap (alive (by decide +kernel)) (alive (by decide +kernel))
  ⟨0, hasAlloc r5 (alive (by decide +kernel)) (by decide +kernel), hasAlloc r5 (alive (by decide +kernel)) (by decide +kernel)⟩
theorem run5 : ∃ r, Runs (exec boxOps (.pushBack v (.obj (.stk 0)))) (ready s5) r s6 := runs (by decide +kernel)
theorem r6 : Reach Elem.box s6 := step r5 v5 (by decide +kernel)
theorem o6 : Objs s6 v [(.dyn 2, .stk 4), (.dyn 1, .stk 3), (.dyn 0, .stk 2)] := objs r6 (alive (by decide +kernel)) (by decide +kernel)
theorem vals6 : Values Elem.box s6 v [(.dyn 2, 7), (.dyn 1, 8), (.dyn 0, 7)] := values o6 (by decide +kernel)

/-- A list can be sorted. -/
theorem v_sort {s : ST Boxes} {v : Ptr} {L : List (Ptr × Ptr)} (h : LC.Alive s.o v) (ho : Objs s v L) (hn : L.length < 2 ^ 64) :
    Valid Elem.box s (.sort boxLess v) :=
  ⟨⟨h, _, ho, hn⟩, fun _ h => h.elim, fun _ h => h.elim, by rintro f rfl; exact ⟨_, boxLess_ok⟩⟩
theorem v6 : Valid Elem.box s6 (.sort boxLess v) := v_sort (alive (by decide +kernel)) o6 (by decide)
theorem runs_box {s : ST Boxes} {c : Call Boxes} (hr : Reach Elem.box s) (hv : Valid Elem.box s c) :
    ∃ r, Runs (exec boxOps c) (ready s) r (go boxOps c s) := by
  have h : ∃ r, Runs (exec Elem.box.toElemOps c) (ready s) r (go Elem.box.toElemOps c s) := runs (ok hr hv)
  rw [show Elem.box.toElemOps = boxOps from rfl] at h
  exact h
theorem run6 : ∃ r, Runs (exec boxOps (.sort boxLess v)) (ready s6) r s7 := runs_box r6 v6
theorem r7 : Reach Elem.box s7 := step r6 v6 (ok r6 v6)

/-- A list can be copied to another one. -/
theorem v_copy {s : ST Boxes} {u v : Ptr} (h : LC.Alive s.o u) (h' : LC.Alive s.o v) (ha : LC.HasAlloc s.o u LL.defaultAlloc) (hne : u ≠ v) :
    Valid Elem.box s (.copy u v) := plain ⟨h, h', .inl ha, hne⟩ (fun _ h => h) (fun _ h => h) fun _ h => h
theorem v6' : Valid Elem.box s6 (.copy u v) := v_copy (alive (by decide +kernel)) (alive (by decide +kernel))
  (hasAlloc r6 (alive (by decide +kernel)) (by decide +kernel)) (by decide)

/-- Sorting keeps the lists and their allocators. -/
theorem sort_keeps {s : ST Boxes} {v : Ptr} (hr : Reach Elem.box s) (hv : Valid Elem.box s (.sort boxLess v)) {t : Ptr} {a : Nat}
    (ht : LC.Alive s.o t) (ha : LC.HasAlloc s.o t a) :
    LC.Alive (go boxOps (.sort boxLess v) s).o t ∧ LC.HasAlloc (go boxOps (.sort boxLess v) s).o t a := by
  obtain ⟨σ, h⟩ := hr.inv
  obtain ⟨r, s', σ', h1, h2, -, h3, al, L, L', h4, -, h5⟩ := h.call hv (c' := .sort (fun x y => x < y) v) ⟨_, boxLess_ok, rfl⟩
  have h6 : go boxOps (.sort boxLess v) s = s' := by
    unfold go
    rw [show exec boxOps _ _ = _ from h1]
  rw [h6]
  have hB := h.shows.2 rfl
  have hB' := h2.shows.2 rfl
  obtain ⟨⟨b, M⟩, hb⟩ := Option.ne_none_iff_exists'.1 ((hB.1 t).1 ht)
  have hab : a = b := (Runs.det ha (hB.2 _ _ _ hb).1).1
  subst hab
  have : ∃ M', seqs Elem.box s'.i σ' t = some (a, M') := by
    rw [h5, upd_apply]
    split
    · rename_i e; subst e
      rw [h4] at hb; cases hb
      exact ⟨_, rfl⟩
    · exact ⟨_, hb⟩
  obtain ⟨M', hM⟩ := this
  exact ⟨(hB'.1 t).2 (by rw [hM]; simp), (hB'.2 _ _ _ hM).1⟩

theorem k7 {t : Ptr} {a : Nat} (ht : LC.Alive s6.o t) (ha : LC.HasAlloc s6.o t a) : LC.Alive s7.o t ∧ LC.HasAlloc s7.o t a :=
  sort_keeps r6 v6 ht ha
theorem k7v : LC.Alive s7.o v ∧ LC.HasAlloc s7.o v 0 := k7 (alive (by decide +kernel)) (hasAlloc r6 (alive (by decide +kernel)) (by decide +kernel))
theorem k7u : LC.Alive s7.o u ∧ LC.HasAlloc s7.o u 0 := k7 (alive (by decide +kernel)) (hasAlloc r6 (alive (by decide +kernel)) (by decide +kernel))

/-- Lists can be merged. -/
theorem v_merge {s : ST Boxes} {u v : Ptr} {a : Nat} (h : LC.Alive s.o u ∧ LC.HasAlloc s.o u a) (h' : LC.Alive s.o v ∧ LC.HasAlloc s.o v a)
    (hne : u ≠ v) : Valid Elem.box s (.merge boxLess u v) :=
  ⟨⟨h.1, h'.1, ⟨a, h.2, h'.2⟩, hne⟩, fun _ h => h.elim, fun _ h => h.elim, by rintro f rfl; exact ⟨_, boxLess_ok⟩⟩
theorem v7 : Valid Elem.box s7 (.merge boxLess u v) := v_merge k7u k7v (by decide)
theorem r8 : Reach Elem.box s8 := step r7 v7 (ok r7 v7)

/-- Merging keeps the lists. -/
theorem merge_keeps {s : ST Boxes} {u v : Ptr} (hr : Reach Elem.box s) (hv : Valid Elem.box s (.merge boxLess u v)) {t : Ptr} :
    LC.Alive (go boxOps (.merge boxLess u v) s).o t ↔ LC.Alive s.o t := by
  obtain ⟨σ, h⟩ := hr.inv
  obtain ⟨r, s', σ', h1, h2, -, h3, al, L, M, h4, h5, -, N, -, -, h6⟩ := h.call hv (c' := .merge (fun x y => x < y) u v) ⟨_, boxLess_ok, rfl⟩
  have h7 : go boxOps (.merge boxLess u v) s = s' := by
    unfold go
    rw [show exec boxOps _ _ = _ from h1]
  rw [h7, (h2.shows.2 rfl).1 t, h6, (h.shows.2 rfl).1 t, upd_apply, upd_apply]
  split
  · rename_i e; rw [e, h5]; simp
  · split
    · rename_i e; rw [e, h4]; simp
    · exact .rfl

theorem sort_alive {s : ST Boxes} {v : Ptr} (hr : Reach Elem.box s) (hv : Valid Elem.box s (.sort boxLess v)) {t : Ptr} :
    LC.Alive (go boxOps (.sort boxLess v) s).o t ↔ LC.Alive s.o t := by
  obtain ⟨σ, h⟩ := hr.inv
  obtain ⟨r, s', σ', h1, h2, -, h3, al, L, L', h4, -, h5⟩ := h.call hv (c' := .sort (fun x y => x < y) v) ⟨_, boxLess_ok, rfl⟩
  have h7 : go boxOps (.sort boxLess v) s = s' := by
    unfold go
    rw [show exec boxOps _ _ = _ from h1]
  rw [h7, (h2.shows.2 rfl).1 t, h5, (h.shows.2 rfl).1 t, upd_apply]
  split
  · rename_i e; rw [e, h4]; simp
  · exact .rfl

/-- Lists can be destroyed. -/
theorem v_destroy {s : ST Boxes} {v : Ptr} (h : LC.Alive s.o v) : Valid Elem.box s (.destroy v) :=
  plain h (fun _ h => h) (fun _ h => h) fun _ h => h
theorem v8 : Valid Elem.box s8 (.destroy u) := v_destroy ((merge_keeps r7 v7).2 k7u.1)
theorem r9 : Reach Elem.box s9 := step r8 v8 (ok r8 v8)
theorem v9 : Valid Elem.box s9 (.destroy v) := v_destroy ((destroyed r8 v8 _).2 ⟨by decide, (merge_keeps r7 v7).2 k7v.1⟩)
theorem r10 : Reach Elem.box s10 := step r9 v9 (ok r9 v9)

/-- The lists of `s6` are `u` and `v`. -/
theorem alive6 {t : Ptr} (h : LC.Alive s6.o t) : t = v ∨ t = u := by
  obtain ⟨i, rfl, h1⟩ := h
  have h2 := sp_bound r6 h1
  have h3 : s6.o.sp = 2 := by decide +kernel
  rw [h3] at h2
  match i, h2 with
  | 0, _ => exact .inl rfl
  | 1, _ => exact .inr rfl

theorem gone10 : ∀ t, ¬ LC.Alive s10.o t := by
  intro t h
  obtain ⟨h1, h⟩ := (destroyed r9 v9 t).1 h
  obtain ⟨h2, h⟩ := (destroyed r8 v8 t).1 h
  exact (alive6 ((sort_alive r6 v6).1 ((merge_keeps r7 v7).1 h))).elim h1 h2

theorem isElem5 : IsElem s5 (.stk 3) := ⟨v, _, .dyn 1, alive (by decide +kernel), o5, by simp⟩

/-- The client changes the value of an element. -/
theorem set {s : ST Boxes} {q : Ptr} (hr : Reach Elem.box s) (hq : IsElem s q) (x : Nat) :
    Elem.box.inv { s.i with box := upd s.i.box q (some x) } ∧
    ∀ p, IsElem s p → Elem.box.val { s.i with box := upd s.i.box q (some x) } p ≠ none := by
  obtain ⟨σ, h⟩ := hr.inv
  have hl : ∀ p, IsElem s p → s.i.box p ≠ none := by
    intro p hp
    obtain ⟨t, y, e, h1, h2, rfl⟩ := h.owned.1 (h.isElem.1 hp)
    exact h.live _ _ _ h1 h2
  constructor
  · intro n hn
    have hn : s.i.next ≤ n := hn
    show upd s.i.box q (some x) (.stk n) = none
    rw [upd_other]
    · exact h.inv n hn
    · rintro rfl
      exact hl _ hq (h.inv n hn)
  · intro p hp
    show upd s.i.box q (some x) p ≠ none
    rw [upd_apply]
    split
    · simp
    · exact hl p hp

end Demo
end Nestl.LO
