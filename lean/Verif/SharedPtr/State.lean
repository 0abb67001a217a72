import Verif.SharedPtr.Model
set_option autoImplicit false
/-
Counting invariant of the shared_ptr / weak_ptr model.
-/
namespace Nestl.SP

variable {V : Type}

abbrev Heap (V : Type) := Ptr → Option (Cell V)

/-- The handle of kind `k` stored at `l` is `x`. -/
def At (h : Heap V) (k : Kind) : Loc → Hnd → Prop
  | .var p, x => h p = some (.var k x)
  | .mem b i, x => ∃ c o, h b = some (.blk c) ∧ c.obj = some o ∧ o.mem[i]? = some (k, x)

theorem At.det {h : Heap V} {k k' : Kind} {l : Loc} {x y : Hnd} (h1 : At h k l x) (h2 : At h k' l y) : k = k' ∧ x = y := by
  cases l with
  | var p =>
    have h1 : h p = _ := h1
    have h2 : h p = _ := h2
    rw [h1] at h2; cases h2; exact ⟨rfl, rfl⟩
  | mem b i =>
    obtain ⟨c, o, e1, e2, e3⟩ := h1
    obtain ⟨c', o', f1, f2, f3⟩ := h2
    rw [e1] at f1; cases f1; rw [e2] at f2; cases f2; rw [e3] at f3; cases f3; exact ⟨rfl, rfl⟩

/-- The object in block `b` is alive and has the value `v`. -/
def Val (h : Heap V) (b : Ptr) (v : V) : Prop := ∃ c o, h b = some (.blk c) ∧ c.obj = some o ∧ o.val = v

/-- Does this handle refer to block `b`, being of kind `k`? -/
def ind (k : Kind) (b : Ptr) (m : Kind × Hnd) : Nat := if m.1 = k ∧ m.2.ref = b then 1 else 0

/-- How many handles of kind `k` in this list refer to block `b`? -/
def memRefs (k : Kind) (b : Ptr) (l : List (Kind × Hnd)) : Nat := (l.map (ind k b)).sum

/-- How many handles of kind `k` in this cell refer to block `b`? -/
def refsOf (k : Kind) (b : Ptr) : Option (Cell V) → Nat
  | some (.var k' x) => ind k b (k', x)
  | some (.blk c) => match c.obj with
    | some o => memRefs k b o.mem
    | none => 0
  | _ => 0

/-- How many handles of kind `k` refer to block `b`?  `dom` lists all addresses in use. -/
def tot (dom : List Ptr) (h : Heap V) (k : Kind) (b : Ptr) : Nat := (dom.map fun p => refsOf k b (h p)).sum

/-- Number of handles that are members of objects. -/
def width : Option (Cell V) → Nat
  | some (.blk c) => match c.obj with
    | some o => o.mem.length
    | none => 0
  | _ => 0

def msr (dom : List Ptr) (h : Heap V) : Nat := (dom.map fun p => width (h p)).sum

theorem sum_upd (f : Option (Cell V) → Nat) (dom : List Ptr) (h : Heap V) (p : Ptr) (c : Option (Cell V))
    (hn : dom.Nodup) (hp : p ∈ dom) :
    (dom.map fun q => f (upd h p c q)).sum + f (h p) = (dom.map fun q => f (h q)).sum + f c := by
  induction dom with
  | nil => cases hp
  | cons d ds ih =>
    rw [List.nodup_cons] at hn
    simp only [List.map_cons, List.sum_cons]
    by_cases hd : p = d
    · subst hd
      have : (ds.map fun q => f (upd h p c q)) = ds.map fun q => f (h q) := by
        apply List.map_congr_left
        intro q hq
        rw [upd_other]; rintro rfl; exact hn.1 hq
      rw [this, upd_same]; omega
    · have := ih hn.2 (by simpa [hd] using hp)
      rw [upd_other _ _ (Ne.symm hd)]; omega

theorem tot_upd {dom : List Ptr} {h : Heap V} {p : Ptr} (hn : dom.Nodup) (hp : p ∈ dom) (c : Option (Cell V)) (k b) :
    tot dom (upd h p c) k b + refsOf k b (h p) = tot dom h k b + refsOf k b c :=
  sum_upd (refsOf k b) dom h p c hn hp

theorem msr_upd {dom : List Ptr} {h : Heap V} {p : Ptr} (hn : dom.Nodup) (hp : p ∈ dom) (c : Option (Cell V)) :
    msr dom (upd h p c) + width (h p) = msr dom h + width c :=
  sum_upd width dom h p c hn hp

theorem refs_le_tot {dom : List Ptr} {h : Heap V} {p : Ptr} (hp : p ∈ dom) (k b) : refsOf k b (h p) ≤ tot dom h k b := by
  unfold tot
  induction dom with
  | nil => cases hp
  | cons d ds ih =>
    simp only [List.map_cons, List.sum_cons]
    rcases List.mem_cons.1 hp with rfl | hp
    · omega
    · have := ih hp; omega

theorem tot_pos {dom : List Ptr} {h : Heap V} {k b} (hp : 0 < tot dom h k b) : ∃ p, p ∈ dom ∧ 0 < refsOf k b (h p) := by
  unfold tot at hp
  induction dom with
  | nil => cases hp
  | cons d ds ih =>
    simp only [List.map_cons, List.sum_cons] at hp
    by_cases hd : 0 < refsOf k b (h d)
    · exact ⟨d, List.mem_cons_self, hd⟩
    · obtain ⟨p, h1, h2⟩ := ih (by omega)
      exact ⟨p, List.mem_cons_of_mem _ h1, h2⟩

theorem memRefs_append (k b) (l m : List (Kind × Hnd)) : memRefs k b (l ++ m) = memRefs k b l + memRefs k b m := by
  simp [memRefs]

theorem memRefs_take_succ (k b) {l : List (Kind × Hnd)} {i : Nat} {m : Kind × Hnd} (h : l[i]? = some m)
    (hl : l.length = i + 1) : memRefs k b l = memRefs k b (l.take i) + ind k b m := by
  have : l = l.take i ++ [m] := by
    apply List.ext_getElem?
    intro j
    by_cases hj : j < i
    · rw [List.getElem?_append_left (by rw [List.length_take]; omega), List.getElem?_take, if_pos hj]
    · rw [List.getElem?_append_right (by rw [List.length_take]; omega), List.length_take]
      by_cases hj2 : j = i
      · subst hj2; rw [h]; simp [show min j l.length = j by omega]
      · rw [List.getElem?_eq_none (by omega)]
        rw [List.getElem?_eq_none (by simp; omega)]
  conv => lhs; rw [this]
  rw [memRefs_append]; simp [memRefs]

theorem memRefs_pos {k b} {l : List (Kind × Hnd)} (h : 0 < memRefs k b l) : ∃ x, (k, x) ∈ l ∧ x.ref = b := by
  unfold memRefs at h
  induction l with
  | nil => cases h
  | cons m l ih =>
    simp only [List.map_cons, List.sum_cons] at h
    by_cases hm : m.1 = k ∧ m.2.ref = b
    · obtain ⟨m1, m2⟩ := m
      exact ⟨m2, by rw [← hm.1]; exact List.mem_cons_self, hm.2⟩
    · rw [ind, if_neg hm] at h
      obtain ⟨x, h1, h2⟩ := ih (by omega)
      exact ⟨x, List.mem_cons_of_mem _ h1, h2⟩

theorem memRefs_set (k b) {l : List (Kind × Hnd)} {i : Nat} {m m' : Kind × Hnd} (h : l[i]? = some m) :
    memRefs k b (l.set i m') + ind k b m = memRefs k b l + ind k b m' := by
  unfold memRefs
  induction l generalizing i with
  | nil => simp at h
  | cons a l ih =>
    cases i with
    | zero => simp at h; subst h; simp; omega
    | succ i =>
      simp only [List.getElem?_cons_succ] at h
      have := ih h
      simp only [List.set_cons_succ, List.map_cons, List.sum_cons]; omega

/-- The invariant.

* `dom` lists the addresses in use.
* `T k b` is the number of references of kind `k` counted by block `b` which are not stored in any handle at the moment.
* `D` are the blocks whose object is being destroyed. -/
structure Inv (dom : List Ptr) (T : Kind → Ptr → Int) (D : List Ptr) (h : Heap V) : Prop where
  nd : dom.Nodup
  cov : ∀ p, h p ≠ none → p ∈ dom
  shVar : ∀ p k x, h p = some (.var k x) → ∃ i, p = .stk i
  shLost : ∀ p, h p = some .lost → ∃ i, p = .stk i
  shBlk : ∀ p c, h p = some (.blk c) → ∃ a, p = .dyn a
  shRaw : ∀ p o, h p ≠ some (.raw o)
  use : ∀ b c, h b = some (.blk c) → (c.use : Int) = tot dom h .sh b + T .sh b
  weak : ∀ b c, h b = some (.blk c) → (c.weak : Int) = tot dom h .wk b + T .wk b
  owner : ∀ b c, h b = some (.blk c) → c.owner = defaultAlloc
  tgt : ∀ k b, b ≠ .null → 0 < tot dom h k b → ∃ c, h b = some (.blk c)
  life : ∀ b c, h b = some (.blk c) → b ∉ D → (c.obj ≠ none ↔ 0 < c.use) ∧ 0 < c.use + c.weak
  dying : ∀ b, b ∈ D → ∃ c, h b = some (.blk c) ∧ c.use = 0 ∧ c.obj ≠ none

section basics
variable {dom : List Ptr} {T : Kind → Ptr → Int} {D : List Ptr} {h : Heap V}

theorem Inv.null (hi : Inv dom T D h) : h .null = none := by
  cases hh : h .null with
  | none => rfl
  | some c =>
    cases c with
    | var k x => obtain ⟨i, hi⟩ := hi.shVar _ _ _ hh; cases hi
    | blk c => obtain ⟨i, hi⟩ := hi.shBlk _ _ hh; cases hi
    | raw o => exact (hi.shRaw _ _ hh).elim
    | lost => obtain ⟨i, hi⟩ := hi.shLost _ hh; cases hi

theorem Inv.ne_null (hi : Inv dom T D h) {p : Ptr} {c : Cell V} (hp : h p = some c) : p ≠ .null := by
  rintro rfl; rw [hi.null] at hp; cases hp

theorem Inv.mem (hi : Inv dom T D h) {p : Ptr} {c : Cell V} (hp : h p = some c) : p ∈ dom :=
  hi.cov p (by rw [hp]; simp)

theorem Inv.congr {T' : Kind → Ptr → Int} (hi : Inv dom T D h) (hT : ∀ k b, b ≠ .null → T k b = T' k b) : Inv dom T' D h := by
  refine { hi with use := ?_, weak := ?_ }
  · intro b c hb; rw [← hT _ _ (hi.ne_null hb)]; exact hi.use b c hb
  · intro b c hb; rw [← hT _ _ (hi.ne_null hb)]; exact hi.weak b c hb

theorem refs_pos_at {k : Kind} {b p : Ptr} (hp : 0 < refsOf k b (h p)) : ∃ l x, At h k l x ∧ x.ref = b := by
  unfold refsOf at hp
  split at hp
  · next k' x e =>
    unfold ind at hp
    split at hp
    · next hk => obtain ⟨rfl, h2⟩ := hk; exact ⟨.var p, x, e, h2⟩
    · cases hp
  · next c e =>
    split at hp
    · next o eo =>
      obtain ⟨x, h1, h2⟩ := memRefs_pos hp
      obtain ⟨i, hi⟩ := List.mem_iff_getElem?.1 h1
      exact ⟨.mem p i, x, ⟨c, o, e, eo, hi⟩, h2⟩
    · cases hp
  · cases hp

theorem ind_self (k : Kind) (x : Hnd) : ind k x.ref (k, x) = 1 := by simp [ind]

theorem memRefs_ge {k : Kind} {x : Hnd} {l : List (Kind × Hnd)} (h : (k, x) ∈ l) : 1 ≤ memRefs k x.ref l := by
  unfold memRefs
  induction l with
  | nil => cases h
  | cons m l ih =>
    simp only [List.map_cons, List.sum_cons]
    rcases List.mem_cons.1 h with rfl | h
    · rw [ind_self]; omega
    · have := ih h; omega

theorem Inv.tot_ge (hi : Inv dom T D h) {k : Kind} {l : Loc} {x : Hnd} (hx : At h k l x) : 1 ≤ tot dom h k x.ref := by
  cases l with
  | var p =>
    have hx : h p = some (.var k x) := hx
    have := refs_le_tot (h := h) (hi.mem hx) k x.ref
    rw [hx] at this; simp only [refsOf, ind_self] at this; exact this
  | mem b i =>
    obtain ⟨c, o, h1, h2, h3⟩ := hx
    have := refs_le_tot (h := h) (hi.mem h1) k x.ref
    rw [h1] at this; simp only [refsOf, h2] at this
    exact Nat.le_trans (memRefs_ge (List.mem_iff_getElem?.2 ⟨i, h3⟩)) this

/-- The target of a handle exists. -/
theorem Inv.target (hi : Inv dom T D h) {k : Kind} {l : Loc} {x : Hnd} (hx : At h k l x) (hr : x.ref ≠ .null) :
    ∃ c, h x.ref = some (.blk c) :=
  hi.tgt k _ hr (hi.tot_ge hx)

theorem tot_null_of {b : Ptr} {k : Kind} (hi : Inv dom T D h) (hb : b ≠ .null) (hn : h b = none) : tot dom h k b = 0 := by
  rcases Nat.eq_zero_or_pos (tot dom h k b) with h0 | h0
  · exact h0
  · obtain ⟨c, hc⟩ := hi.tgt k b hb h0; rw [hn] at hc; cases hc

end basics

/-! ### Elementary steps -/

section steps
variable {dom : List Ptr} {T : Kind → Ptr → Int} {D : List Ptr} {w : W V} {h : Heap V}

theorem wp_rdBlk {b : Ptr} {c : Blk V} (hb : w.heap b = some (.blk c)) (hn : b ≠ .null) {Q : Blk V → W V → Prop} :
    wp (rdBlk b) w Q ↔ Q c w := by
  unfold rdBlk; rw [wp_bind, wp_rd hb hn]; rfl

theorem wp_setBlk {b : Ptr} {c c' : Blk V} (hb : w.heap b = some (.blk c)) (hn : b ≠ .null) {Q : Unit → W V → Prop} :
    wp (setBlk b c') w Q ↔ Q () (w.setHeap (upd w.heap b (some (.blk c')))) := by
  unfold setBlk; rw [wp_modCell hb hn]

theorem wp_rdObj {b : Ptr} {c : Blk V} {o : Obj V} (hb : w.heap b = some (.blk c)) (ho : c.obj = some o) (hn : b ≠ .null)
    {Q : Obj V → W V → Prop} : wp (rdObj b) w Q ↔ Q o w := by
  unfold rdObj; rw [wp_bind, wp_rdBlk hb hn]; simp only [ho]; rfl

theorem wp_getH {k : Kind} {l : Loc} {x : Hnd} (hx : At w.heap k l x) (hn : w.heap .null = none) {Q : Hnd → W V → Prop} :
    wp (getH k l) w Q ↔ Q x w := by
  cases l with
  | var p =>
    have hx : w.heap p = some (.var k x) := hx
    have hp : p ≠ .null := by rintro rfl; rw [hn] at hx; cases hx
    unfold getH; rw [wp_bind, wp_rd hx hp]; simp
  | mem b i =>
    obtain ⟨c, o, h1, h2, h3⟩ := hx
    have hp : b ≠ .null := by rintro rfl; rw [hn] at h1; cases h1
    unfold getH; rw [wp_bind, wp_rdObj h1 h2 hp]; simp [h3]

/-- Memory after overwriting the handle at `l`. -/
def putH (h : Heap V) (k : Kind) (l : Loc) (y : Hnd) : Heap V :=
  match l with
  | .var p => upd h p (some (.var k y))
  | .mem b i => match h b with
    | some (.blk c) => match c.obj with
      | some o => upd h b (some (.blk { c with obj := some { o with mem := o.mem.set i (k, y) } }))
      | none => h
    | _ => h

theorem putH_mem {k : Kind} {b : Ptr} {i : Nat} {c : Blk V} {o : Obj V} (hb : h b = some (.blk c)) (ho : c.obj = some o) (y : Hnd) :
    putH h k (.mem b i) y = upd h b (some (.blk { c with obj := some { o with mem := o.mem.set i (k, y) } })) := by
  simp [putH, hb, ho]

theorem wp_setH {k : Kind} {l : Loc} {x y : Hnd} (hx : At w.heap k l x) (hn : w.heap .null = none) {Q : Unit → W V → Prop} :
    wp (setH k l y) w Q ↔ Q () (w.setHeap (putH w.heap k l y)) := by
  unfold setH; rw [wp_bind, wp_getH hx hn]
  cases l with
  | var p =>
    have hx : w.heap p = some (.var k x) := hx
    have hp : p ≠ .null := by rintro rfl; rw [hn] at hx; cases hx
    simp only []; rw [wp_modCell hx hp]; rfl
  | mem b i =>
    obtain ⟨c, o, h1, h2, h3⟩ := hx
    have hp : b ≠ .null := by rintro rfl; rw [hn] at h1; cases h1
    simp only []; rw [wp_bind, wp_rdBlk h1 hp, wp_bind, wp_rdObj h1 h2 hp, wp_setBlk h1 hp, putH_mem h1 h2]

/-- The handles after overwriting one of them. -/
theorem at_putH {k : Kind} {l : Loc} {x y : Hnd} (hx : At h k l x) (k' : Kind) (l' : Loc) (z : Hnd) :
    At (putH h k l y) k' l' z ↔ if l' = l then k' = k ∧ z = y else At h k' l' z := by
  cases l with
  | var p =>
    have hx : h p = some (.var k x) := hx
    cases l' with
    | var q =>
      simp only [At, putH, Loc.var.injEq, upd_apply]
      by_cases hq : q = p
      · simp only [hq, if_true, Option.some.injEq, Cell.var.injEq]
        exact ⟨fun ⟨a, b⟩ => ⟨a.symm, b.symm⟩, fun ⟨a, b⟩ => ⟨a.symm, b.symm⟩⟩
      · simp [hq]
    | mem b i =>
      simp only [At, putH, reduceCtorEq, if_false, upd_apply]
      by_cases hb : b = p
      · subst hb; simp [hx]
      · simp [hb]
  | mem b i =>
    obtain ⟨c, o, h1, h2, h3⟩ := hx
    rw [putH_mem h1 h2]
    cases l' with
    | var q =>
      simp only [At, reduceCtorEq, if_false, upd_apply]
      by_cases hq : q = b
      · subst hq; simp [h1]
      · simp [hq]
    | mem b' i' =>
      simp only [At, Loc.mem.injEq, upd_apply]
      by_cases hb : b' = b
      · subst hb
        simp only [if_true, true_and]
        by_cases hi : i' = i
        · subst hi
          simp only [if_true]
          constructor
          · rintro ⟨c', o', e1, e2, e3⟩
            cases e1; cases e2
            simp only [List.getElem?_set] at e3
            have : i' < o.mem.length := by
              rcases Nat.lt_or_ge i' o.mem.length with hlt | hlt
              · exact hlt
              · rw [List.getElem?_eq_none hlt] at h3; cases h3
            simp [this] at e3
            exact ⟨e3.1.symm, e3.2.symm⟩
          · rintro ⟨rfl, rfl⟩
            refine ⟨_, _, rfl, rfl, ?_⟩
            have : i' < o.mem.length := by
              rcases Nat.lt_or_ge i' o.mem.length with hlt | hlt
              · exact hlt
              · rw [List.getElem?_eq_none hlt] at h3; cases h3
            simp [List.getElem?_set, this]
        · simp only [hi, if_false]
          constructor
          · rintro ⟨c', o', e1, e2, e3⟩
            cases e1; cases e2
            simp only [List.getElem?_set, Ne.symm hi, if_false] at e3
            exact ⟨c, o, h1, h2, e3⟩
          · rintro ⟨c', o', e1, e2, e3⟩
            rw [h1] at e1; cases e1; rw [h2] at e2; cases e2
            refine ⟨_, _, rfl, rfl, ?_⟩
            simp only [List.getElem?_set, Ne.symm hi, if_false]; exact e3
      · simp [hb]

theorem at_putH_self {k : Kind} {l : Loc} {x y : Hnd} (hx : At h k l x) : At (putH h k l y) k l y := by
  rw [at_putH hx]; simp

theorem at_putH_ne {k k' : Kind} {l l' : Loc} {x y z : Hnd} (hx : At h k l x) (hne : l' ≠ l) (hz : At h k' l' z) :
    At (putH h k l y) k' l' z := by
  rw [at_putH hx]; simp [hne, hz]

theorem putH_putH {k : Kind} {l : Loc} {x : Hnd} (hx : At h k l x) (y z : Hnd) : putH (putH h k l y) k l z = putH h k l z := by
  cases l with
  | var p => simp [putH]
  | mem b i =>
    obtain ⟨c, o, h1, h2, h3⟩ := hx
    rw [putH_mem h1 h2, putH_mem h1 h2, putH_mem (upd_same ..) rfl]
    simp

theorem putH_null {k : Kind} {l : Loc} {x : Hnd} (hx : At h k l x) (hn : h .null = none) (y : Hnd) : putH h k l y .null = none := by
  cases l with
  | var p =>
    have hx : h p = some (.var k x) := hx
    have hp : Ptr.null ≠ p := by rintro rfl; rw [hn] at hx; cases hx
    simp [putH, upd_other _ _ hp, hn]
  | mem b i =>
    obtain ⟨c, o, h1, h2, h3⟩ := hx
    have hp : Ptr.null ≠ b := by rintro rfl; rw [hn] at h1; cases h1
    rw [putH_mem h1 h2, upd_other _ _ hp, hn]

/-- The counts of a block do not change when a handle is overwritten. -/
theorem blk_putH {k : Kind} {l : Loc} {x : Hnd} (hx : At h k l x) (y : Hnd) {b : Ptr} {c : Blk V} (hb : h b = some (.blk c)) :
    ∃ c', putH h k l y b = some (.blk c') ∧ c'.use = c.use ∧ c'.weak = c.weak ∧ c'.owner = c.owner ∧ (c'.obj = none ↔ c.obj = none) := by
  cases l with
  | var p =>
    have hx : h p = some (.var k x) := hx
    have hp : b ≠ p := by rintro rfl; rw [hx] at hb; cases hb
    exact ⟨c, by simp [putH, upd_other _ _ hp, hb], rfl, rfl, rfl, Iff.rfl⟩
  | mem d i =>
    obtain ⟨c', o, h1, h2, h3⟩ := hx
    rw [putH_mem h1 h2]
    by_cases hd : b = d
    · subst hd
      rw [h1] at hb; cases hb
      exact ⟨_, upd_same .., rfl, rfl, rfl, by simp [h2]⟩
    · exact ⟨c, by rw [upd_other _ _ hd, hb], rfl, rfl, rfl, Iff.rfl⟩

theorem blk_putH' {k : Kind} {l : Loc} {x : Hnd} (hx : At h k l x) (y : Hnd) {b : Ptr} {c' : Blk V} (hb : putH h k l y b = some (.blk c')) :
    ∃ c, h b = some (.blk c) ∧ c'.use = c.use ∧ c'.weak = c.weak ∧ c'.owner = c.owner ∧ (c'.obj = none ↔ c.obj = none) := by
  have : ∃ c, h b = some (.blk c) := by
    cases l with
    | var p =>
      by_cases hp : b = p
      · subst hp; simp [putH] at hb
      · exact ⟨c', by simpa [putH, upd_other _ _ hp] using hb⟩
    | mem d i =>
      obtain ⟨c1, o, h1, h2, h3⟩ := hx
      rw [putH_mem h1 h2] at hb
      by_cases hd : b = d
      · subst hd; exact ⟨_, h1⟩
      · exact ⟨c', by rwa [upd_other _ _ hd] at hb⟩
  obtain ⟨c, hc⟩ := this
  obtain ⟨c2, h1, h2⟩ := blk_putH hx y hc
  rw [hb] at h1; cases h1
  exact ⟨c, hc, h2⟩

theorem refsOf_putH {k : Kind} {l : Loc} {x : Hnd} (hi : Inv dom T D h) (hx : At h k l x) (y : Hnd) (k' : Kind) (b : Ptr) :
    tot dom (putH h k l y) k' b + ind k' b (k, x) = tot dom h k' b + ind k' b (k, y) := by
  cases l with
  | var p =>
    have hx : h p = some (.var k x) := hx
    have := tot_upd (h := h) hi.nd (hi.mem hx) (some (.var k y)) k' b
    rw [hx] at this; exact this
  | mem d i =>
    obtain ⟨c, o, h1, h2, h3⟩ := hx
    have := tot_upd (h := h) hi.nd (hi.mem h1) (some (.blk { c with obj := some { o with mem := o.mem.set i (k, y) } })) k' b
    rw [h1] at this; simp only [refsOf, h2] at this
    rw [putH_mem h1 h2]
    have := memRefs_set k' b (m' := (k, y)) h3
    omega

/-- Overwriting a handle: its old target is in transit, its new target no longer is. -/
theorem Inv.put {k : Kind} {l : Loc} {x y : Hnd} (hi : Inv dom T D h) (hx : At h k l x)
    (ht : y.ref ≠ .null → ∃ c, h y.ref = some (.blk c)) :
    Inv dom (fun k' b => T k' b + ind k' b (k, x) - ind k' b (k, y)) D (putH h k l y) := by
  have hcell : ∀ p c, putH h k l y p = some c → ∃ c0, h p = some c0 ∧
      (match c with | .var k' _ => ∃ z, c0 = .var k' z | .blk _ => ∃ d, c0 = .blk d | .raw o => c0 = .raw o | .lost => c0 = .lost) := by
    intro p c hp
    cases l with
    | var q =>
      have hx : h q = some (.var k x) := hx
      by_cases hq : p = q
      · subst hq; simp [putH] at hp; subst hp; exact ⟨_, hx, x, rfl⟩
      · simp only [putH] at hp; rw [upd_other _ _ hq] at hp
        exact ⟨c, hp, by cases c <;> simp⟩
    | mem d i =>
      obtain ⟨c1, o, h1, h2, h3⟩ := hx
      rw [putH_mem h1 h2] at hp
      by_cases hq : p = d
      · subst hq; rw [upd_same] at hp; cases hp; exact ⟨_, h1, c1, rfl⟩
      · rw [upd_other _ _ hq] at hp
        exact ⟨c, hp, by cases c <;> simp⟩
  refine ⟨hi.nd, ?_, ?_, ?_, ?_, ?_, ?_, ?_, ?_, ?_, ?_, ?_⟩
  · intro p hp
    cases hc : putH h k l y p with
    | none => exact (hp hc).elim
    | some c => obtain ⟨c0, h0, -⟩ := hcell p c hc; exact hi.mem h0
  · intro p k' z hp
    obtain ⟨c0, h0, z', rfl⟩ := hcell p _ hp; exact hi.shVar _ _ _ h0
  · intro p hp
    obtain ⟨c0, h0, rfl⟩ := hcell p _ hp; exact hi.shLost _ h0
  · intro p c hp
    obtain ⟨c0, h0, d, rfl⟩ := hcell p _ hp; exact hi.shBlk _ _ h0
  · intro p o hp
    obtain ⟨c0, h0, rfl⟩ := hcell p _ hp; exact hi.shRaw _ _ h0
  · intro b c' hb
    obtain ⟨c, h1, e, -⟩ := blk_putH' hx y hb
    have := hi.use b c h1
    have := refsOf_putH hi hx y .sh b
    rw [e]; omega
  · intro b c' hb
    obtain ⟨c, h1, -, e, -⟩ := blk_putH' hx y hb
    have := hi.weak b c h1
    have := refsOf_putH hi hx y .wk b
    rw [e]; omega
  · intro b c' hb
    obtain ⟨c, h1, -, -, e, -⟩ := blk_putH' hx y hb
    rw [e]; exact hi.owner b c h1
  · intro k' b hb hp
    have hh := refsOf_putH hi hx y k' b
    have : ∃ c, h b = some (.blk c) := by
      by_cases h0 : 0 < tot dom h k' b
      · exact hi.tgt k' b hb h0
      · have : ind k' b (k, y) ≠ 0 := by omega
        unfold ind at this
        split at this
        · next e => obtain ⟨-, e⟩ := e; subst e; exact ht hb
        · exact (this rfl).elim
    obtain ⟨c, hc⟩ := this
    obtain ⟨c', h1, -⟩ := blk_putH hx y hc
    exact ⟨c', h1⟩
  · intro b c' hb hD
    obtain ⟨c, h1, e1, e2, -, e3⟩ := blk_putH' hx y hb
    have := hi.life b c h1 hD
    rw [e1, e2, Ne, e3]; exact this
  · intro b hb
    obtain ⟨c, h1, e1, e2⟩ := hi.dying b hb
    obtain ⟨c', f1, f2, -, -, f3⟩ := blk_putH hx y h1
    exact ⟨c', f1, by omega, fun e => e2 (f3.1 e)⟩

/-- Changing a block without touching its members. -/
theorem Inv.blk {b : Ptr} {c c' : Blk V} {T' : Kind → Ptr → Int} {D' : List Ptr} (hi : Inv dom T D h) (hb : h b = some (.blk c))
    (hm : c'.obj = c.obj) (ho : c'.owner = c.owner)
    (hT : ∀ k d, d ≠ b → T' k d = T k d)
    (hu : (c'.use : Int) = c.use + T' .sh b - T .sh b) (hw : (c'.weak : Int) = c.weak + T' .wk b - T .wk b)
    (hlife : b ∉ D' → (c'.obj ≠ none ↔ 0 < c'.use) ∧ 0 < c'.use + c'.weak)
    (hD : ∀ d, d ≠ b → (d ∈ D' ↔ d ∈ D))
    (hdy : b ∈ D' → c'.use = 0 ∧ c'.obj ≠ none) :
    Inv dom T' D' (upd h b (some (.blk c'))) := by
  have htot : ∀ k d, tot dom (upd h b (some (.blk c'))) k d = tot dom h k d := by
    intro k d
    have := tot_upd (h := h) hi.nd (hi.mem hb) (some (.blk c')) k d
    rw [hb] at this; simp only [refsOf, hm] at this; omega
  have hat : ∀ k l x, At (upd h b (some (.blk c'))) k l x → At h k l x := by
    intro k l x hx
    cases l with
    | var p =>
      have hx : upd h b _ p = _ := hx
      by_cases hp : p = b
      · subst hp; simp at hx
      · rw [upd_other _ _ hp] at hx; exact hx
    | mem d i =>
      obtain ⟨c1, o, h1, h2, h3⟩ := hx
      by_cases hp : d = b
      · subst hp; rw [upd_same] at h1; cases h1
        exact ⟨c, o, hb, by rw [← hm]; exact h2, h3⟩
      · rw [upd_other _ _ hp] at h1; exact ⟨c1, o, h1, h2, h3⟩
  refine ⟨hi.nd, ?_, ?_, ?_, ?_, ?_, ?_, ?_, ?_, ?_, ?_, ?_⟩
  · intro p hp
    by_cases hpb : p = b
    · subst hpb; exact hi.mem hb
    · rw [upd_other _ _ hpb] at hp; exact hi.cov _ hp
  · intro p k x hp
    exact hi.shVar p k x (hat k (.var p) x hp)
  · intro p hp
    by_cases hpb : p = b
    · subst hpb; simp at hp
    · rw [upd_other _ _ hpb] at hp; exact hi.shLost _ hp
  · intro p d hp
    by_cases hpb : p = b
    · subst hpb; exact hi.shBlk _ _ hb
    · rw [upd_other _ _ hpb] at hp; exact hi.shBlk _ _ hp
  · intro p o hp
    by_cases hpb : p = b
    · subst hpb; simp at hp
    · rw [upd_other _ _ hpb] at hp; exact hi.shRaw _ _ hp
  · intro d e hd
    rw [htot]
    by_cases hpb : d = b
    · subst hpb; rw [upd_same] at hd; cases hd
      have := hi.use _ _ hb; omega
    · rw [upd_other _ _ hpb] at hd; rw [hT _ _ hpb]; exact hi.use _ _ hd
  · intro d e hd
    rw [htot]
    by_cases hpb : d = b
    · subst hpb; rw [upd_same] at hd; cases hd
      have := hi.weak _ _ hb; omega
    · rw [upd_other _ _ hpb] at hd; rw [hT _ _ hpb]; exact hi.weak _ _ hd
  · intro d e hd
    by_cases hpb : d = b
    · subst hpb; rw [upd_same] at hd; cases hd; rw [ho]; exact hi.owner _ _ hb
    · rw [upd_other _ _ hpb] at hd; exact hi.owner _ _ hd
  · intro k d hd hp
    rw [htot] at hp
    by_cases hpb : d = b
    · subst hpb; exact ⟨c', upd_same ..⟩
    · rw [upd_other _ _ hpb]; exact hi.tgt k d hd hp
  · intro d e hd hnD
    by_cases hpb : d = b
    · subst hpb; rw [upd_same] at hd; cases hd; exact hlife hnD
    · rw [upd_other _ _ hpb] at hd
      exact hi.life _ _ hd (fun hh => hnD ((hD d hpb).2 hh))
  · intro d hd
    by_cases hpb : d = b
    · subst hpb; exact ⟨c', upd_same .., hdy hd⟩
    · rw [upd_other _ _ hpb]; exact hi.dying d ((hD d hpb).1 hd)

/-- A new variable. -/
theorem Inv.newVar {k : Kind} {i : Nat} {y : Hnd} (hi : Inv dom T D h) (hp : h (.stk i) = none)
    (ht : y.ref ≠ .null → ∃ c, h y.ref = some (.blk c)) :
    ∃ dom', Inv dom' (fun k' b => T k' b - ind k' b (k, y)) D (upd h (.stk i) (some (.var k y))) ∧ (∀ p, p ∈ dom → p ∈ dom') := by
  -- make sure that the address is listed
  have key : ∃ dom', Inv dom' T D h ∧ .stk i ∈ dom' ∧ (∀ p, p ∈ dom → p ∈ dom') := by
    by_cases hm : .stk i ∈ dom
    · exact ⟨dom, hi, hm, fun _ h => h⟩
    · have htot : ∀ k b, tot (.stk i :: dom) h k b = tot dom h k b := by
        intro k b; simp [tot, hp, refsOf]
      refine ⟨.stk i :: dom, { hi with nd := List.nodup_cons.2 ⟨hm, hi.nd⟩, cov := fun p h => List.mem_cons_of_mem _ (hi.cov p h), use := ?_, weak := ?_, tgt := ?_ }, List.mem_cons_self, fun p h => List.mem_cons_of_mem _ h⟩
      · intro b c hb; rw [htot]; exact hi.use b c hb
      · intro b c hb; rw [htot]; exact hi.weak b c hb
      · intro k b hb; rw [htot]; exact hi.tgt k b hb
  obtain ⟨dom', hi, hm, hsub⟩ := key
  refine ⟨dom', ?_, hsub⟩
  have htot : ∀ k' d, tot dom' (upd h (.stk i) (some (.var k y))) k' d = tot dom' h k' d + ind k' d (k, y) := by
    intro k' d
    have := tot_upd (h := h) hi.nd hm (some (.var k y)) k' d
    rw [hp] at this; exact this
  have hblk : ∀ d e, upd h (.stk i) (some (.var k y)) d = some (.blk e) ↔ h d = some (.blk e) := by
    intro d e
    by_cases hd : d = .stk i
    · subst hd; rw [upd_same]; constructor
      · intro h; cases h
      · intro h; rw [hp] at h; cases h
    · rw [upd_other _ _ hd]
  refine ⟨hi.nd, ?_, ?_, ?_, ?_, ?_, ?_, ?_, ?_, ?_, ?_, ?_⟩
  · intro p hpp
    by_cases hpb : p = .stk i
    · subst hpb; exact hm
    · rw [upd_other _ _ hpb] at hpp; exact hi.cov _ hpp
  · intro p k x hpp
    by_cases hpb : p = .stk i
    · exact ⟨i, hpb⟩
    · rw [upd_other _ _ hpb] at hpp; exact hi.shVar _ _ _ hpp
  · intro p hpp
    by_cases hpb : p = .stk i
    · exact ⟨i, hpb⟩
    · rw [upd_other _ _ hpb] at hpp; exact hi.shLost _ hpp
  · intro p d hpp; exact hi.shBlk _ _ ((hblk _ _).1 hpp)
  · intro p o hpp
    by_cases hpb : p = .stk i
    · subst hpb; rw [upd_same] at hpp; cases hpp
    · rw [upd_other _ _ hpb] at hpp; exact hi.shRaw _ _ hpp
  · intro d e hd
    have := hi.use _ _ ((hblk _ _).1 hd); rw [htot]; omega
  · intro d e hd
    have := hi.weak _ _ ((hblk _ _).1 hd); rw [htot]; omega
  · intro d e hd; exact hi.owner _ _ ((hblk _ _).1 hd)
  · intro k' d hd hpos
    rw [htot] at hpos
    have : ∃ c, h d = some (.blk c) := by
      by_cases h0 : 0 < tot dom' h k' d
      · exact hi.tgt k' d hd h0
      · have : ind k' d (k, y) ≠ 0 := by omega
        unfold ind at this
        split at this
        · next e => obtain ⟨-, e⟩ := e; subst e; exact ht hd
        · exact (this rfl).elim
    obtain ⟨c, hc⟩ := this
    exact ⟨c, (hblk _ _).2 hc⟩
  · intro d e hd hnD; exact hi.life _ _ ((hblk _ _).1 hd) hnD
  · intro d hd
    obtain ⟨c, h1, h2⟩ := hi.dying d hd
    exact ⟨c, (hblk _ _).2 h1, h2⟩

/-- The end of a variable: its target is in transit. -/
theorem Inv.dropVar {k : Kind} {p : Ptr} {x : Hnd} (hi : Inv dom T D h) (hp : h p = some (.var k x)) :
    Inv dom (fun k' b => T k' b + ind k' b (k, x)) D (upd h p none) := by
  have htot : ∀ k' d, tot dom (upd h p none) k' d + ind k' d (k, x) = tot dom h k' d := by
    intro k' d
    have := tot_upd (h := h) hi.nd (hi.mem hp) none k' d
    rw [hp] at this; exact this
  have hcell : ∀ q c, upd h p none q = some c ↔ q ≠ p ∧ h q = some c := by
    intro q c
    by_cases hq : q = p
    · subst hq; simp
    · simp [upd_other _ _ hq, hq]
  refine ⟨hi.nd, ?_, ?_, ?_, ?_, ?_, ?_, ?_, ?_, ?_, ?_, ?_⟩
  · intro q hq
    by_cases hqp : q = p
    · subst hqp; simp at hq
    · rw [upd_other _ _ hqp] at hq; exact hi.cov _ hq
  · intro q k x hq; exact hi.shVar _ _ _ ((hcell _ _).1 hq).2
  · intro q hq; exact hi.shLost _ ((hcell _ _).1 hq).2
  · intro q c hq; exact hi.shBlk _ _ ((hcell _ _).1 hq).2
  · intro q o hq; exact hi.shRaw _ _ ((hcell _ _).1 hq).2
  · intro d e hd
    have := hi.use _ _ ((hcell _ _).1 hd).2
    have := htot .sh d; omega
  · intro d e hd
    have := hi.weak _ _ ((hcell _ _).1 hd).2
    have := htot .wk d; omega
  · intro d e hd; exact hi.owner _ _ ((hcell _ _).1 hd).2
  · intro k' d hd hpos
    have := htot k' d
    obtain ⟨c, hc⟩ := hi.tgt k' d hd (by omega)
    refine ⟨c, (hcell _ _).2 ⟨?_, hc⟩⟩
    rintro rfl; rw [hp] at hc; cases hc
  · intro d e hd hnD; exact hi.life _ _ ((hcell _ _).1 hd).2 hnD
  · intro d hd
    obtain ⟨c, h1, h2⟩ := hi.dying d hd
    refine ⟨c, (hcell _ _).2 ⟨?_, h1⟩, h2⟩
    rintro rfl; rw [hp] at h1; cases h1

/-- A block nobody refers to is removed. -/
theorem Inv.free {b : Ptr} {c : Blk V} {D' : List Ptr} (hi : Inv dom T D h) (hb : h b = some (.blk c))
    (hobj : c.obj = none ∨ ∃ o, c.obj = some o ∧ o.mem = [])
    (ht : ∀ k, tot dom h k b = 0) (hD : ∀ d, d ∈ D' ↔ d ∈ D ∧ d ≠ b) :
    Inv dom T D' (upd h b none) := by
  have hr : ∀ k d, refsOf k d (h b) = 0 := by
    intro k d; rw [hb]
    rcases hobj with e | ⟨o, e, e2⟩
    · simp [refsOf, e]
    · simp [refsOf, e, e2, memRefs]
  have htot : ∀ k' d, tot dom (upd h b none) k' d = tot dom h k' d := by
    intro k' d
    have := tot_upd (h := h) hi.nd (hi.mem hb) none k' d
    rw [hr] at this; exact this
  have hcell : ∀ q c, upd h b none q = some c ↔ q ≠ b ∧ h q = some c := by
    intro q c
    by_cases hq : q = b
    · subst hq; simp
    · simp [upd_other _ _ hq, hq]
  refine ⟨hi.nd, ?_, ?_, ?_, ?_, ?_, ?_, ?_, ?_, ?_, ?_, ?_⟩
  · intro q hq
    by_cases hqp : q = b
    · subst hqp; simp at hq
    · rw [upd_other _ _ hqp] at hq; exact hi.cov _ hq
  · intro q k x hq; exact hi.shVar _ _ _ ((hcell _ _).1 hq).2
  · intro q hq; exact hi.shLost _ ((hcell _ _).1 hq).2
  · intro q c hq; exact hi.shBlk _ _ ((hcell _ _).1 hq).2
  · intro q o hq; exact hi.shRaw _ _ ((hcell _ _).1 hq).2
  · intro d e hd
    rw [htot]; exact hi.use _ _ ((hcell _ _).1 hd).2
  · intro d e hd
    rw [htot]; exact hi.weak _ _ ((hcell _ _).1 hd).2
  · intro d e hd; exact hi.owner _ _ ((hcell _ _).1 hd).2
  · intro k' d hd hpos
    rw [htot] at hpos
    obtain ⟨c, hc⟩ := hi.tgt k' d hd (by omega)
    refine ⟨c, (hcell _ _).2 ⟨?_, hc⟩⟩
    rintro rfl; rw [ht] at hpos; cases hpos
  · intro d e hd hnD
    obtain ⟨h1, h2⟩ := (hcell _ _).1 hd
    exact hi.life _ _ h2 (fun hh => hnD ((hD d).2 ⟨hh, h1⟩))
  · intro d hd
    obtain ⟨h1, h2⟩ := (hD d).1 hd
    obtain ⟨c, h3, h4⟩ := hi.dying d h1
    exact ⟨c, (hcell _ _).2 ⟨h2, h3⟩, h4⟩

theorem at_blk {h : Heap V} {b : Ptr} {c c' : Blk V} (hb : h b = some (.blk c)) (ho : c'.obj = c.obj) :
    At (upd h b (some (.blk c'))) = At h ∧ Val (upd h b (some (.blk c'))) = Val h := by
  constructor
  · funext k' l' z
    apply propext
    cases l' with
    | var q =>
      simp only [At]
      by_cases hq : q = b
      · subst hq; rw [upd_same, hb]; simp
      · rw [upd_other _ _ hq]
    | mem d i =>
      simp only [At]
      by_cases hq : d = b
      · subst hq; rw [upd_same, hb]; simp [ho]
      · rw [upd_other _ _ hq]
  · funext d v
    apply propext
    simp only [Val]
    by_cases hq : d = b
    · subst hq; rw [upd_same, hb]; simp [ho]
    · rw [upd_other _ _ hq]

theorem at_free {h : Heap V} {b : Ptr} {c : Blk V} (hb : h b = some (.blk c)) (ho : c.obj = none) :
    At (upd h b none) = At h ∧ Val (upd h b none) = Val h := by
  constructor
  · funext k' l' z
    apply propext
    cases l' with
    | var q =>
      simp only [At]
      by_cases hq : q = b
      · subst hq; rw [upd_same, hb]; simp
      · rw [upd_other _ _ hq]
    | mem d i =>
      simp only [At]
      by_cases hq : d = b
      · subst hq; rw [upd_same, hb]; simp [ho]
      · rw [upd_other _ _ hq]
  · funext d v
    apply propext
    simp only [Val]
    by_cases hq : d = b
    · subst hq; rw [upd_same, hb]; simp [ho]
    · rw [upd_other _ _ hq]

end steps

end Nestl.SP
