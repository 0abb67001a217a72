import Verif.LinkedList.Model
set_option autoImplicit false
/-
Heap reasoning for `nestl::list`: links, chains, rings, and the effect of the node level operations on links.
-/
namespace Nestl.LL
variable {V : Type}

abbrev Heap (V : Type) := Ptr → Option (LNode V)

/-! ### Projections of the memory -/

def nxt (H : Heap V) : Ptr → Option Ptr := fun p => if p = .null then none else (H p).map LNode.next
def prv (H : Heap V) : Ptr → Option Ptr := fun p => if p = .null then none else (H p).map LNode.prev
def dat (H : Heap V) : Ptr → Option (Option V × Nat) := fun p => (H p).map fun n => (n.val, n.owner)

theorem nxt_cell {H : Heap V} {p a : Ptr} (h : nxt H p = some a) : p ≠ .null ∧ ∃ c, H p = some c ∧ c.next = a := by
  unfold nxt at h
  split at h
  · cases h
  · next hp => refine ⟨hp, ?_⟩; cases hc : H p with
    | none => simp [hc] at h
    | some c => simp [hc] at h; exact ⟨c, rfl, h⟩

theorem prv_cell {H : Heap V} {p a : Ptr} (h : prv H p = some a) : p ≠ .null ∧ ∃ c, H p = some c ∧ c.prev = a := by
  unfold prv at h
  split at h
  · cases h
  · next hp => refine ⟨hp, ?_⟩; cases hc : H p with
    | none => simp [hc] at h
    | some c => simp [hc] at h; exact ⟨c, rfl, h⟩

theorem dat_cell {H : Heap V} {p : Ptr} {v : Option V} {o : Nat} (h : dat H p = some (v, o)) :
    ∃ c, H p = some c ∧ c.val = v ∧ c.owner = o := by
  unfold dat at h
  cases hc : H p with
  | none => simp [hc] at h
  | some c => simp [hc] at h; exact ⟨c, rfl, h⟩

theorem nxt_upd {H : Heap V} {p : Ptr} {c : Option (LNode V)} (hp : p ≠ .null) :
    nxt (upd H p c) = upd (nxt H) p (c.map LNode.next) := by
  funext q; unfold nxt upd; by_cases h : q = p
  · subst h; simp [hp]
  · simp [h]

theorem prv_upd {H : Heap V} {p : Ptr} {c : Option (LNode V)} (hp : p ≠ .null) :
    prv (upd H p c) = upd (prv H) p (c.map LNode.prev) := by
  funext q; unfold prv upd; by_cases h : q = p
  · subst h; simp [hp]
  · simp [h]

theorem dat_upd {H : Heap V} {p : Ptr} {c : Option (LNode V)} :
    dat (upd H p c) = upd (dat H) p (c.map fun n => (n.val, n.owner)) := by
  funext q; unfold dat upd; by_cases h : q = p <;> simp [h]

theorem dat_none {H : Heap V} {p : Ptr} : dat H p = none ↔ H p = none := by
  unfold dat; simp

theorem wp_getNext {w : W V} {p a : Ptr} (h : nxt w.heap p = some a) {Q : Ptr → W V → Prop} :
    wp (getNext p) w Q ↔ Q a w := by
  obtain ⟨hp, c, hc, rfl⟩ := nxt_cell h
  unfold getNext; simp only [wp_bind]; rw [wp_rd hc hp]; rfl

theorem wp_getPrev {w : W V} {p a : Ptr} (h : prv w.heap p = some a) {Q : Ptr → W V → Prop} :
    wp (getPrev p) w Q ↔ Q a w := by
  obtain ⟨hp, c, hc, rfl⟩ := prv_cell h
  unfold getPrev; simp only [wp_bind]; rw [wp_rd hc hp]; rfl

theorem wp_setNext {w : W V} {p q : Ptr} {a : Ptr} (h : nxt w.heap p = some a) {Q : Unit → W V → Prop}
    (hq : ∀ H' : Heap V, nxt H' = upd (nxt w.heap) p (some q) → prv H' = prv w.heap → dat H' = dat w.heap →
      Q () (w.setHeap H')) : wp (setNext p q) w Q := by
  obtain ⟨hp, c, hc, rfl⟩ := nxt_cell h
  unfold setNext; rw [wp_modCell hc hp]
  apply hq
  · rw [nxt_upd hp]; rfl
  · rw [prv_upd hp]; apply upd_self; simp [prv, hp, hc]
  · rw [dat_upd]; apply upd_self; simp [dat, hc]

theorem wp_setPrev {w : W V} {p q : Ptr} {a : Ptr} (h : prv w.heap p = some a) {Q : Unit → W V → Prop}
    (hq : ∀ H' : Heap V, nxt H' = nxt w.heap → prv H' = upd (prv w.heap) p (some q) → dat H' = dat w.heap →
      Q () (w.setHeap H')) : wp (setPrev p q) w Q := by
  obtain ⟨hp, c, hc, rfl⟩ := prv_cell h
  unfold setPrev; rw [wp_modCell hc hp]
  apply hq
  · rw [nxt_upd hp]; apply upd_self; simp [nxt, hp, hc]
  · rw [prv_upd hp]; rfl
  · rw [dat_upd]; apply upd_self; simp [dat, hc]

/-! ### Links and chains -/

/-- `b` follows `a`. -/
def Lk (H : Heap V) (a b : Ptr) : Prop := nxt H a = some b ∧ prv H b = some a

/-- `p` is linked on both sides: what `NESTL_CHECK_LIST_NODE` checks. -/
def On (H : Heap V) (p : Ptr) : Prop := ∃ a b, Lk H a p ∧ Lk H p b

theorem wp_checkNode {w : W V} {p : Ptr} (h : On w.heap p) {Q : Unit → W V → Prop} (hq : Q () w) :
    wp (checkNode p) w Q := by
  obtain ⟨a, b, ⟨h1, h2⟩, h3, h4⟩ := h
  have n1 := (nxt_cell h1).1
  have n2 := (nxt_cell h3).1
  have n3 := (prv_cell h4).1
  unfold checkNode
  simp only [wp_bind, wp_assertM]
  refine ⟨by simp [n2], ?_⟩
  rw [wp_getPrev h2]; refine ⟨by simp [n1], ?_⟩
  rw [wp_getNext h3]; refine ⟨by simp [n3], ?_⟩
  rw [wp_getPrev h2, wp_getNext h1]; refine ⟨by simp, ?_⟩
  rw [wp_getNext h3, wp_getPrev h4]; exact ⟨by simp, hq⟩

/-- Consecutive elements are linked. -/
def Ch (H : Heap V) : List Ptr → Prop
  | [] => True
  | [_] => True
  | x :: y :: l => Lk H x y ∧ Ch H (y :: l)

/-- Last element of `x :: l`. -/
def lastP (x : Ptr) : List Ptr → Ptr
  | [] => x
  | y :: l => lastP y l

/-- First element of `l ++ [x]`. -/
def firstP (x : Ptr) : List Ptr → Ptr
  | [] => x
  | y :: _ => y

/-- All but the first element of `l ++ [x]`. -/
def tailP (x : Ptr) : List Ptr → List Ptr
  | [] => []
  | _ :: l => l ++ [x]

theorem snoc_eq (x : Ptr) (l : List Ptr) : l ++ [x] = firstP x l :: tailP x l := by cases l <;> rfl

theorem lastP_mem (x : Ptr) (l : List Ptr) : lastP x l = x ∨ lastP x l ∈ l := by
  induction l generalizing x with
  | nil => exact .inl rfl
  | cons y l ih => rcases ih y with h | h <;> simp [lastP, h]

theorem lastP_mem' {x : Ptr} {l : List Ptr} (h : l ≠ []) : lastP x l ∈ l := by
  cases l with
  | nil => exact absurd rfl h
  | cons y l => rcases lastP_mem y l with h | h <;> simp [lastP, h]

theorem firstP_mem (x : Ptr) (l : List Ptr) : firstP x l = x ∨ firstP x l ∈ l := by
  cases l <;> simp [firstP]

@[simp] theorem lastP_append (x y : Ptr) (l m : List Ptr) : lastP x (l ++ y :: m) = lastP y m := by
  induction l generalizing x with
  | nil => rfl
  | cons z l ih => exact ih z

theorem firstP_append (x : Ptr) (l m : List Ptr) : firstP x (l ++ m) = firstP (firstP x m) l := by
  cases l <;> rfl

theorem Ch.split {H : Heap V} {x y : Ptr} {A B : List Ptr} :
    Ch H (x :: (A ++ y :: B)) ↔ Ch H (x :: A) ∧ Lk H (lastP x A) y ∧ Ch H (y :: B) := by
  induction A generalizing x with
  | nil => simp [Ch, lastP]
  | cons z A ih => simp only [List.cons_append, Ch, lastP, ih]; simp only [and_assoc]

theorem Ch.frame {H H' : Heap V} {x : Ptr} {l : List Ptr} (h : Ch H (x :: l))
    (hf : ∀ a b, Lk H a b → b ∈ l → Lk H' a b) : Ch H' (x :: l) := by
  induction l generalizing x with
  | nil => trivial
  | cons y l ih => exact ⟨hf _ _ h.1 (by simp), ih h.2 fun a b h1 h2 => hf a b h1 (by simp [h2])⟩

/-- The nodes `l` form a ring with the header `s`. -/
def Ring (H : Heap V) (s : Ptr) (l : List Ptr) : Prop := Ch H (s :: (l ++ [s]))

theorem Ring.split {H : Heap V} {s : Ptr} {A B : List Ptr} :
    Ring H s (A ++ B) ↔ Ch H (s :: A) ∧ Lk H (lastP s A) (firstP s B) ∧ Ch H (firstP s B :: tailP s B) := by
  unfold Ring; rw [List.append_assoc, snoc_eq s B, Ch.split]

theorem Ring.split3 {H : Heap V} {s m : Ptr} {A M B : List Ptr} :
    Ring H s (A ++ (m :: M ++ B)) ↔ Ch H (s :: A) ∧ Lk H (lastP s A) m ∧ Ch H (m :: M) ∧
      Lk H (lastP m M) (firstP s B) ∧ Ch H (firstP s B :: tailP s B) := by
  unfold Ring; rw [List.append_assoc, List.append_assoc, snoc_eq s B, List.cons_append, Ch.split, Ch.split]

theorem Ring.split4 {H : Heap V} {s x y : Ptr} {A X Y B : List Ptr} :
    Ring H s (A ++ (x :: X ++ (y :: Y ++ B))) ↔ Ch H (s :: A) ∧ Lk H (lastP s A) x ∧ Ch H (x :: X) ∧
      Lk H (lastP x X) y ∧ Ch H (y :: Y) ∧
      Lk H (lastP y Y) (firstP s B) ∧ Ch H (firstP s B :: tailP s B) := by
  unfold Ring
  rw [List.append_assoc, List.append_assoc, List.append_assoc, snoc_eq s B, List.cons_append, List.cons_append,
    Ch.split, Ch.split, Ch.split]

theorem Ring.frame {H H' : Heap V} {s : Ptr} {l : List Ptr} (h : Ring H s l)
    (hf : ∀ a b, Lk H a b → b ∈ s :: l → Lk H' a b) : Ring H' s l :=
  Ch.frame h fun a b h1 h2 => hf a b h1 (by simp at h2 ⊢; exact h2.symm)

theorem Ring.on_hdr {H : Heap V} {s : Ptr} {l : List Ptr} (h : Ring H s l) : On H s := by
  have h1 := (Ring.split (A := l) (B := [])).1 (by simpa using h)
  have h2 := (Ring.split (A := []) (B := l)).1 (by simpa using h)
  exact ⟨_, _, h1.2.1, h2.2.1⟩

theorem Ring.on {H : Heap V} {s p : Ptr} {l : List Ptr} (h : Ring H s l) (hp : p ∈ l) : On H p := by
  obtain ⟨A, B, rfl⟩ := List.append_of_mem hp
  have h1 := (Ring.split (A := A) (B := p :: B)).1 h
  have h2 := (Ring.split (A := A ++ [p]) (B := B)).1 (by simpa using h)
  exact ⟨_, _, h1.2.1, by simpa [lastP] using h2.2.1⟩

theorem Ring.on_first {H : Heap V} {s : Ptr} {A B : List Ptr} (h : Ring H s (A ++ B)) : On H (firstP s B) := by
  rcases firstP_mem s B with h1 | h1
  · rw [h1]; exact h.on_hdr
  · exact h.on (by simp [h1])

/-! ### Node level operations -/

theorem Lk.inj_left {H : Heap V} {a b c : Ptr} (h : Lk H a c) (h' : Lk H b c) : a = b := by
  have := h.2.symm.trans h'.2; simpa using this
theorem Lk.inj_right {H : Heap V} {a b c : Ptr} (h : Lk H a b) (h' : Lk H a c) : b = c := by
  have := h.1.symm.trans h'.1; simpa using this

theorem wp_initEmpty {w : W V} {p : Ptr} {v : Option V} {o : Nat} (hd : dat w.heap p = some (v, o))
    (hp : p ≠ .null) {Q : Unit → W V → Prop}
    (hq : ∀ H' : Heap V, nxt H' = upd (nxt w.heap) p (some p) → prv H' = upd (prv w.heap) p (some p) →
      dat H' = dat w.heap → Q () (w.setHeap H')) : wp (initEmpty p) w Q := by
  obtain ⟨c, hc, -⟩ := dat_cell hd
  unfold initEmpty
  simp only [wp_bind]
  apply wp_setNext (a := c.next) (by simp [nxt, hp, hc])
  intro H1 n1 p1 d1
  apply wp_setPrev (a := c.prev) (by simp only [World.setHeap_heap]; rw [p1]; simp [prv, hp, hc])
  intro H2 n2 p2 d2
  simp only [World.setHeap_heap] at n2 p2 d2
  rw [n1] at n2; rw [p1] at p2; rw [d1] at d2
  have hl : Lk H2 p p := ⟨by rw [n2]; simp, by rw [p2]; simp⟩
  apply wp_checkNode ⟨p, p, hl, hl⟩
  exact hq H2 n2 p2 d2

/-- `inject` puts `n` between `a` and `pos`. -/
theorem wp_inject {w : W V} {n pos a : Ptr} (hn : Lk w.heap n n) (ha : Lk w.heap a pos) (hp : On w.heap pos)
    (hne : n ≠ pos) {Q : Unit → W V → Prop}
    (hq : ∀ H' : Heap V, Lk H' a n → Lk H' n pos →
      (∀ x y, Lk w.heap x y → y ≠ n → y ≠ pos → Lk H' x y) → dat H' = dat w.heap → Q () (w.setHeap H')) :
    wp (inject n pos) w Q := by
  have hna : n ≠ a := by rintro rfl; exact hne (hn.inj_right ha)
  unfold inject
  simp only [wp_bind]
  apply wp_checkNode ⟨n, n, hn, hn⟩
  apply wp_checkNode hp
  apply wp_setNext hn.1; intro H1 n1 p1 d1
  rw [wp_getPrev (a := a) (by simp only [World.setHeap_heap]; rw [p1]; exact ha.2)]
  apply wp_setPrev (a := n) (by simp only [World.setHeap_heap]; rw [p1]; exact hn.2); intro H2 n2 p2 d2
  simp only [World.setHeap_heap] at n2 p2 d2
  rw [wp_getPrev (a := a) (by simp only [World.setHeap_heap]; rw [p2, p1, upd_other _ _ (Ne.symm hne)]; exact ha.2)]
  apply wp_setNext (a := pos) (by
    simp only [World.setHeap_heap]; rw [n2, n1, upd_other _ _ (Ne.symm hna)]; exact ha.1)
  intro H3 n3 p3 d3
  simp only [World.setHeap_heap] at n3 p3 d3
  apply wp_setPrev (a := a) (by
    simp only [World.setHeap_heap]; rw [p3, p2, p1, upd_other _ _ (Ne.symm hne)]; exact ha.2)
  intro H4 n4 p4 d4
  simp only [World.setHeap_heap] at n4 p4 d4
  have e1 : nxt H4 = upd (upd (nxt w.heap) n (some pos)) a (some n) := by rw [n4, n3, n2, n1]
  have e2 : prv H4 = upd (upd (prv w.heap) n (some a)) pos (some n) := by rw [p4, p3, p2, p1]
  have e3 : dat H4 = dat w.heap := by rw [d4, d3, d2, d1]
  clear n1 n2 n3 n4 p1 p2 p3 p4 d1 d2 d3 d4
  have l1 : Lk H4 a n := by unfold Lk; rw [e1, e2]; simp [upd_apply, hne]
  have l2 : Lk H4 n pos := by unfold Lk; rw [e1, e2]; simp [upd_apply, hna]
  have l3 : ∀ x y, Lk w.heap x y → y ≠ n → y ≠ pos → Lk H4 x y := by
    intro x y hxy h1 h2
    have hxn : x ≠ n := by rintro rfl; exact h1 (hxy.inj_right hn)
    have hxa : x ≠ a := by rintro rfl; exact h2 (hxy.inj_right ha)
    unfold Lk; rw [e1, e2]; simp [upd_apply, h1, h2, hxn, hxa]; exact hxy
  apply wp_checkNode ⟨a, pos, l1, l2⟩
  apply wp_checkNode
  · obtain ⟨-, b, -, hb⟩ := hp
    by_cases hbn : b = n
    · subst hbn; exact absurd (hn.inj_left hb) hne
    by_cases hbp : b = pos
    · subst hbp; have := hb.inj_left ha; subst this; exact ⟨n, n, l2, l1⟩
    · exact ⟨n, b, l2, l3 _ _ hb hbn hbp⟩
  exact hq _ l1 l2 l3 e3

/-- `remove` links the neighbours of `p`. -/
theorem wp_removeNode {w : W V} {p a b : Ptr} (ha : Lk w.heap a p) (hb : Lk w.heap p b) (hap : a ≠ p)
    (hOa : On w.heap a) (hOb : On w.heap b) {Q : Unit → W V → Prop}
    (hq : ∀ H' : Heap V, Lk H' a b → (∀ x y, Lk w.heap x y → y ≠ p → y ≠ b → Lk H' x y) → dat H' = dat w.heap →
      Q () (w.setHeap H')) : wp (removeNode p) w Q := by
  unfold removeNode
  simp only [wp_bind]
  apply wp_checkNode ⟨a, b, ha, hb⟩
  rw [wp_getNext hb.1]
  apply wp_checkNode hOb
  rw [wp_getPrev ha.2]
  apply wp_checkNode hOa
  apply wp_setNext ha.1; intro H1 n1 p1 d1
  apply wp_setPrev (a := p) (by simp only [World.setHeap_heap]; rw [p1]; exact hb.2); intro H2 n2 p2 d2
  simp only [World.setHeap_heap] at n2 p2 d2
  rw [n1] at n2; rw [p1] at p2; rw [d1] at d2
  clear n1 p1 d1
  have l1 : Lk H2 a b := by unfold Lk; rw [n2, p2]; simp
  have l2 : ∀ x y, Lk w.heap x y → y ≠ p → y ≠ b → Lk H2 x y := by
    intro x y hxy h1 h2
    have hxa : x ≠ a := by rintro rfl; exact h1 (hxy.inj_right ha)
    unfold Lk; rw [n2, p2]; simp [upd_apply, h2, hxa]; exact hxy
  have hbp : b ≠ p := by
    intro h; subst h; exact hap (ha.inj_left hb)
  apply wp_checkNode
  · obtain ⟨-, y, -, hy⟩ := hOb
    have hyp : y = p → b = a := by rintro rfl; exact hy.inj_left ha
    by_cases h1 : y = p
    · have := hyp h1; subst this; exact ⟨_, _, l1, l1⟩
    by_cases h2 : y = b
    · subst h2; exact absurd (hy.inj_left hb) hbp
    exact ⟨_, _, l1, l2 _ _ hy h1 h2⟩
  apply wp_checkNode
  · obtain ⟨x, -, hx, -⟩ := hOa
    by_cases h2 : a = b
    · subst h2; exact ⟨_, _, l1, l1⟩
    exact ⟨_, _, l2 _ _ hx hap h2, l1⟩
  exact hq _ l1 l2 d2

/-- `transfer`: the chain `f ... e` is cut out between `b` and `last` and put between `p` and `pos`. -/
theorem wp_transferNodes {w : W V} {pos f last p b e : Ptr} (hp : Lk w.heap p pos) (hb : Lk w.heap b f)
    (he : Lk w.heap e last) (hO1 : On w.heap pos) (hO2 : On w.heap f) (hO3 : On w.heap last) (n1 : pos ≠ f)
    (n2 : pos ≠ last) (n3 : f ≠ last) {Q : Unit → W V → Prop}
    (hq : ∀ H' : Heap V, Lk H' p f → Lk H' e pos → Lk H' b last →
      (∀ x y, Lk w.heap x y → y ≠ pos → y ≠ f → y ≠ last → Lk H' x y) → dat H' = dat w.heap → Q () (w.setHeap H')) :
    wp (transferNodes pos f last) w Q := by
  have m1 : p ≠ b := by rintro rfl; exact n1 (hp.inj_right hb)
  have m2 : p ≠ e := by rintro rfl; exact n2 (hp.inj_right he)
  have m3 : b ≠ e := by rintro rfl; exact n3 (hb.inj_right he)
  unfold transferNodes
  simp only [wp_bind]
  apply wp_checkNode hO1
  apply wp_checkNode hO2
  apply wp_checkNode hO3
  rw [wp_assertM]; refine ⟨by simp [n2], ?_⟩
  rw [wp_getPrev he.2]
  apply wp_setNext he.1; intro H1 a1 b1 d1
  rw [wp_getPrev (a := b) (by simp only [World.setHeap_heap]; rw [b1]; exact hb.2)]
  apply wp_setNext (a := f) (by simp only [World.setHeap_heap]; rw [a1, upd_other _ _ m3]; exact hb.1)
  intro H2 a2 b2 d2
  simp only [World.setHeap_heap] at a2 b2 d2
  rw [wp_getPrev (a := p) (by simp only [World.setHeap_heap]; rw [b2, b1]; exact hp.2)]
  apply wp_setNext (a := pos) (by
    simp only [World.setHeap_heap]; rw [a2, a1, upd_other _ _ m1, upd_other _ _ m2]; exact hp.1)
  intro H3 a3 b3 d3
  simp only [World.setHeap_heap] at a3 b3 d3
  have B3 : prv H3 = prv w.heap := by rw [b3, b2, b1]
  rw [wp_getPrev (a := p) (by simp only [World.setHeap_heap]; rw [B3]; exact hp.2)]
  rw [wp_getPrev (a := e) (by simp only [World.setHeap_heap]; rw [B3]; exact he.2)]
  apply wp_setPrev (a := p) (by simp only [World.setHeap_heap]; rw [B3]; exact hp.2); intro H4 a4 b4 d4
  simp only [World.setHeap_heap] at a4 b4 d4
  rw [wp_getPrev (a := b) (by simp only [World.setHeap_heap]; rw [b4, B3, upd_other _ _ (Ne.symm n1)]; exact hb.2)]
  apply wp_setPrev (a := e) (by
    simp only [World.setHeap_heap]; rw [b4, B3, upd_other _ _ (Ne.symm n2)]; exact he.2)
  intro H5 a5 b5 d5
  simp only [World.setHeap_heap] at a5 b5 d5
  apply wp_setPrev (a := b) (by
    simp only [World.setHeap_heap]; rw [b5, b4, B3, upd_other _ _ n3, upd_other _ _ (Ne.symm n1)]; exact hb.2)
  intro H6 a6 b6 d6
  simp only [World.setHeap_heap] at a6 b6 d6
  have e1 : nxt H6 = upd (upd (upd (nxt w.heap) e (some pos)) b (some last)) p (some f) := by
    rw [a6, a5, a4, a3, a2, a1]
  have e2 : prv H6 = upd (upd (upd (prv w.heap) pos (some e)) last (some b)) f (some p) := by
    rw [b6, b5, b4, B3]
  have e3 : dat H6 = dat w.heap := by rw [d6, d5, d4, d3, d2, d1]
  clear a1 a2 a3 a4 a5 a6 b1 b2 b3 B3 b4 b5 b6 d1 d2 d3 d4 d5 d6
  have l1 : Lk H6 p f := by unfold Lk; rw [e1, e2]; simp
  have l2 : Lk H6 e pos := by unfold Lk; rw [e1, e2]; simp [upd_apply, n1, n2, Ne.symm m2, Ne.symm m3]
  have l3 : Lk H6 b last := by unfold Lk; rw [e1, e2]; simp [upd_apply, Ne.symm n3, Ne.symm m1]
  have l4 : ∀ x y, Lk w.heap x y → y ≠ pos → y ≠ f → y ≠ last → Lk H6 x y := by
    intro x y hxy h1 h2 h3
    have k1 : x ≠ p := by rintro rfl; exact h1 (hxy.inj_right hp)
    have k2 : x ≠ b := by rintro rfl; exact h2 (hxy.inj_right hb)
    have k3 : x ≠ e := by rintro rfl; exact h3 (hxy.inj_right he)
    unfold Lk; rw [e1, e2]; simp [upd_apply, h1, h2, h3, k1, k2, k3]; exact hxy
  have l5 : ∀ y, On w.heap y → ∃ z, Lk H6 y z := by
    rintro y ⟨-, z, -, hz⟩
    by_cases h1 : z = pos
    · subst h1; have := hz.inj_left hp; subst this; exact ⟨_, l1⟩
    by_cases h2 : z = f
    · subst h2; have := hz.inj_left hb; subst this; exact ⟨_, l3⟩
    by_cases h3 : z = last
    · subst h3; have := hz.inj_left he; subst this; exact ⟨_, l2⟩
    exact ⟨_, l4 _ _ hz h1 h2 h3⟩
  obtain ⟨z1, k1⟩ := l5 _ hO1
  obtain ⟨z2, k2⟩ := l5 _ hO2
  obtain ⟨z3, k3⟩ := l5 _ hO3
  apply wp_checkNode ⟨_, _, l2, k1⟩
  apply wp_checkNode ⟨_, _, l1, k2⟩
  apply wp_checkNode ⟨_, _, l3, k3⟩
  exact hq _ l1 l2 l3 l4 e3

/-- `swap` of a ring with itself changes nothing. -/
theorem wp_swapNodes_self {w : W V} {l ln lp : Ptr} (h1 : Lk w.heap l ln) (h2 : Lk w.heap lp l)
    {Q : Unit → W V → Prop}
    (hq : ∀ H' : Heap V, nxt H' = nxt w.heap → prv H' = prv w.heap → dat H' = dat w.heap → Q () (w.setHeap H')) :
    wp (swapNodes l l) w Q := by
  unfold swapNodes
  simp only [wp_bind]
  apply wp_checkNode ⟨_, _, h2, h1⟩
  apply wp_checkNode ⟨_, _, h2, h1⟩
  rw [wp_getNext h1.1]
  by_cases hl : ln = l
  · refine wp_if_neg (by simp [hl]) ?_
    simp only [wp_bind]
    rw [wp_getNext h1.1]
    refine wp_if_neg (by simp [hl]) ?_
    simp only [wp_bind]
    apply wp_checkNode ⟨_, _, h2, h1⟩
    apply wp_checkNode ⟨_, _, h2, h1⟩
    exact hq w.heap rfl rfl rfl
  · refine wp_if_pos hl ?_
    simp only [wp_bind]
    rw [wp_getNext h1.1]
    refine wp_if_pos hl ?_
    simp only [wp_bind]
    rw [wp_getNext h1.1, wp_getNext h1.1]
    apply wp_setNext h1.1; intro H1 a1 b1 d1
    rw [upd_self _ _ _ h1.1] at a1
    apply wp_setNext (a := ln) (by simp only [World.setHeap_heap]; rw [a1]; exact h1.1); intro H2 a2 b2 d2
    simp only [World.setHeap_heap] at a2 b2 d2; rw [a1, upd_self _ _ _ h1.1] at a2; rw [b1] at b2; rw [d1] at d2
    clear a1 b1 d1
    rw [wp_getPrev (a := lp) (by simp only [World.setHeap_heap]; rw [b2]; exact h2.2),
      wp_getPrev (a := lp) (by simp only [World.setHeap_heap]; rw [b2]; exact h2.2)]
    apply wp_setPrev (a := lp) (by simp only [World.setHeap_heap]; rw [b2]; exact h2.2); intro H3 a3 b3 d3
    simp only [World.setHeap_heap] at a3 b3 d3; rw [a2] at a3; rw [b2, upd_self _ _ _ h2.2] at b3; rw [d2] at d3
    clear a2 b2 d2
    apply wp_setPrev (a := lp) (by simp only [World.setHeap_heap]; rw [b3]; exact h2.2); intro H4 a4 b4 d4
    simp only [World.setHeap_heap] at a4 b4 d4; rw [a3] at a4; rw [b3, upd_self _ _ _ h2.2] at b4; rw [d3] at d4
    clear a3 b3 d3
    rw [wp_getPrev (a := lp) (by simp only [World.setHeap_heap]; rw [b4]; exact h2.2)]
    apply wp_setNext (a := l) (by simp only [World.setHeap_heap]; rw [a4]; exact h2.1); intro H5 a5 b5 d5
    simp only [World.setHeap_heap] at a5 b5 d5; rw [a4, upd_self _ _ _ h2.1] at a5; rw [b4] at b5; rw [d4] at d5
    clear a4 b4 d4
    rw [wp_getNext (a := ln) (by simp only [World.setHeap_heap]; rw [a5]; exact h1.1)]
    apply wp_setPrev (a := l) (by simp only [World.setHeap_heap]; rw [b5]; exact h1.2); intro H6 a6 b6 d6
    simp only [World.setHeap_heap] at a6 b6 d6; rw [a5] at a6; rw [b5, upd_self _ _ _ h1.2] at b6; rw [d5] at d6
    clear a5 b5 d5
    rw [wp_getPrev (a := lp) (by simp only [World.setHeap_heap]; rw [b6]; exact h2.2)]
    apply wp_setNext (a := l) (by simp only [World.setHeap_heap]; rw [a6]; exact h2.1); intro H7 a7 b7 d7
    simp only [World.setHeap_heap] at a7 b7 d7; rw [a6, upd_self _ _ _ h2.1] at a7; rw [b6] at b7; rw [d6] at d7
    clear a6 b6 d6
    rw [wp_getNext (a := ln) (by simp only [World.setHeap_heap]; rw [a7]; exact h1.1)]
    apply wp_setPrev (a := l) (by simp only [World.setHeap_heap]; rw [b7]; exact h1.2); intro H8 a8 b8 d8
    simp only [World.setHeap_heap] at a8 b8 d8; rw [a7] at a8; rw [b7, upd_self _ _ _ h1.2] at b8; rw [d7] at d8
    clear a7 b7 d7
    have o : On H8 l := ⟨lp, ln, ⟨by rw [a8]; exact h2.1, by rw [b8]; exact h2.2⟩,
      ⟨by rw [a8]; exact h1.1, by rw [b8]; exact h1.2⟩⟩
    apply wp_checkNode o
    apply wp_checkNode o
    exact hq _ a8 b8 d8

/-- `swap` of two different rings: the headers exchange their neighbours. -/
theorem wp_swapNodes {w : W V} {l r ln lp rn rp : Ptr} (h1 : Lk w.heap l ln) (h2 : Lk w.heap lp l)
    (h3 : Lk w.heap r rn) (h4 : Lk w.heap rp r) (hlr : l ≠ r) (c1 : ln ≠ r) (c2 : lp ≠ r) (c3 : rn ≠ l) (c4 : rp ≠ l)
    {Q : Unit → W V → Prop}
    (hq : ∀ H' : Heap V,
      (ln = l → Lk H' r r) → (ln ≠ l → Lk H' r ln ∧ Lk H' lp r) →
      (rn = r → Lk H' l l) → (rn ≠ r → Lk H' l rn ∧ Lk H' rp l) →
      (∀ x y, Lk w.heap x y → y ≠ l → y ≠ r → y ≠ ln → y ≠ rn → Lk H' x y) →
      dat H' = dat w.heap → Q () (w.setHeap H')) :
    wp (swapNodes l r) w Q := by
  have e1 : ln = l → lp = l := by rintro rfl; exact h2.inj_left h1
  have e2 : rn = r → rp = r := by rintro rfl; exact h4.inj_left h3
  have e3 : lp = l → ln = l := by rintro rfl; exact (h2.inj_right h1).symm
  have e4 : rp = r → rn = r := by rintro rfl; exact (h4.inj_right h3).symm
  have c5 : ln ≠ rn := fun h => hlr (h1.inj_left (h ▸ h3))
  have c6 : lp ≠ rp := fun h => hlr (h2.inj_right (h ▸ h4))
  unfold swapNodes
  simp only [wp_bind]
  apply wp_checkNode ⟨_, _, h2, h1⟩
  apply wp_checkNode ⟨_, _, h4, h3⟩
  rw [wp_getNext h1.1]
  by_cases hl : ln = l
  · have hl' := e1 hl
    refine wp_if_neg (by simp [hl]) ?_
    simp only [wp_bind]
    rw [wp_getNext h3.1]
    by_cases hr : rn = r
    · have hr' := e2 hr
      refine wp_if_neg (by simp [hr]) ?_
      simp only [wp_bind]
      apply wp_checkNode ⟨_, _, h2, h1⟩
      apply wp_checkNode ⟨_, _, h4, h3⟩
      refine hq w.heap (fun _ => hr ▸ h3) (fun h => absurd hl h) (fun _ => hl ▸ h1) (fun h => absurd hr h)
        (fun x y h _ _ _ _ => h) rfl
    · have hr' : rp ≠ r := fun h => hr (e4 h)
      refine wp_if_pos hr ?_
      simp only [wp_bind]
      rw [wp_getNext h3.1]
      apply wp_setNext h1.1; intro H1 a1 b1 d1
      rw [wp_getPrev (a := rp) (by simp only [World.setHeap_heap]; rw [b1]; exact h4.2)]
      apply wp_setPrev (a := lp) (by simp only [World.setHeap_heap]; rw [b1]; exact h2.2); intro H2 a2 b2 d2
      simp only [World.setHeap_heap] at a2 b2 d2; rw [a1] at a2; rw [b1] at b2; rw [d1] at d2; clear a1 b1 d1
      rw [wp_getPrev (a := rp) (by simp only [World.setHeap_heap]; rw [b2]; simp)]
      apply wp_setNext (a := r) (by simp only [World.setHeap_heap]; rw [a2, upd_other _ _ c4]; exact h4.1)
      intro H3 a3 b3 d3
      simp only [World.setHeap_heap] at a3 b3 d3; rw [a2] at a3; rw [b2] at b3; rw [d2] at d3; clear a2 b2 d2
      rw [wp_getNext (a := rn) (by simp only [World.setHeap_heap]; rw [a3, upd_other _ _ (Ne.symm c4)]; simp)]
      apply wp_setPrev (a := r) (by simp only [World.setHeap_heap]; rw [b3, upd_other _ _ c3]; exact h3.2)
      intro H4 a4 b4 d4
      simp only [World.setHeap_heap] at a4 b4 d4; rw [a3] at a4; rw [b3] at b4; rw [d3] at d4; clear a3 b3 d3
      apply wp_setPrev (a := rp) (by
        simp only [World.setHeap_heap]; rw [b4, upd_other _ _ (Ne.symm hr), upd_other _ _ (Ne.symm hlr)]; exact h4.2)
      intro H5 a5 b5 d5
      simp only [World.setHeap_heap] at a5 b5 d5; rw [a4] at a5; rw [b4] at b5; rw [d4] at d5; clear a4 b4 d4
      apply wp_setNext (a := rn) (by
        simp only [World.setHeap_heap]; rw [a5, upd_other _ _ (Ne.symm hr'), upd_other _ _ (Ne.symm hlr)]; exact h3.1)
      intro H6 a6 b6 d6
      simp only [World.setHeap_heap] at a6 b6 d6; rw [a5] at a6; rw [b5] at b6; rw [d5] at d6; clear a5 b5 d5
      have l1 : Lk H6 r r := by unfold Lk; rw [a6, b6]; simp
      have l2 : Lk H6 l rn := by
        unfold Lk; rw [a6, b6]; simp [upd_apply, hlr, Ne.symm c4, hr]
      have l3 : Lk H6 rp l := by
        unfold Lk; rw [a6, b6]; simp [upd_apply, hlr, hr', Ne.symm c3]
      have l4 : ∀ x y, Lk w.heap x y → y ≠ l → y ≠ r → y ≠ ln → y ≠ rn → Lk H6 x y := by
        intro x y hxy k1 k2 k3 k4
        have j1 : x ≠ l := by rintro rfl; exact k3 (hxy.inj_right h1)
        have j2 : x ≠ r := by rintro rfl; exact k4 (hxy.inj_right h3)
        have j3 : x ≠ rp := by rintro rfl; exact k2 (hxy.inj_right h4)
        unfold Lk; rw [a6, b6]; simp [upd_apply, k1, k2, k4, j1, j2, j3]; exact hxy
      apply wp_checkNode ⟨_, _, l3, l2⟩
      apply wp_checkNode ⟨_, _, l1, l1⟩
      exact hq H6 (fun _ => l1) (fun h => absurd hl h) (fun h => absurd h hr) (fun _ => ⟨l2, l3⟩) l4 d6
  · have hl' : lp ≠ l := fun h => hl (e3 h)
    refine wp_if_pos hl ?_
    simp only [wp_bind]
    rw [wp_getNext h3.1]
    by_cases hr : rn = r
    · have hr' := e2 hr
      refine wp_if_neg (by simp [hr]) ?_
      simp only [wp_bind]
      rw [wp_getNext h1.1]
      apply wp_setNext h3.1; intro H1 a1 b1 d1
      rw [wp_getPrev (a := lp) (by simp only [World.setHeap_heap]; rw [b1]; exact h2.2)]
      apply wp_setPrev (a := rp) (by simp only [World.setHeap_heap]; rw [b1]; exact h4.2); intro H2 a2 b2 d2
      simp only [World.setHeap_heap] at a2 b2 d2; rw [a1] at a2; rw [b1] at b2; rw [d1] at d2; clear a1 b1 d1
      rw [wp_getPrev (a := lp) (by simp only [World.setHeap_heap]; rw [b2]; simp)]
      apply wp_setNext (a := l) (by simp only [World.setHeap_heap]; rw [a2, upd_other _ _ c2]; exact h2.1)
      intro H3 a3 b3 d3
      simp only [World.setHeap_heap] at a3 b3 d3; rw [a2] at a3; rw [b2] at b3; rw [d2] at d3; clear a2 b2 d2
      rw [wp_getNext (a := ln) (by simp only [World.setHeap_heap]; rw [a3, upd_other _ _ (Ne.symm c2)]; simp)]
      apply wp_setPrev (a := l) (by simp only [World.setHeap_heap]; rw [b3, upd_other _ _ c1]; exact h1.2)
      intro H4 a4 b4 d4
      simp only [World.setHeap_heap] at a4 b4 d4; rw [a3] at a4; rw [b3] at b4; rw [d3] at d4; clear a3 b3 d3
      apply wp_setPrev (a := lp) (by
        simp only [World.setHeap_heap]; rw [b4, upd_other _ _ (Ne.symm hl), upd_other _ _ hlr]; exact h2.2)
      intro H5 a5 b5 d5
      simp only [World.setHeap_heap] at a5 b5 d5; rw [a4] at a5; rw [b4] at b5; rw [d4] at d5; clear a4 b4 d4
      apply wp_setNext (a := ln) (by
        simp only [World.setHeap_heap]; rw [a5, upd_other _ _ (Ne.symm hl'), upd_other _ _ hlr]; exact h1.1)
      intro H6 a6 b6 d6
      simp only [World.setHeap_heap] at a6 b6 d6; rw [a5] at a6; rw [b5] at b6; rw [d5] at d6; clear a5 b5 d5
      have l1 : Lk H6 l l := by unfold Lk; rw [a6, b6]; simp
      have l2 : Lk H6 r ln := by
        unfold Lk; rw [a6, b6]; simp [upd_apply, Ne.symm hlr, Ne.symm c2, hl]
      have l3 : Lk H6 lp r := by
        unfold Lk; rw [a6, b6]; simp [upd_apply, Ne.symm hlr, hl', Ne.symm c1]
      have l4 : ∀ x y, Lk w.heap x y → y ≠ l → y ≠ r → y ≠ ln → y ≠ rn → Lk H6 x y := by
        intro x y hxy k1 k2 k3 k4
        have j1 : x ≠ l := by rintro rfl; exact k3 (hxy.inj_right h1)
        have j2 : x ≠ r := by rintro rfl; exact k4 (hxy.inj_right h3)
        have j3 : x ≠ lp := by rintro rfl; exact k1 (hxy.inj_right h2)
        unfold Lk; rw [a6, b6]; simp [upd_apply, k1, k2, k3, j1, j2, j3]; exact hxy
      apply wp_checkNode ⟨_, _, l1, l1⟩
      apply wp_checkNode ⟨_, _, l3, l2⟩
      exact hq H6 (fun h => absurd h hl) (fun _ => ⟨l2, l3⟩) (fun _ => l1) (fun h => absurd hr h) l4 d6
    · have hr' : rp ≠ r := fun h => hr (e4 h)
      refine wp_if_pos hr ?_
      simp only [wp_bind]
      rw [wp_getNext h1.1, wp_getNext h3.1]
      apply wp_setNext h1.1; intro H1 a1 b1 d1
      apply wp_setNext (a := rn) (by
        simp only [World.setHeap_heap]; rw [a1, upd_other _ _ (Ne.symm hlr)]; exact h3.1)
      intro H2 a2 b2 d2
      simp only [World.setHeap_heap] at a2 b2 d2; rw [a1] at a2; rw [b1] at b2; rw [d1] at d2; clear a1 b1 d1
      rw [wp_getPrev (a := lp) (by simp only [World.setHeap_heap]; rw [b2]; exact h2.2),
        wp_getPrev (a := rp) (by simp only [World.setHeap_heap]; rw [b2]; exact h4.2)]
      apply wp_setPrev (a := lp) (by simp only [World.setHeap_heap]; rw [b2]; exact h2.2); intro H3 a3 b3 d3
      simp only [World.setHeap_heap] at a3 b3 d3; rw [a2] at a3; rw [b2] at b3; rw [d2] at d3; clear a2 b2 d2
      apply wp_setPrev (a := rp) (by
        simp only [World.setHeap_heap]; rw [b3, upd_other _ _ (Ne.symm hlr)]; exact h4.2)
      intro H4 a4 b4 d4
      simp only [World.setHeap_heap] at a4 b4 d4; rw [a3] at a4; rw [b3] at b4; rw [d3] at d4; clear a3 b3 d3
      rw [wp_getPrev (a := rp) (by simp only [World.setHeap_heap]; rw [b4, upd_other _ _ hlr]; simp)]
      apply wp_setNext (a := r) (by
        simp only [World.setHeap_heap]; rw [a4, upd_other _ _ hr', upd_other _ _ c4]; exact h4.1)
      intro H5 a5 b5 d5
      simp only [World.setHeap_heap] at a5 b5 d5; rw [a4] at a5; rw [b4] at b5; rw [d4] at d5; clear a4 b4 d4
      rw [wp_getNext (a := rn) (by
        simp only [World.setHeap_heap]; rw [a5, upd_other _ _ (Ne.symm c4), upd_other _ _ hlr]; simp)]
      apply wp_setPrev (a := r) (by
        simp only [World.setHeap_heap]; rw [b5, upd_other _ _ hr, upd_other _ _ c3]; exact h3.2)
      intro H6 a6 b6 d6
      simp only [World.setHeap_heap] at a6 b6 d6; rw [a5] at a6; rw [b5] at b6; rw [d5] at d6; clear a5 b5 d5
      rw [wp_getPrev (a := lp) (by
        simp only [World.setHeap_heap]; rw [b6, upd_other _ _ (Ne.symm hr)]; simp)]
      apply wp_setNext (a := l) (by
        simp only [World.setHeap_heap]; rw [a6, upd_other _ _ c6, upd_other _ _ c2, upd_other _ _ hl']; exact h2.1)
      intro H7 a7 b7 d7
      simp only [World.setHeap_heap] at a7 b7 d7; rw [a6] at a7; rw [b6] at b7; rw [d6] at d7; clear a6 b6 d6
      rw [wp_getNext (a := ln) (by
        simp only [World.setHeap_heap]; rw [a7, upd_other _ _ (Ne.symm c2), upd_other _ _ (Ne.symm hr')]; simp)]
      apply wp_setPrev (a := l) (by
        simp only [World.setHeap_heap]; rw [b7, upd_other _ _ c5, upd_other _ _ c1, upd_other _ _ hl]; exact h1.2)
      intro H8 a8 b8 d8
      simp only [World.setHeap_heap] at a8 b8 d8; rw [a7] at a8; rw [b7] at b8; rw [d7] at d8; clear a7 b7 d7
      have l1 : Lk H8 l rn := by
        unfold Lk; rw [a8, b8]; simp [upd_apply, hlr, Ne.symm c4, Ne.symm hl', Ne.symm c5]
      have l2 : Lk H8 rp l := by
        unfold Lk; rw [a8, b8]; simp [upd_apply, hlr, Ne.symm c6, Ne.symm hl, Ne.symm c3]
      have l3 : Lk H8 r ln := by
        unfold Lk; rw [a8, b8]; simp [upd_apply, Ne.symm hr', Ne.symm c2]
      have l4 : Lk H8 lp r := by
        unfold Lk; rw [a8, b8]; simp [upd_apply, Ne.symm hr, Ne.symm c1]
      have l5 : ∀ x y, Lk w.heap x y → y ≠ l → y ≠ r → y ≠ ln → y ≠ rn → Lk H8 x y := by
        intro x y hxy k1 k2 k3 k4
        have j1 : x ≠ l := by rintro rfl; exact k3 (hxy.inj_right h1)
        have j2 : x ≠ r := by rintro rfl; exact k4 (hxy.inj_right h3)
        have j3 : x ≠ lp := by rintro rfl; exact k1 (hxy.inj_right h2)
        have j4 : x ≠ rp := by rintro rfl; exact k2 (hxy.inj_right h4)
        unfold Lk; rw [a8, b8]; simp [upd_apply, k1, k2, k3, k4, j1, j2, j3, j4]; exact hxy
      apply wp_checkNode ⟨_, _, l2, l1⟩
      apply wp_checkNode ⟨_, _, l4, l3⟩
      exact hq H8 (fun h => absurd h hl) (fun _ => ⟨l3, l4⟩) (fun h => absurd h hr) (fun _ => ⟨l1, l2⟩) l5 d8

end Nestl.LL
