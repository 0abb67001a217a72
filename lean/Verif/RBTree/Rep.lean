import Verif.RBTree.Model
/-
Representation predicates: abstract trees, zipper contexts, and how memory represents them.
-/
namespace Nestl.RB
variable {K : Type}

/-- Left or right. -/
inductive Side | L | R
deriving DecidableEq, Repr

def Side.other : Side → Side
  | .L => .R
  | .R => .L

@[simp] theorem Side.other_other (s : Side) : s.other.other = s := by cases s <;> rfl

/-- Abstract tree with the address of every node. -/
inductive T (K : Type)
  | nil
  | node (p : Ptr) (c : Color) (l : T K) (k : K) (r : T K)

def T.ptr : T K → Ptr
  | .nil => .null
  | .node p _ _ _ _ => p

/-- In-order list of (address, key). -/
def T.nodes : T K → List (Ptr × K)
  | .nil => []
  | .node p _ l k r => l.nodes ++ (p, k) :: r.nodes

def T.ptrs (t : T K) : List Ptr := t.nodes.map Prod.fst

/-- Node with the `s`-side child first. -/
def mk (s : Side) (p : Ptr) (c : Color) (a : T K) (k : K) (b : T K) : T K :=
  match s with
  | .L => .node p c a k b
  | .R => .node p c b k a

@[simp] theorem mk_ptr (s : Side) (p c) (a : T K) (k b) : (mk s p c a k b).ptr = p := by cases s <;> rfl

theorem mk_other (s : Side) (p c) (a : T K) (k b) : mk s.other p c a k b = mk s p c b k a := by
  cases s <;> rfl

/-- Node cell with the `s`-side child first. -/
def cellS (s : Side) (c : Color) (par x y : Ptr) (k : K) (o : Nat) : TNode K :=
  match s with
  | .L => ⟨c, par, x, y, some k, o, 0⟩
  | .R => ⟨c, par, y, x, some k, o, 0⟩

def TNode.child (n : TNode K) : Side → Ptr
  | .L => n.left
  | .R => n.right

def TNode.setChild (n : TNode K) (s : Side) (q : Ptr) : TNode K :=
  match s with
  | .L => { n with left := q }
  | .R => { n with right := q }

section cell
variable (s : Side) (c : Color) (par x y : Ptr) (k : K) (o : Nat) (q : Ptr) (c' : Color)
@[simp] theorem cellS_color : (cellS s c par x y k o).color = c := by cases s <;> rfl
@[simp] theorem cellS_parent : (cellS s c par x y k o).parent = par := by cases s <;> rfl
@[simp] theorem cellS_val : (cellS s c par x y k o).val = some k := by cases s <;> rfl
@[simp] theorem cellS_owner : (cellS s c par x y k o).owner = o := by cases s <;> rfl
@[simp] theorem cellS_child : (cellS s c par x y k o).child s = x := by cases s <;> rfl
@[simp] theorem cellS_child_other : (cellS s c par x y k o).child s.other = y := by cases s <;> rfl
@[simp] theorem cellS_setChild : (cellS s c par x y k o).setChild s q = cellS s c par q y k o := by cases s <;> rfl
@[simp] theorem cellS_setChild_other :
    (cellS s c par x y k o).setChild s.other q = cellS s c par x q k o := by cases s <;> rfl
theorem cellS_other : cellS s.other c par x y k o = cellS s c par y x k o := by cases s <;> rfl
end cell

/-- Memory represents the tree `t` whose root has parent `par`; all nodes are owned by allocator `o`. -/
def Rep (H : Ptr → Option (TNode K)) (o : Nat) : Ptr → T K → Prop
  | _, .nil => True
  | par, .node p c l k r =>
      H p = some (cellS .L c par l.ptr r.ptr k o) ∧ Rep H o p l ∧ Rep H o p r

@[simp] theorem Rep_nil (H : Ptr → Option (TNode K)) (o par) : Rep H o par .nil ↔ True := Iff.rfl

theorem Rep_mk {H : Ptr → Option (TNode K)} {o par s p c a k b} :
    Rep H o par (mk s p c a k b) ↔
      H p = some (cellS s c par a.ptr b.ptr k o) ∧ Rep H o p a ∧ Rep H o p b := by
  cases s
  · rfl
  · show (H p = some (cellS .L c par b.ptr a.ptr k o) ∧ Rep H o p b ∧ Rep H o p a) ↔ _
    rw [← cellS_other .L]
    constructor
    · rintro ⟨h1, h2, h3⟩; exact ⟨h1, h3, h2⟩
    · rintro ⟨h1, h2, h3⟩; exact ⟨h1, h3, h2⟩

theorem Rep_congr {H H' : Ptr → Option (TNode K)} {o} {t : T K} {par}
    (h : ∀ p ∈ t.ptrs, H' p = H p) (hr : Rep H o par t) : Rep H' o par t := by
  induction t generalizing par with
  | nil => trivial
  | node p c l k r ihl ihr =>
    obtain ⟨h1, h2, h3⟩ := hr
    simp only [T.ptrs, T.nodes, List.map_append, List.map_cons, List.mem_append, List.mem_cons] at h
    refine ⟨?_, ihl (fun q hq => h q (Or.inl hq)) h2, ihr (fun q hq => h q (Or.inr (Or.inr hq))) h3⟩
    rw [h p (Or.inr (Or.inl rfl)), h1]

/-- Every address of a represented tree is allocated. -/
theorem Rep_alloc {H : Ptr → Option (TNode K)} {o} {t : T K} {par} (hr : Rep H o par t) :
    ∀ p ∈ t.ptrs, ∃ n, H p = some n ∧ n.owner = o ∧ n.val.isSome := by
  induction t generalizing par with
  | nil => simp [T.ptrs, T.nodes]
  | node p c l k r ihl ihr =>
    obtain ⟨h1, h2, h3⟩ := hr
    intro q hq
    simp only [T.ptrs, T.nodes, List.map_append, List.map_cons, List.mem_append, List.mem_cons] at hq
    rcases hq with hq | rfl | hq
    · exact ihl h2 q hq
    · exact ⟨_, h1, rfl, rfl⟩
    · exact ihr h3 q hq

/-- One step of a path: the focus is the `s`-side child of node `p`; `sib` is the other child. -/
structure Frame (K : Type) where
  s : Side
  p : Ptr
  c : Color
  k : K
  sib : T K

/-- Contexts are paths, innermost frame first. -/
abbrev Ctx (K : Type) := List (Frame K)

/-- Parent pointer of the focus. -/
def par (hdr : Ptr) : Ctx K → Ptr
  | [] => hdr
  | f :: _ => f.p

@[simp] theorem par_nil (hdr : Ptr) : par hdr ([] : Ctx K) = hdr := rfl
@[simp] theorem par_cons (hdr : Ptr) (f : Frame K) (fs) : par hdr (f :: fs) = f.p := rfl

def plug : Ctx K → T K → T K
  | [], t => t
  | f :: fs, t => plug fs (mk f.s f.p f.c t f.k f.sib)

/-- Nodes before the focus in in-order. -/
def pre : Ctx K → List (Ptr × K)
  | [] => []
  | f :: fs => match f.s with
    | .L => pre fs
    | .R => pre fs ++ f.sib.nodes ++ [(f.p, f.k)]

/-- Nodes after the focus in in-order. -/
def post : Ctx K → List (Ptr × K)
  | [] => []
  | f :: fs => match f.s with
    | .L => (f.p, f.k) :: f.sib.nodes ++ post fs
    | .R => post fs

theorem plug_nodes (ctx : Ctx K) (t : T K) : (plug ctx t).nodes = pre ctx ++ t.nodes ++ post ctx := by
  induction ctx generalizing t with
  | nil => simp [plug, pre, post]
  | cons f fs ih =>
    rw [plug, ih]
    rcases f with ⟨_ | _, p, c, k, sib⟩ <;> simp [pre, post, mk, T.nodes]

/-- Header information that does not change during rebalancing. -/
structure Hd where
  lm : Ptr
  rm : Ptr
  own : Nat
  cnt : Nat

/-- The header cell: rbt.hpp:752-798. -/
def hdCell (hi : Hd) (root : Ptr) : TNode K :=
  { color := .red, parent := root, left := hi.lm, right := hi.rm, val := none, owner := hi.own, count := hi.cnt }

/-- Memory represents the context `ctx` whose hole currently points to `q`. -/
def CtxRep (H : Ptr → Option (TNode K)) (hdr : Ptr) (hi : Hd) : Ctx K → Ptr → Prop
  | [], q => H hdr = some (hdCell hi q)
  | f :: fs, q =>
      H f.p = some (cellS f.s f.c (par hdr fs) q f.sib.ptr f.k hi.own) ∧
      Rep H hi.own f.p f.sib ∧ CtxRep H hdr hi fs f.p

def ctxPtrs (ctx : Ctx K) : List Ptr := (pre ctx ++ post ctx).map Prod.fst

theorem mem_ctxPtrs_cons {f : Frame K} {fs : Ctx K} {q : Ptr} :
    q ∈ ctxPtrs (f :: fs) ↔ q = f.p ∨ q ∈ f.sib.ptrs ∨ q ∈ ctxPtrs fs := by
  rcases f with ⟨_ | _, p, c, k, sib⟩ <;>
    simp only [ctxPtrs, pre, post, T.ptrs, List.map_append, List.map_cons, List.mem_append, List.mem_cons,
      List.map_nil, List.not_mem_nil, List.append_assoc, List.cons_append] <;> grind

@[simp] theorem ctxPtrs_nil : ctxPtrs ([] : Ctx K) = [] := rfl

theorem CtxRep_congr {H H' : Ptr → Option (TNode K)} {hdr hi} {ctx : Ctx K} {q}
    (hh : H' hdr = H hdr) (h : ∀ p ∈ ctxPtrs ctx, H' p = H p) (hr : CtxRep H hdr hi ctx q) :
    CtxRep H' hdr hi ctx q := by
  induction ctx generalizing q with
  | nil => simpa [CtxRep, hh] using hr
  | cons f fs ih =>
    obtain ⟨h1, h2, h3⟩ := hr
    simp only [mem_ctxPtrs_cons] at h
    refine ⟨?_, Rep_congr (fun p hp => h p (Or.inr (Or.inl hp))) h2,
      ih (fun p hp => h p (Or.inr (Or.inr hp))) h3⟩
    rw [h f.p (Or.inl rfl), h1]

theorem plug_rep {H : Ptr → Option (TNode K)} {hdr hi} {ctx : Ctx K} {t : T K} :
    (CtxRep H hdr hi ctx t.ptr ∧ Rep H hi.own (par hdr ctx) t) ↔
      (H hdr = some (hdCell hi (plug ctx t).ptr) ∧ Rep H hi.own hdr (plug ctx t)) := by
  induction ctx generalizing t with
  | nil => simp [plug, CtxRep]
  | cons f fs ih =>
    rw [plug, ← ih, Rep_mk]
    simp only [CtxRep, par_cons, mk_ptr]
    grind

/-- Every subtree position of a tree is a zipper: locate an in-order element. -/
theorem exists_zipper {t : T K} {A B : List (Ptr × K)} {p k}
    (h : t.nodes = A ++ (p, k) :: B) :
    ∃ (ctx : Ctx K) (c : Color) (l r : T K), t = plug ctx (.node p c l k r) ∧
      A = pre ctx ++ l.nodes ∧ B = r.nodes ++ post ctx := by
  suffices H : ∀ (t : T K) (ctx : Ctx K) (A B : List (Ptr × K)),
      (pre ctx ++ t.nodes ++ post ctx) = (pre ctx ++ A) ++ (p, k) :: (B ++ post ctx) →
      ∃ (ctx' : Ctx K) (c : Color) (l r : T K), plug ctx t = plug ctx' (.node p c l k r) ∧
        pre ctx ++ A = pre ctx' ++ l.nodes ∧ B ++ post ctx = r.nodes ++ post ctx' by
    obtain ⟨ctx, c, l, r, h1, h2, h3⟩ := H t [] A B (by simpa [pre, post] using h)
    exact ⟨ctx, c, l, r, by simpa [plug] using h1, by simpa [pre] using h2, by simpa [post] using h3⟩
  intro t
  induction t with
  | nil =>
    intro ctx A B h
    simp only [T.nodes, List.append_nil, List.append_assoc] at h
    have := congrArg List.length h
    simp at this
    omega
  | node q c l k' r ihl ihr =>
    intro ctx A B h
    simp only [List.append_assoc, T.nodes, List.append_cancel_left_eq] at h
    -- h : l.nodes ++ ((q,k') :: r.nodes ++ post ctx) = A ++ (p,k) :: (B ++ post ctx)
    have h' : l.nodes ++ (q, k') :: r.nodes = A ++ (p, k) :: B := by
      have : (l.nodes ++ (q, k') :: r.nodes) ++ post ctx = (A ++ (p, k) :: B) ++ post ctx := by
        simpa using h
      exact List.append_cancel_right this
    rcases List.append_eq_append_iff.1 h' with ⟨X, hA, hr⟩ | ⟨X, hl, hr⟩
    · -- A = l.nodes ++ X, (q,k') :: r.nodes = X ++ (p,k) :: B
      cases X with
      | nil =>
        simp only [List.nil_append, List.cons.injEq, Prod.mk.injEq] at hr
        obtain ⟨⟨rfl, rfl⟩, rfl⟩ := hr
        exact ⟨ctx, c, l, r, rfl, by simp [hA], rfl⟩
      | cons x X =>
        simp only [List.cons_append, List.cons.injEq] at hr
        obtain ⟨rfl, hr⟩ := hr
        obtain ⟨ctx', c', l', r', e1, e2, e3⟩ := ihr (⟨.R, q, c, k', l⟩ :: ctx) X B (by simp [pre, post, hr])
        exact ⟨ctx', c', l', r', by simpa [plug, mk] using e1, by simpa [pre, hA] using e2, by simpa [post] using e3⟩
    · -- l.nodes = A ++ X, X ++ (q,k') :: r.nodes = (p,k) :: B ...
      cases X with
      | nil =>
        simp only [List.nil_append, List.cons.injEq, Prod.mk.injEq] at hr
        obtain ⟨⟨rfl, rfl⟩, rfl⟩ := hr
        exact ⟨ctx, c, l, _, rfl, by simp at hl; simp [hl], rfl⟩
      | cons x X =>
        simp only [List.cons_append, List.cons.injEq] at hr
        obtain ⟨rfl, hr⟩ := hr
        obtain ⟨ctx', c', l', r', e1, e2, e3⟩ := ihl (⟨.L, q, c, k', r⟩ :: ctx) A X (by simp [pre, post, hl])
        exact ⟨ctx', c', l', r', by simpa [plug, mk] using e1, by simpa [pre] using e2, by simpa [post, hr] using e3⟩

end Nestl.RB
