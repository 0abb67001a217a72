import Verif.Base
set_option autoImplicit false
/-
Vocabulary of the properties of the algorithms.
-/
namespace Nestl.Alg

variable {V : Type}

/-- `[first, last)` is a range consisting of the positions `ps`, in this order. -/
inductive Range (next : Ptr → Ptr) : Ptr → Ptr → List Ptr → Prop
  | nil (p) : Range next p p []
  | cons {p last ps} : p ≠ last → Range next (next p) last ps → Range next p last (p :: ps)

/-- Incrementing from `first` visits the positions `ps`; the position after them is `last`. -/
inductive Path (next : Ptr → Ptr) : Ptr → Ptr → List Ptr → Prop
  | nil (p) : Path next p p []
  | cons {p last ps} : Path next (next p) last ps → Path next p last (p :: ps)

/-- The elements at the positions `ps` are `vs`. -/
def Holds (h : Ptr → Option V) (ps : List Ptr) (vs : List V) : Prop :=
  Ptr.null ∉ ps ∧ ps.map h = vs.map some

/-- `xs` comes before `ys` in the lexicographic order: at the first position where they are not equivalent the element of
`xs` is less, or `xs` is a proper prefix up to equivalence. -/
def LexBefore (lt : V → V → Bool) (xs ys : List V) : Prop :=
  ∃ i, (∀ j x y, j < i → xs[j]? = some x → ys[j]? = some y → lt x y = false ∧ lt y x = false) ∧
    ((∃ x y, xs[i]? = some x ∧ ys[i]? = some y ∧ lt x y = true) ∨ (i = xs.length ∧ i < ys.length)) ∧ i ≤ xs.length ∧ i ≤ ys.length

/-- The next `n` assignments succeed. -/
def CtorsOk (w : World V) (n : Nat) : Prop := ∀ k, k < n → w.env.ctor (w.nCtor + k) = true

/-- Memory `h'` is `h` with the values `vs` written to the positions `qs`. -/
structure Wrote (h : Ptr → Option V) (qs : List Ptr) (vs : List V) (h' : Ptr → Option V) : Prop where
  vals : Holds h' qs vs
  frame : ∀ p, p ∉ qs → h' p = h p

/-- What the copying algorithms do to `w` when they are to write `vs` to the positions `qs` behind `dst`: all of it, or the
elements before the first failing assignment `j`, whose target stays alive. -/
def Copied (nextO : Ptr → Ptr) (dst : Ptr) (qs : List Ptr) (vs : List V) (w : World V) (r : Ptr) (w' : World V) : Prop :=
  w'.env = w.env ∧ w'.sp = w.sp ∧ w'.nAlloc = w.nAlloc ∧
  ((w'.err = none ∧ CtorsOk w vs.length ∧ w'.nCtor = w.nCtor + vs.length ∧ Path nextO dst r qs ∧ Wrote w.heap qs vs w'.heap) ∨
   (∃ j u, j < vs.length ∧ CtorsOk w j ∧ w.env.ctor (w.nCtor + j) = false ∧ w'.err = some .ctorFailed ∧
      w'.nCtor = w.nCtor + j + 1 ∧ Path nextO dst r (qs.take j) ∧ qs[j]? = some r ∧
      Wrote w.heap (qs.take (j + 1)) (vs.take j ++ [u]) w'.heap))

end Nestl.Alg
