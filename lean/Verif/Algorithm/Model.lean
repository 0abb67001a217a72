import Verif.Base
set_option autoImplicit false
/-
Model of nestl/algorithm.hpp (below `algorithm.hpp`).

* A memory cell holds one (live) element.
* A position of a forward iterator is the address of its element; a kind of iterators is given by its increment
  `next : Ptr → Ptr` (pointers: the address behind; list and set iterators: the successor; the algorithms only assign to
  elements, so `next` does not change while they run).
* Assignment of an element may fail; its target is then alive, with a value chosen by the environment.
-/
namespace Nestl.Alg

variable {V : Type}

/-- `nestl::class_operations::assign(err, *d, *s)`: nestl/class_operations.hpp:67-73 with
has_exceptions/detail/class_operations.hpp:44-66. -/
def assign (d s : Ptr) : M (World V) Unit := do
  let v ← rd s
  let _ ← rd d
  let junk : V ← fun w => some (.ok (w.env.junk w.nCtor, w))
  if (← tryCtor) then modCell d fun _ => v else modCell d fun _ => junk

/-- `copy_if`: algorithm.hpp:16-34. -/
def copyIf (nextI nextO : Ptr → Ptr) (pred : V → Bool) (first last dst : Ptr) : M (World V) Ptr := do
  if first ≠ last then do
    if pred (← rd first) then do
      assign dst first
      if (← hasErr) then pure dst
      else copyIf nextI nextO pred (nextI first) last (nextO dst)
    else copyIf nextI nextO pred (nextI first) last dst
  else pure dst
partial_fixpoint

/-- `copy`: algorithm.hpp:36-52. -/
def copy (nextI nextO : Ptr → Ptr) (first last dst : Ptr) : M (World V) Ptr := do
  if first ≠ last then do
    assign dst first
    if (← hasErr) then pure dst
    else copy nextI nextO (nextI first) last (nextO dst)
  else pure dst
partial_fixpoint

/-- `equal` with a predicate: algorithm.hpp:54-65, and with `operator==` as predicate: 69-80. -/
def equal (next1 next2 : Ptr → Ptr) (p : V → V → Bool) (first1 last1 first2 : Ptr) : M (World V) Bool := do
  if first1 ≠ last1 then do
    if ¬ p (← rd first1) (← rd first2) then pure false
    else equal next1 next2 p (next1 first1) last1 (next2 first2)
  else pure true
partial_fixpoint

/-- `lexicographical_compare` with a comparison: algorithm.hpp:103-122, and with `operator<` as comparison: 83-101. -/
def lexCompare (next1 next2 : Ptr → Ptr) (lt : V → V → Bool) (first1 last1 first2 last2 : Ptr) : M (World V) Bool := do
  if first1 ≠ last1 ∧ first2 ≠ last2 then do
    if lt (← rd first1) (← rd first2) then pure true
    else if lt (← rd first2) (← rd first1) then pure false
    else lexCompare next1 next2 lt (next1 first1) last1 (next2 first2) last2
  else pure (first1 = last1 ∧ first2 ≠ last2)
partial_fixpoint

end Nestl.Alg
