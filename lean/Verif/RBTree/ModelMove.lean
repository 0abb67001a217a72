import Verif.RBTree.ModelExtra
set_option autoImplicit false
/-
More of red_black_tree.hpp (`rbt.hpp`): move construction with a given allocator.

`rb_tree(rb_tree&&, node_allocator&&)` uses `s_always_equal`, which the library does not define, and `m_move_data(x, false_type)`
calls `m_copy` without the error argument it requires; both are modelled by intent.  The allocators are taken not to be equal
always (`eq_t` is `false_type`), and the missing argument is an error object that is empty on entry.
-/
namespace Nestl.RB
variable {K : Type}

/-- `m_move_data(x, std::false_type)`: rbt.hpp:1366-1381. -/
def moveDataAny (hdr src : Ptr) : M (W K) Unit := do
  if (← rd hdr).owner = (← rd src).owner then
    moveData hdr src
  else
    setParent hdr (← mCopy hdr (← rd src).parent hdr)
    setLeft hdr (← sMinimum (← rd hdr).parent)
    setRight hdr (← sMaximum (← rd hdr).parent)
    let c := (← rd src).count
    setCount hdr (fun _ => c)

/-- `rb_tree(rb_tree&& x, node_allocator&& a)`: rbt.hpp:1018-1024, 1338-1347. -/
def moveCtorAlloc (a : Nat) (src : Ptr) : M (W K) Ptr := do
  let hdr ← newTree a
  if (← rd src).parent ≠ .null then
    moveDataAny hdr src
  pure hdr

end Nestl.RB
