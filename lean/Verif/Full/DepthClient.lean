import Verif.Full.Client
import Verif.RBTree.ModelDepth
set_option autoImplicit false
/-
The calls of `Verif/Full/Client.lean` on a machine whose call stack has room for `d` activations of the recursive functions
`m_erase` and `m_copy`.
-/
namespace Nestl.Full
open Nestl.RB Nestl.Set Nestl.Multi
variable {K : Type}

/-- The program executed by a call of a set (as `Set.exec`) with room for `d` activations. -/
def execD (lt : K → K → Bool) (d : Nat) : Call K → M (W K) (Res K)
  | .eraseKey s k => do pure (.num (← eraseKeyD lt d s k))
  | .eraseRange s f l => do
      let L ← walkFrom f l
      let r ← eraseRangeD d s f l
      pure (.erasedRange r (L.map Prod.snd))
  | .clear s => do clearD d s; pure .unit
  | .copy prop t s => do copyNothrowD d prop t s; pure .unit
  | .destroy s => do destroyTreeD d s; pure .unit
  | c => exec lt c

/-- As `Multi.mrun`. -/
def mrunD (lt : K → K → Bool) (d : Nat) : MCall K → M (W K) (Res K)
  | .base c => execD lt d c
  | c => mrun lt c

/-- As `Multi.mexec`. -/
def mexecD (lt : K → K → Bool) (d : Nat) (c : MCall K) : M (W K) (MRes K) := do
  let n ← index c
  let r ← mrunD lt d c
  pure ⟨r, n⟩

/-- The program executed by a call (as `fexec`) with room for `d` activations. -/
def fexecD (lt : K → K → Bool) (d : Nat) : FCall K → M (W K) (FRes K)
  | .multi c => do pure (.multi (← mexecD lt d c))
  | .assign prop t s => do pure (.ok (← moveAssignD d prop t s))
  | .eraseKeys s ks => do eraseKeysD lt d s ks; pure .unit
  | c => fexec lt c

end Nestl.Full
