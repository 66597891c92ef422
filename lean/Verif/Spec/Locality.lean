import Verif.Jmt.Key
/-! Positions of nodes that an update of a key may change. -/

set_option autoImplicit false

namespace Verif.Spec
open Verif.Jmt

/-- `p` is a position on the path from the root to the key `k`, or right beside this path. -/
def Beside (p : List Nibble) (k : Key) : Prop := ∃ q, q <+: k.nibbles ∧ (p = q ∨ ∃ i, p = q ++ [i])

end Verif.Spec
