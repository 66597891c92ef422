import Verif.Jmt.Hash
/-!
Specification of what a sequence of updates means, with no tree involved: a map from keys to values.
-/

set_option autoImplicit false

namespace Verif.Spec
open Verif.Jmt

/-- One version's updates: for each key a new value, or `none` to delete it. Later entries win. -/
abbrev Updates := List (Key × Option Value)

/-- The contents of a map after one list of updates. -/
def applyUpdates (m : Key → Option Value) (s : Updates) : Key → Option Value :=
  s.foldl (fun m e k => if k = e.1 then e.2 else m k) m

/-- The contents after a list of versions, starting from the empty map. -/
def contents (sets : List Updates) : Key → Option Value := sets.foldl applyUpdates (fun _ => none)

end Verif.Spec
