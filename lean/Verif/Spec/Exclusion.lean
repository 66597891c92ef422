import Verif.Spec.History
/-!
Specification of the neighbours of a key in a map: what a proof of absence by exclusion has to bound.
-/

set_option autoImplicit false

namespace Verif.Spec
open Verif.Jmt

/-- `a` is the greatest key below `k` with a value. -/
structure GreatestBelow (f : Key → Option Value) (k a : Key) : Prop where
  present : (f a).isSome = true
  below : a < k
  greatest : ∀ b, (f b).isSome = true → b < k → b ≤ a

/-- `a` is the least key above `k` with a value. -/
structure LeastAbove (f : Key → Option Value) (k a : Key) : Prop where
  present : (f a).isSome = true
  above : k < a
  least : ∀ b, (f b).isSome = true → k < b → a ≤ b

/-- `q` is the path of `a` up to and including the first nibble in which it differs from `k`. -/
def Parting (k a : Key) (q : List Nibble) : Prop :=
  ∃ p i j, q = p ++ [i] ∧ q <+: a.nibbles ∧ p ++ [j] <+: k.nibbles ∧ i ≠ j

end Verif.Spec
