import Verif.Spec.History
/-!
A condition on value sets: no set deletes a key after it has itself emptied the map.
-/

set_option autoImplicit false

namespace Verif.Spec
open Verif.Jmt

/-- A deletion in a set on top of `f` is made only while something is stored, or before the set has stored anything. -/
def SteadySet (f : Key → Option Value) (s : Updates) : Prop :=
  ∀ a k b, s = a ++ (k, none) :: b → (∃ k' v, applyUpdates f a k' = some v) ∨ ((∀ k', f k' = none) ∧ ∀ e ∈ a, e.2 = none)

/-- Every set is steady on top of what was stored before it. -/
def Steady (f : Key → Option Value) : List Updates → Prop
  | [] => True
  | s :: l => SteadySet f s ∧ Steady (applyUpdates f s) l

end Verif.Spec
