import Verif.Jmt.Store
/-! Which node keys belong to the tree of a version: everything reached from the root of that version through child records. -/

set_option autoImplicit false

namespace Verif.Spec
open Verif.Jmt
variable {D : Type}

inductive InTree (get : NodeKey → Option (Node D)) (w : Version) : NodeKey → Prop
  | root {n : Node D} : get ⟨w, []⟩ = some n → InTree get w ⟨w, []⟩
  | child {nk : NodeKey} {n : InternalNode D} {i : Nibble} {c : Child D} : InTree get w nk → get nk = some (.internal n) →
      n.child i = some c → InTree get w ⟨c.version, nk.path ++ [i]⟩

end Verif.Spec
