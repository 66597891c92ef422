import Verif.Jmt.Store
/-! What a store can still read after part of its contents was lost. -/

set_option autoImplicit false

namespace Verif.Spec
open Verif.Jmt

/-- `r` reads some of the nodes and values of `s`, and no others. -/
structure Damaged {D : Type} (r : Reader D) (s : Store D) : Prop where
  node : ∀ nk n, r.getNodeOption nk = some n → s.reader.getNodeOption nk = some n
  value : ∀ v k x, r.getValueOption v k = some x → s.reader.getValueOption v k = some x

end Verif.Spec
