import Verif.Jmt.Iterator
/-! Reading one version while the store changes. -/

set_option autoImplicit false

namespace Verif.Spec
open Verif.Jmt
variable {D : Type}

/-- Whatever reader with `P` each call of `next` sees, the calls yield the pairs of the list and then `None`. -/
inductive YieldsAll (P : Reader D → Prop) : Iter D → List (Key × Value) → Prop
  | stop {it : Iter D} (h : ∀ r, P r → it.next r = .ok (none, it)) : YieldsAll P it []
  | step {it it' : Iter D} {e : Key × Value} {l : List (Key × Value)} (h : ∀ r, P r → it.next r = .ok (some (.ok e), it'))
      (hl : YieldsAll P it' l) : YieldsAll P it (e :: l)

end Verif.Spec
