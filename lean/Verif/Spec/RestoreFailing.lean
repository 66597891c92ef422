import Verif.Jmt.RestoreFailing
import Verif.Spec.Restore
/-! Specification of the outcome of a call on a store that cannot be written at times. -/

set_option autoImplicit false

namespace Verif.Jmt
variable {D : Type}

/-- The outcome (`none` for `Ok`) of a call that has the outcome `o` on a store that can be written. -/
def Attempt.outcome (a : Attempt D) (o : Option String) : Option String :=
  if a.up = true then o else o.or (some Restore.downError)

end Verif.Jmt
