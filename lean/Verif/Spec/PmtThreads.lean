import Verif.Pmt.Threads
import Verif.Spec.PmtMap
/-!
Words for threads that share a database.
-/

set_option autoImplicit false

namespace Verif.Pmt.Spec

/-- Keys and values are of sizes that fit into memory. -/
def FitsAsk : Ask → Prop
  | .op o => Fits o
  | _ => True

/-- No call of `get_proof`. -/
def NoProofAsk : Ask → Prop
  | .op o => NoProof o
  | _ => True

/-- The meaning of one call of a thread; reading changes nothing. -/
def stepAsk (s : State) : Ask → State
  | .op o => step s o
  | _ => s

/-- All calls of the thread have ended. -/
def Finished (th : Thread) : Prop := th.now = none ∧ th.todo = []

/-- The thread has panicked. -/
def Panicked (th : Thread) : Prop := ∃ e, th.now = some (.ret (.error e))

end Verif.Pmt.Spec
