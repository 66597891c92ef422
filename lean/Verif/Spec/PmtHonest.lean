import Verif.Spec.PmtWalk
import Verif.Spec.PmtFormat
/-!
Databases that hold nodes in the encoding of the Yellow Paper, of any tries, and perhaps not all of them.
-/

set_option autoImplicit false

namespace Verif.Pmt.Spec

/-- Every entry is the encoding of a node, under its hash, and not shorter than a hash, except for the root. -/
def Honest (K : Keccak) (root : H256) (db : Db) : Prop :=
  ∀ x b, Stored db x b → K b = x ∧ (∃ i, Yellow.Format false i ∧ b = Yellow.rlp i) ∧ Considered K root b

end Verif.Pmt.Spec
