import Verif.Spec.Ics23
import Verif.Spec.Smt
import Verif.Jmt.Bytes
/-!
The byte strings hashed by the two computations that an ICS23 soundness statement compares: the evaluation of a proof, and the tree.
(See `Spec/Smt.lean` on why the inputs are named.)
-/

set_option autoImplicit false

namespace Verif.Spec
open Verif.Jmt Verif.Ics23

/-- The value at the top of a path of inner operations. -/
def evalPath (sha : List UInt8 → Key) (path : List InnerOp) (h : Key) : Key :=
  path.foldl (fun h op => sha (op.pre ++ h.bytes ++ op.suf)) h

/-- The byte strings hashed on a path. -/
def pathHashed (sha : List UInt8 → Key) : List InnerOp → Key → List Bytes
  | [], _ => []
  | op :: path, h => (op.pre ++ h.bytes ++ op.suf) :: pathHashed sha path (sha (op.pre ++ h.bytes ++ op.suf))

/-- The byte strings hashed for the nodes of an existence proof with leaf prefix `pre`. -/
def proofHashed (sha : List UInt8 → Key) (pre : Bytes) (p : ExistenceProof) : List Bytes :=
  (pre ++ (sha p.key).bytes ++ (sha p.value).bytes) :: pathHashed sha p.path (sha (pre ++ (sha p.key).bytes ++ (sha p.value).bytes))

/-- The byte strings hashed for the nodes of an existence proof. -/
def existHashed (sha : List UInt8 → Key) (p : ExistenceProof) : List Bytes :=
  match p.leaf with
  | none => []
  | some l => proofHashed sha l.pre p

/-- The byte strings hashed for the nodes of a non-existence proof. -/
def nonexistHashed (sha : List UInt8 → Key) (p : NonExistenceProof) : List Bytes :=
  (p.left.toList ++ p.right.toList).flatMap (existHashed sha)

/-- The byte string hashed for a node. -/
def nodeBytes : HashInput Key → Bytes
  | .leaf k v => leafBytes k v
  | .node a b => internalBytes a b

/-- The byte strings hashed for the nodes of the sparse Merkle tree over `L`. -/
def treeHashed (sha : List UInt8 → Key) (L : List (Key × Key)) : List Bytes :=
  (smtInputs (byteHasher sha sha) 256 L).map nodeBytes

/-- A collision of `sha` between a member of `xs` and one of `ys`, or a member of one of them hashing to the placeholder. -/
def ByteClash (sha : List UInt8 → Key) (xs ys : List Bytes) : Prop :=
  (∃ x ∈ xs, ∃ y ∈ ys, x ≠ y ∧ sha x = sha y) ∨ ∃ x ∈ xs ++ ys, sha x = placeholderBytes

end Verif.Spec
