import Verif.Jmt.Exclusion
import Verif.Jmt.Bytes
import Verif.Spec.Ics23
/-!
Model of `/repo/jmt/src/tree/ics23_impl.rs`. The hash function of keys, values and nodes is one function `sha` on byte strings
(Rust: the hasher `H`, which has to be SHA-256 for the ICS23 proofs to make sense); a digest is 32 bytes.
-/

set_option autoImplicit false

namespace Verif.Jmt
namespace Tree
open Verif.Ics23

/-- The node hashes, with `KeyHash::with::<H>` and `ValueHash::with::<H>` being `sha`. -/
abbrev shaHasher (sha : List UInt8 → Key) : Hasher Key := byteHasher sha sha

/-- `ics23_impl.rs:34-58`: the inner operation for one sibling, on the side given by the key bit. -/
def toInnerOp (sibling : Key) (bit : Bool) : InnerOp :=
  if bit then ⟨sha256, internalDomainSeparator ++ sibling.bytes, []⟩
  else ⟨sha256, internalDomainSeparator, sibling.bytes⟩

/-- `ics23_impl.rs:68-74` and `234-240`: the leaf operation. -/
def toLeafOp : LeafOp := ⟨sha256, sha256, sha256, noPrefix, leafDomainSeparator⟩

/-- `ics23_impl.rs:16-76` `sparse_merkle_proof_to_ics23_existence_proof`. The two loops run over the key bits from the last to the
first, skipping the first `256 - siblings.len()` of them (a subtraction that panics on underflow). -/
def toExistenceProof (sha : List UInt8 → Key) (key : Bytes) (value : Value) (p : SparseMerkleProof Key) : Res ExistenceProof :=
  if p.siblings.length ≤ 256 then
    .ok ⟨key, value, some toLeafOp,
      (p.siblings.zip ((sha key).bits.reverse.drop (256 - p.siblings.length))).map (fun sb => toInnerOp sb.1 sb.2)⟩
  else .error (.panic "attempt to subtract with overflow")

/-- The block repeated in `ics23_impl.rs:90-187`: one neighbour's inclusion proof with the key's preimage and value. (Two of the four
copies read the value before the preimage; this decides only which of two errors is reported.)
`preimage` is the reader's `HasPreimage::preimage`. -/
def toNeighbour (sha : List UInt8 → Key) (r : Reader Key) (preimage : Key → Option Bytes) (version : Version) (p : SparseMerkleProof Key) :
    Res ExistenceProof :=
  match p.leaf with
  | none => .error (.panic "must have leaf")
  | some l =>
    match preimage l.keyHash with
    | none => .error (.err "missing preimage for key hash")
    | some key =>
      match Tree.get r l.keyHash version with
      | none => .error (.err "missing value for key hash")
      | some value => toExistenceProof sha key value p

/-- `ics23_impl.rs:83-189` `exclusion_proof_to_ics23_nonexistence_proof`. -/
def toNonExistenceProof (sha : List UInt8 → Key) (r : Reader Key) (preimage : Key → Option Bytes) (key : Bytes) (version : Version) :
    ExclusionProof Key → Res NonExistenceProof
  | .leftmost right => do
    let r' ← toNeighbour sha r preimage version right
    pure ⟨key, none, some r'⟩
  | .middle right left => do
    let r' ← toNeighbour sha r preimage version right
    let l' ← toNeighbour sha r preimage version left
    pure ⟨key, some l', some r'⟩
  | .rightmost left => do
    let l' ← toNeighbour sha r preimage version left
    pure ⟨key, some l', none⟩

/-- `ics23_impl.rs:194-229` `get_with_ics23_proof`. -/
def getWithIcs23Proof (sha : List UInt8 → Key) (r : Reader Key) (preimage : Key → Option Bytes) (key : Bytes) (version : Version) :
    Res (Option Value × CommitmentProof) := do
  match ← getWithExclusionProof (shaHasher sha) r (sha key) version with
  | .present value proof => do
    let p ← toExistenceProof sha key value proof
    pure (some value, .exist p)
  | .absent proof => do
    let p ← toNonExistenceProof sha r preimage key version proof
    pure (none, .nonexist p)

/-- `ics23_impl.rs:232-253` `ics23_spec`. -/
def ics23Spec : ProofSpec where
  leafSpec := toLeafOp
  innerSpec :=
    { childOrder := [0, 1]
      childSize := 32
      minPrefixLength := internalDomainSeparator.length
      maxPrefixLength := internalDomainSeparator.length
      emptyChild := placeholderBytes.bytes
      hash := sha256 }
  maxDepth := 64
  minDepth := 0
  prehashKeyBeforeComparison := true

end Tree
end Verif.Jmt
