import Verif.Jmt.Hash
/-!
Byte level of the node hashes: `/repo/jmt/src/types/proof.rs`. A digest is 32 bytes, like a key.
-/

set_option autoImplicit false

namespace Verif.Jmt

/-- `types/proof.rs:17` `LEAF_DOMAIN_SEPARATOR = b"JMT::LeafNode"`. -/
def leafDomainSeparator : List UInt8 := [74, 77, 84, 58, 58, 76, 101, 97, 102, 78, 111, 100, 101]

/-- `types/proof.rs:18` `INTERNAL_DOMAIN_SEPARATOR = b"JMT::IntrnalNode"`. -/
def internalDomainSeparator : List UInt8 := [74, 77, 84, 58, 58, 73, 110, 116, 114, 110, 97, 108, 78, 111, 100, 101]

/-- `types/proof.rs:73-81`: the bytes fed to the hash function by `SparseMerkleLeafNode::hash`. -/
def leafBytes (key valueHash : Key) : List UInt8 := leafDomainSeparator ++ key.bytes ++ valueHash.bytes

/-- `types/proof.rs:33-42`: the bytes fed to the hash function by `SparseMerkleInternalNode::hash`. -/
def internalBytes (left right : Key) : List UInt8 := internalDomainSeparator ++ left.bytes ++ right.bytes

/-- `lib.rs:147` `SPARSE_MERKLE_PLACEHOLDER_HASH = *b"SPARSE_MERKLE_PLACEHOLDER_HASH__"`. -/
def placeholderBytes : Key :=
  ⟨[83, 80, 65, 82, 83, 69, 95, 77, 69, 82, 75, 76, 69, 95, 80, 76, 65, 67, 69, 72, 79, 76, 68, 69, 82, 95, 72, 65, 83, 72, 95, 95], rfl⟩

/-- The node hashes built from one function on byte strings (`sha`, Rust: SHA-256) and the value hash (`valueHash`,
Rust: the hasher `H`). -/
def byteHasher (sha : List UInt8 → Key) (valueHash : Value → Key) : Hasher Key :=
  ⟨placeholderBytes, fun k v => sha (leafBytes k v), fun a b => sha (internalBytes a b), valueHash⟩

end Verif.Jmt
