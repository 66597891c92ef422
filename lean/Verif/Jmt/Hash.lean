import Verif.Jmt.Key
/-!
Hashing interface of the Jellyfish Merkle tree.

All theorems quantify over an arbitrary `Hasher D`. Rust's digest type is `[u8; 32]` for `D`.
-/

set_option autoImplicit false

namespace Verif.Jmt

/-- `lib.rs` `OwnedValue = Vec<u8>`. -/
abbrev Value := List UInt8

/-- The hash computations used by the tree, over an arbitrary digest type `D`:
* `placeholder`: `lib.rs` `SPARSE_MERKLE_PLACEHOLDER_HASH`;
* `leaf key valueHash`: `types/proof.rs:73-81` `SparseMerkleLeafNode::hash`;
* `node left right`: `types/proof.rs:33-42` `SparseMerkleInternalNode::hash`;
* `value v`: `lib.rs` `ValueHash::with::<H>(v)`. -/
structure Hasher (D : Type) where
  placeholder : D
  leaf : Key → D → D
  node : D → D → D
  value : Value → D

end Verif.Jmt
