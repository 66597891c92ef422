import Verif.Jmt.Read
/-!
Model of the remaining functions of `VersionedTrie` (`/repo/jmt/src/trie.rs`, implemented in `tree.rs:62-105`). `get` is in `Jmt/Read`,
`iter` in `Jmt/Iterator`, `len`, `is_empty` and `version` in `Jmt/Db`.
-/

set_option autoImplicit false

namespace Verif.Jmt
namespace Tree
variable {D : Type}

/-- `trie.rs:17-19` `contains`. -/
def contains (r : Reader D) (key : Key) (version : Version) : Bool := (get r key version).isSome

/-- `tree.rs:71-73` `get_proof`. -/
def getProof (H : Hasher D) (r : Reader D) (key : Key) (version : Version) : Res (SparseMerkleProof D) := do
  let (_, p) ← getWithProof H r key version
  pure p

/-- `tree.rs:75-84` `verify_proof`: the value is not given but read at `version`. -/
def verifyProof (H : Hasher D) [DecidableEq D] (r : Reader D) (key : Key) (version : Version) (root : D) (p : SparseMerkleProof D) :
    Res Unit := do
  let (value, _) ← getWithProof H r key version
  p.verify H root key value

end Tree
end Verif.Jmt
