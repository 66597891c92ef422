import Verif.Jmt.NodeType
/-!
Model of `/repo/jmt/src/types/proof/definition.rs`.
-/

set_option autoImplicit false

namespace Verif.Jmt
variable {D : Type}

/-- `definition.rs:22-40` `SparseMerkleProof` (`SparseMerkleLeafNode` has the fields of `LeafNode`). -/
structure SparseMerkleProof (D : Type) where
  leaf : Option (LeafNode D)
  siblings : List D
deriving DecidableEq

namespace SparseMerkleProof

/-- `definition.rs:154-156`: the hash the fold starts with. -/
def startHash (H : Hasher D) (p : SparseMerkleProof D) : D :=
  match p.leaf with
  | none => H.placeholder
  | some l => l.hash H

/-- `definition.rs:157-173` and `190-208`: the fold over
`siblings.iter().zip(key.iter_bits().rev().skip(256 - siblings.len()))`. -/
def foldUp (H : Hasher D) (siblings : List D) (key : Key) (h : D) : D :=
  (siblings.zip (key.bits.reverse.drop (256 - siblings.length))).foldl
    (fun hash (sb : D × Bool) => if sb.2 then H.node sb.1 hash else H.node hash sb.1) h

/-- `definition.rs:114-152`: the checks made on the leaf of the proof. -/
def checkLeaf (H : Hasher D) [DecidableEq D] (p : SparseMerkleProof D) (key : Key) (value : Option Value) : Res Unit :=
  match value, p.leaf with
  | some v, some l => do
    ensure (decide (key = l.keyHash)) "Keys do not match."
    ensure (decide (H.value v = l.valueHash)) "Value hashes do not match."
  | some _, none => .error (.err "Expected inclusion proof. Found non-inclusion proof.")
  | none, some l => do
    ensure (decide (key ≠ l.keyHash)) "Expected non-inclusion proof, but key exists in proof."
    ensure (decide (p.siblings.length ≤ key.commonPrefixBitsLen l.keyHash)) "Key would not have ended up in the subtree"
  | none, none => .ok ()

/-- `definition.rs:98-183` `verify` (`verify_existence` and `verify_nonexistence`, 72-92, are the calls with
`some`/`none`). -/
def verify (H : Hasher D) [DecidableEq D] (p : SparseMerkleProof D) (root : D) (key : Key) (value : Option Value) : Res Unit := do
  ensure (decide (p.siblings.length ≤ 256)) "Sparse Merkle Tree proof has more than 256 siblings."
  p.checkLeaf H key value
  ensure (decide (foldUp H p.siblings key (p.startHash H) = root)) "Root hashes do not match."

/-- `definition.rs:185-210` `root_hash`: panics without a leaf; `256 - siblings.len()` panics on underflow. -/
def rootHash (H : Hasher D) (p : SparseMerkleProof D) : Res D :=
  match p.leaf with
  | none => .error (.panic "need leaf hash for root_hash")
  | some l =>
    if p.siblings.length ≤ 256 then .ok (foldUp H p.siblings l.keyHash (l.hash H))
    else .error (.panic "attempt to subtract with overflow")

end SparseMerkleProof

/-- `definition.rs:243-247` `SparseMerkleRangeProof`. -/
structure SparseMerkleRangeProof (D : Type) where
  rightSiblings : List D
deriving DecidableEq

namespace SparseMerkleRangeProof

/-- `definition.rs:275-300` the loop of `verify`, over the remaining bits (bottom first). -/
def verifyLoop (H : Hasher D) : List Bool → List D → List D → D → Res D
  | [], _, _, h => .ok h
  | true :: bits, l :: left, right, h => verifyLoop H bits left right (H.node l h)
  | true :: _, [], _, _ => .error (.err "Missing left sibling.")
  | false :: bits, left, r :: right, h => verifyLoop H bits left right (H.node h r)
  | false :: _, _, [], _ => .error (.err "Missing right sibling.")

/-- `definition.rs:265-309` `verify`; `256 - num_siblings` panics on underflow. -/
def verify (H : Hasher D) [DecidableEq D] (p : SparseMerkleRangeProof D) (root : D) (leaf : LeafNode D) (leftSiblings : List D) :
    Res Unit :=
  let num := leftSiblings.length + p.rightSiblings.length
  if num ≤ 256 then do
    let h ← verifyLoop H (leaf.keyHash.bits.reverse.drop (256 - num)) leftSiblings p.rightSiblings (leaf.hash H)
    ensure (decide (h = root)) "Root hashes do not match."
  else .error (.panic "attempt to subtract with overflow")

end SparseMerkleRangeProof

end Verif.Jmt
