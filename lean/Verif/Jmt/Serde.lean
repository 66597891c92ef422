import Verif.Common.Serde
import Verif.Jmt.NibblePath
import Verif.Jmt.Proof
import Verif.Jmt.Store
/-!
Model of the derived `Serialize` and `Deserialize` of the types of `/repo/jmt/src`, in the format of `serde_json`: `lib.rs:155-210`, `304-305`,
`node_type.rs:36-56`, `105-123`, `140-162`, `187-204`, `305-328`, `699-715`, `755-766`, `types/nibble.rs:21-22`, `types/nibble/nibble_path.rs:19-41`,
`types/proof.rs:44-59`, `types/proof/definition.rs:18-41`, `236-250`. Digests are 32 bytes (`D = Key`). Numbers are written as they are; those of
Rust are below 2^64. A structure of one unnamed field is written as the field.

For `SparseMerkleProof<H>`, serde derives the implementations under the condition that `H` has them, too (only `PhantomData<H>` itself is
exempt); the model is that of such an `H`.
-/

set_option autoImplicit false

namespace Verif.Jmt

open Verif.Serde

/-- `lib.rs:155-158`, `168-182`, `191-207`: `[u8; 32]`, `RootHash`, `KeyHash`, `ValueHash`. -/
def writeHash (k : Key) : Serde.Value := writeBytes k.bytes

/-- `[u8; 32]`, `RootHash`, `KeyHash`, `ValueHash`. -/
def readHash (v : Serde.Value) : Res Key := do
  let r ← readArray readByte 32 v
  pure ⟨r.val, r.property⟩

/-- `types/nibble.rs:21-22` `Nibble`: the number, which `Nibble::from` (`24-29`) would check. -/
def readNibble (v : Serde.Value) : Res UInt8 := readByte v

/-- `types/nibble/nibble_path.rs:19-41` `NibblePath`. -/
def writePath (p : NibblePath) : Serde.Value := .obj [("num_nibbles", .num p.numNibbles), ("bytes", writeBytes p.bytes)]

/-- `NibblePath`. -/
def readPath (v : Serde.Value) : Res NibblePath := do
  match ← readFields [("num_nibbles", false), ("bytes", false)] v with
  | [n, b] => pure ⟨← readU64 n, ← readBytes b⟩
  | _ => .error (.err "invalid length")

/-- `node_type.rs:36-56` `NodeKey`, with the packed path. -/
def writeNodeKey (x : Version × NibblePath) : Serde.Value := .obj [("version", .num x.1), ("nibble_path", writePath x.2)]

/-- `NodeKey`. -/
def readNodeKey (v : Serde.Value) : Res (Version × NibblePath) := do
  match ← readFields [("version", false), ("nibble_path", false)] v with
  | [n, p] => pure (← readU64 n, ← readPath p)
  | _ => .error (.err "invalid length")

/-- `node_type.rs:105-123` `NodeType`. -/
def writeNodeType : NodeType → Serde.Value
  | .leaf => .str "Leaf"
  | .internalLegacy => .str "InternalLegacy"
  | .internal n => .obj [("Internal", .obj [("leaf_count", .num n)])]

/-- `NodeType`: a variant without contents may also be an object with `null`. -/
def readNodeType : Serde.Value → Res NodeType
  | .str s => if s = "Leaf" then .ok .leaf else if s = "InternalLegacy" then .ok .internalLegacy else .error (.err "unknown variant")
  | .obj [(name, c)] =>
    if name = "Leaf" then do
      readUnit c
      pure .leaf
    else if name = "InternalLegacy" then do
      readUnit c
      pure .internalLegacy
    else if name = "Internal" then do
      match ← readFields [("leaf_count", false)] c with
      | [n] => pure (.internal (← readU64 n))
      | _ => .error (.err "invalid length")
    else .error (.err "unknown variant")
  | _ => .error (.err "invalid type")

/-- `node_type.rs:140-162` `Child`. -/
def writeChild (c : Child Key) : Serde.Value :=
  .obj [("hash", writeHash c.hash), ("version", .num c.version), ("node_type", writeNodeType c.nodeType)]

/-- `Child`. -/
def readChild (v : Serde.Value) : Res (Child Key) := do
  match ← readFields [("hash", false), ("version", false), ("node_type", false)] v with
  | [h, n, t] => pure ⟨← readHash h, ← readU64 n, ← readNodeType t⟩
  | _ => .error (.err "invalid length")

/-- `node_type.rs:187-204` `Children`. -/
def writeChildren (c : Children Key) : Serde.Value :=
  .obj [("children", .seq (List.ofFn (fun i : Nibble => writeOption writeChild (c.children i)))), ("num_children", .num c.numChildren)]

/-- `Children`. -/
def readChildren (v : Serde.Value) : Res (Children Key) := do
  match ← readFields [("children", false), ("num_children", false)] v with
  | [c, n] => do
    let cs ← readArray (readOption readChild) 16 c
    pure ⟨fun i => cs.val[i.val]'(by have := cs.property; omega), ← readU64 n⟩
  | _ => .error (.err "invalid length")

/-- `node_type.rs:305-328` `InternalNode`. -/
def writeInternalNode (n : InternalNode Key) : Serde.Value :=
  .obj [("children", writeChildren n.children), ("leaf_count", writeOption .num n.leafCount), ("leaf_count_migration", .bool n.leafCountMigration)]

/-- `InternalNode`. -/
def readInternalNode (v : Serde.Value) : Res (InternalNode Key) := do
  match ← readFields [("children", false), ("leaf_count", true), ("leaf_count_migration", false)] v with
  | [c, n, m] => pure ⟨← readChildren c, ← readOption readU64 n, ← readBool m⟩
  | _ => .error (.err "invalid length")

/-- `node_type.rs:699-715` `LeafNode`, `types/proof.rs:44-59` `SparseMerkleLeafNode`. -/
def writeLeafNode (l : LeafNode Key) : Serde.Value := .obj [("key_hash", writeHash l.keyHash), ("value_hash", writeHash l.valueHash)]

/-- `LeafNode`, `SparseMerkleLeafNode`. -/
def readLeafNode (v : Serde.Value) : Res (LeafNode Key) := do
  match ← readFields [("key_hash", false), ("value_hash", false)] v with
  | [k, x] => pure ⟨← readHash k, ← readHash x⟩
  | _ => .error (.err "invalid length")

/-- `node_type.rs:755-766` `Node`. -/
def writeNode : Node Key → Serde.Value
  | .null => .str "Null"
  | .internal n => .obj [("Internal", writeInternalNode n)]
  | .leaf l => .obj [("Leaf", writeLeafNode l)]

/-- `Node`. -/
def readNode : Serde.Value → Res (Node Key)
  | .str s => if s = "Null" then .ok .null else .error (.err "unknown variant")
  | .obj [(name, c)] =>
    if name = "Null" then do
      readUnit c
      pure .null
    else if name = "Internal" then do
      pure (.internal (← readInternalNode c))
    else if name = "Leaf" then do
      pure (.leaf (← readLeafNode c))
    else .error (.err "unknown variant")
  | _ => .error (.err "invalid type")

/-- `types/proof/definition.rs:18-41` `SparseMerkleProof`; `PhantomHasher` (`lib.rs:304-305`) is written as `null`. -/
def writeProof (p : SparseMerkleProof Key) : Serde.Value :=
  .obj [("leaf", writeOption writeLeafNode p.leaf), ("siblings", .seq (p.siblings.map writeHash)), ("phantom_hasher", .null)]

/-- `SparseMerkleProof`. -/
def readProof (v : Serde.Value) : Res (SparseMerkleProof Key) := do
  match ← readFields [("leaf", true), ("siblings", false), ("phantom_hasher", false)] v with
  | [l, s, h] => do
    let leaf ← readOption readLeafNode l
    let siblings ← readVec readHash s
    readUnit h
    pure ⟨leaf, siblings⟩
  | _ => .error (.err "invalid length")

/-- `types/proof/definition.rs:236-250` `SparseMerkleRangeProof`. -/
def writeRangeProof (p : SparseMerkleRangeProof Key) : Serde.Value := .obj [("right_siblings", .seq (p.rightSiblings.map writeHash))]

/-- `SparseMerkleRangeProof`. -/
def readRangeProof (v : Serde.Value) : Res (SparseMerkleRangeProof Key) := do
  match ← readFields [("right_siblings", false)] v with
  | [s] => pure ⟨← readVec readHash s⟩
  | _ => .error (.err "invalid length")

end Verif.Jmt
