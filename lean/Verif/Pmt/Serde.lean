import Verif.Common.Serde
import Verif.Pmt.Trie
import Mathlib.Data.Finset.Lattice.Fold
import Mathlib.Data.Fintype.Basic
/-!
Model of the serialisation of tries: `/repo/pmt/src/nibbles.rs:171-190`, the derived implementations of `/repo/pmt/src/node.rs` and of
`InnerTrie` (`/repo/pmt/src/inner.rs:26-46`). Enumerations are written with the name of the variant, structures with the names of the fields.
-/

set_option autoImplicit false

namespace Verif.Pmt

open Verif.Serde

/-- `nibbles.rs:171-178` `Nibbles::serialize`. -/
def Nibbles.toSerde (n : Nibbles) : Value := .str (hexEncode (n.map UInt8.ofNat))

/-- `nibbles.rs:180-189` `Nibbles::deserialize`. -/
def Nibbles.ofSerde (v : Value) : Res Nibbles := do
  pure ((← readHex v).map UInt8.toNat)

/-- The derived `Serialize` of `H256` (`/repo/serde_hash/src/lib.rs:8-16`). -/
def H256.toSerde (h : H256) : Value := writeBytes h.bytes

/-- The derived `Deserialize` of `H256`. -/
def H256.ofSerde (v : Value) : Res H256 := do
  let b ← readBytes v
  if h : b.length = 32 then pure ⟨b, h⟩ else .error (.err "invalid length")

/-- The value of a branch: `Option<Vec<u8>>` (`node.rs:80-84`). -/
def writeValue : Option Bytes → Value
  | none => .null
  | some v => writeBytes v

/-- The value of a branch. -/
def readValue : Value → Res (Option Bytes)
  | .null => .ok none
  | v => do
    pure (some (← readBytes v))

/-- The derived `Serialize` of `Node` (`node.rs:35-43`), with those of the structures in it (`node.rs:70-84`, `109-119`). -/
def Node.toSerde : Node → Value
  | .empty => .str "Empty"
  | .leaf key value => .obj [("Leaf", .obj [("key", key.toSerde), ("value", .str (hexEncode value))])]
  | .ext pre node => .obj [("Extension", .obj [("prefix", pre.toSerde), ("node", node.toSerde)])]
  | .branch children value =>
    .obj [("Branch", .obj [("children", .seq (List.ofFn (fun i => (children i).toSerde))), ("value", writeValue value)])]
  | .hash h => .obj [("Hash", .obj [("hash", h.toSerde)])]

/-- The array of children. -/
def readChildren (f : Value → Res Node) : Value → Res (Fin 16 → Node)
  | .seq l => do
    let r ← readAll f l
    if h : r.length = 16 then pure (fun i => r[i.val]) else .error (.err "invalid length")
  | _ => .error (.err "invalid type")

/-- The derived `Deserialize` of `Node`. Formats limit the nesting (`serde_json` allows 128 arrays and objects in each other); here `limit` nodes. -/
def Node.ofSerde : (limit : Nat) → Value → Res Node
  | 0, _ => .error (.err "recursion limit exceeded")
  | limit + 1, v =>
    match v with
    | .str s => if s = "Empty" then .ok .empty else .error (.err "unknown variant")
    | .obj [(name, c)] =>
      if name = "Empty" then
        match c with
        | .null => .ok .empty
        | _ => .error (.err "invalid type")
      else if name = "Leaf" then do
        let (k, x) ← twoFields "key" "value" false c
        pure (.leaf (← Nibbles.ofSerde k) (← readHex x))
      else if name = "Extension" then do
        let (p, x) ← twoFields "prefix" "node" false c
        pure (.ext (← Nibbles.ofSerde p) (← Node.ofSerde limit x))
      else if name = "Branch" then do
        let (cs, x) ← twoFields "children" "value" true c
        pure (.branch (← readChildren (Node.ofSerde limit) cs) (← readValue x))
      else if name = "Hash" then do
        pure (.hash (← H256.ofSerde (← oneField "hash" c)))
      else .error (.err "unknown variant")
    | _ => .error (.err "invalid type")

/-- The derived `Serialize` of `InnerTrie`: all but the root node and its hash is skipped (`inner.rs:31-46`). -/
def Trie.toSerde (t : Trie) : Value := .obj [("root", t.root.toSerde), ("root_hash", t.rootHash.toSerde)]

/-- The derived `Deserialize` of `InnerTrie`: what was skipped is `Default::default()`; see `Db.default`. -/
def Trie.ofSerde (limit : Nat) (v : Value) : Res Trie := do
  let (r, h) ← twoFields "root" "root_hash" false v
  pure ⟨← Node.ofSerde limit r, ← H256.ofSerde h, [], [], []⟩

/-- The database of a trie that has been read: `MemoryDB::default()`, a new one without entries that keeps everything (`db.rs:62-68`). -/
def Db.default : Db := Db.new false

/-- How deep the nodes in memory are nested. -/
def Node.height : Node → Nat
  | .ext _ n => n.height + 1
  | .branch cs _ => (Finset.univ.sup fun i => (cs i).height) + 1
  | _ => 0

end Verif.Pmt
