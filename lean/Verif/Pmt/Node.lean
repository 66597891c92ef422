import Verif.Pmt.Rlp
/-!
Model of `/repo/pmt/src/node.rs` and of the node codec in `/repo/pmt/src/inner.rs`.
-/

set_option autoImplicit false

namespace Verif.Pmt

/-- `serde_hash::H256`: 32 bytes. -/
structure H256 where
  bytes : Bytes
  size : bytes.length = 32
deriving DecidableEq

/-- `keccak` (`/repo/serde_hash/src`): any function from byte strings to digests. -/
abbrev Keccak := Bytes → H256

/-- `node.rs:36-43` `Node` with `LeafNode`, `ExtensionNode`, `BranchNode`, `HashNode` (69-120). -/
inductive Node where
  | empty
  | leaf (key : Nibbles) (value : Bytes)
  | ext (pre : Nibbles) (node : Node)
  | branch (children : Fin 16 → Node) (value : Option Bytes)
  | hash (h : H256)

instance : Inhabited Node := ⟨.empty⟩

/-- `inner.rs:48-51` `EncodedNode`. -/
inductive Encoded where
  | hash (h : H256)
  | inline (data : Bytes)

/-- What is put into a parent: `stream.append(&hash.as_bytes())` or `stream.append_raw(&data, 1)` (`inner.rs:753-756`, `770-773`). -/
def Encoded.item : Encoded → Bytes
  | .hash h => Rlp.encodeData h.bytes
  | .inline d => d

/-- New entries of `cache` (and of `gen_keys`, which gets the same hashes), oldest first. -/
abbrev Written := List (H256 × Bytes)

/-- `inner.rs:726-735` `write_node` after the encoding: short nodes are inlined, others hashed and written. -/
def writeData (K : Keccak) (data : Bytes) (w : Written) : Encoded × Written :=
  if data.length < 32 then (.inline data, w) else (.hash (K data), w ++ [(K data, data)])

/-- The loop over the children in `encode_raw` (`inner.rs:751-757`). -/
def writeChildren (f : Fin 16 → Res (Encoded × Written)) : List (Fin 16) → Res (List Bytes × Written)
  | [] => .ok ([], [])
  | i :: t => do
    let (e, w) ← f i
    let (es, ws) ← writeChildren f t
    pure (e.item :: es, w ++ ws)

/-- The branch value in `encode_raw` (`inner.rs:759-762`). -/
def valueItem : Option Bytes → Bytes
  | some v => Rlp.encodeData v
  | none => [0x80]

/-- `inner.rs:717-735` `write_node`, with `encode_raw` (737-777) unfolded in the arms. -/
def writeNode (K : Keccak) : Node → Res (Encoded × Written)
  | .hash h => .ok (.hash h, [])
  | .empty => .ok (writeData K [0x80] [])
  | .leaf key value => do
    let c ← Nibbles.encodeCompact key
    pure (writeData K (Rlp.encodeList [Rlp.encodeData c, Rlp.encodeData value]) [])
  | .ext pre node => do
    let c ← Nibbles.encodeCompact pre
    let (e, w) ← writeNode K node
    pure (writeData K (Rlp.encodeList [Rlp.encodeData c, e.item]) w)
  | .branch children value => do
    let (es, w) ← writeChildren (fun i => writeNode K (children i)) (List.finRange 16)
    pure (writeData K (Rlp.encodeList (es ++ [valueItem value])) w)

/-- `inner.rs:737-777` `encode_raw`: the bytes, and what was written for the children. -/
def encodeRaw (K : Keccak) : Node → Res (Bytes × Written)
  | .hash _ => .error (.panic "internal error: entered unreachable code")
  | .empty => .ok ([0x80], [])
  | .leaf key value => do
    let c ← Nibbles.encodeCompact key
    pure (Rlp.encodeList [Rlp.encodeData c, Rlp.encodeData value], [])
  | .ext pre node => do
    let c ← Nibbles.encodeCompact pre
    let (e, w) ← writeNode K node
    pure (Rlp.encodeList [Rlp.encodeData c, e.item], w)
  | .branch children value => do
    let (es, w) ← writeChildren (fun i => writeNode K (children i)) (List.finRange 16)
    pure (Rlp.encodeList (es ++ [valueItem value]), w)

/-- The loop over the children in `decode_node` (`inner.rs:798-804`) over the items. -/
def decodeChildren (f : Bytes → Res Node) : List Bytes → Res (List Node)
  | [] => .ok []
  | x :: t => do
    let n ← f x
    let ns ← decodeChildren f t
    pure (n :: ns)

/-- The branch value in `decode_node` (`inner.rs:807-812`). -/
def decodeValue (x : Bytes) : Res (Option Bytes) :=
  if Rlp.isEmpty x then .ok none
  else do
    let v ← Rlp.data x
    pure (some v)

/-- The `_` arm of `decode_node` (`inner.rs:816-824`) on data. -/
def decodeHash (bytes : Bytes) : Res Node :=
  if Rlp.isData bytes ∧ Rlp.size bytes = 32 then do
    let d ← Rlp.data bytes
    if h : d.length = 32 then pure (.hash ⟨d, h⟩)
    else .error (.panic "assertion failed: src.len() == 32")
  else .error (.err "bytes cannot be decoded into a node")

/-- `inner.rs:779-826` `decode_node`. Items of a list are shorter than the list, so `bytes.length` rounds suffice (`decodeNode`). -/
def decodeAux : (fuel : Nat) → Bytes → Res Node
  | 0, _ => .error (.panic "out of fuel")
  | fuel + 1, bytes =>
    match Rlp.prototype bytes with
    | .data 0 => .ok .empty
    | .list [k, v] => do
      let d ← Rlp.data k
      let key ← Nibbles.fromCompact d
      let leaf ← Nibbles.isLeaf key
      if leaf then do
        let value ← Rlp.data v
        pure (.leaf key value)
      else do
        let n ← decodeAux fuel v
        pure (.ext key n)
    | .list items =>
      if items.length = 17 then do
        let ns ← decodeChildren (decodeAux fuel) (items.take 16)
        let value ← decodeValue (items.getD 16 [])
        pure (.branch (fun i => ns.getD i.val .empty) value)
      else decodeHash bytes
    | _ => decodeHash bytes

/-- `inner.rs:779-826` `decode_node`. -/
def decodeNode (bytes : Bytes) : Res Node := decodeAux (bytes.length + 1) bytes

end Verif.Pmt
