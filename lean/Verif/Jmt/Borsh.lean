import Verif.Jmt.NibblePath
import Verif.Jmt.Proof
import Verif.Jmt.Store
/-!
Model of the derived `BorshSerialize`/`BorshDeserialize` implementations of the types of `/repo/jmt/src/node_type.rs`,
`types/nibble/nibble_path.rs`, `types/proof.rs`, `types/proof/definition.rs` and `writer.rs`. The crate `borsh` 0.10 is not part of the
repository; its encoding is transcribed from the published specification: integers in little endian, `usize` as `u64`, `bool` and the
tags of `Option` and `enum` in one byte, arrays as their elements, `Vec` as a `u32` length and the elements, structs as their fields in
order, `Box` as its contents. Digests are 32 bytes (`D = Key`).

`enc` writes numbers modulo the size of the integer type; Rust values are below it. Rust refuses to serialise a `Vec` of more than
`u32::MAX` elements; the theorems assume shorter ones. Deserialising returns `Err` on any failure (here `none`) and does not panic.
-/

set_option autoImplicit false

namespace Verif.Jmt

/-- A serialiser (`BorshSerialize::serialize`) and a deserialiser (`BorshDeserialize::deserialize`), which takes bytes from the front of
the input and returns the rest. -/
structure Codec (α : Type) where
  enc : α → List UInt8
  dec : List UInt8 → Option (α × List UInt8)

namespace Codec
variable {α β : Type}

/-- The `n` lowest bytes of `x`, lowest first (`to_le_bytes`). -/
def leBytes : Nat → Nat → List UInt8
  | 0, _ => []
  | n + 1, x => UInt8.ofNat (x % 256) :: leBytes n (x / 256)

/-- `from_le_bytes`. -/
def leNat : List UInt8 → Nat
  | [] => 0
  | b :: t => b.toNat + 256 * leNat t

/-- Unsigned integers of `n` bytes. -/
def uint (n : Nat) : Codec Nat :=
  ⟨leBytes n, fun b => if n ≤ b.length then some (leNat (b.take n), b.drop n) else none⟩

/-- `u64`, and `usize`. -/
def u64 : Codec Nat := uint 8

/-- `u8`. -/
def u8 : Codec UInt8 :=
  ⟨fun b => [b], fun l => match l with | b :: r => some (b, r) | [] => none⟩

/-- `[u8; 32]`, `KeyHash`, `ValueHash`. -/
def bytes32 : Codec Key :=
  ⟨Key.bytes, fun b => if h : 32 ≤ b.length then some (⟨b.take 32, by simp [h]⟩, b.drop 32) else none⟩

/-- `bool`. -/
def bool : Codec Bool :=
  ⟨fun x => [if x then 1 else 0],
   fun l => match l with | b :: r => if b = 0 then some (false, r) else if b = 1 then some (true, r) else none | [] => none⟩

/-- `Option<T>`. -/
def option (c : Codec α) : Codec (Option α) :=
  ⟨fun x => match x with | none => [0] | some a => 1 :: c.enc a,
   fun l => match l with
     | b :: r => if b = 0 then some (none, r) else if b = 1 then (c.dec r).map (fun x => (some x.1, x.2)) else none
     | [] => none⟩

/-- Two fields of a struct. -/
def pair (a : Codec α) (b : Codec β) : Codec (α × β) :=
  ⟨fun x => a.enc x.1 ++ b.enc x.2, fun l => do
    let (x, l) ← a.dec l
    let (y, l) ← b.dec l
    pure ((x, y), l)⟩

/-- Naming the fields. -/
def map (c : Codec α) (f : α → β) (g : β → α) : Codec β :=
  ⟨fun b => c.enc (g b), fun l => (c.dec l).map (fun x => (f x.1, x.2))⟩

/-- `n` elements one after the other. -/
def seqDec (c : Codec α) : Nat → List UInt8 → Option (List α × List UInt8)
  | 0, l => some ([], l)
  | n + 1, l => do
    let (x, l) ← c.dec l
    let (xs, l) ← seqDec c n l
    pure (x :: xs, l)

/-- `Vec<T>`. -/
def vec (c : Codec α) : Codec (List α) :=
  ⟨fun l => (uint 4).enc l.length ++ l.flatMap c.enc, fun l => do
    let (n, l) ← (uint 4).dec l
    seqDec c n l⟩

/-- `Box<[Option<T>; 16]>`. -/
def array16 (c : Codec (Option α)) : Codec (Nibble → Option α) :=
  ⟨fun f => (List.finRange 16).flatMap (fun i => c.enc (f i)), fun l => do
    let (xs, l) ← seqDec c 16 l
    pure (fun i => (xs[i.val]?).join, l)⟩

/-- `try_from_slice`: deserialise, and refuse bytes left over. -/
def tryFromSlice (c : Codec α) (l : List UInt8) : Option α :=
  match c.dec l with
  | some (a, []) => some a
  | _ => none

end Codec

open Codec

/-- `node_type.rs:105-123` `NodeType`. -/
def nodeTypeCodec : Codec NodeType :=
  ⟨fun t => match t with | .leaf => [0] | .internalLegacy => [1] | .internal n => 2 :: u64.enc n,
   fun l => match l with
     | b :: r =>
       if b = 0 then some (.leaf, r)
       else if b = 1 then some (.internalLegacy, r)
       else if b = 2 then (u64.dec r).map (fun x => (.internal x.1, x.2))
       else none
     | [] => none⟩

/-- `node_type.rs:141-162` `Child`. -/
def childCodec : Codec (Child Key) :=
  (pair bytes32 (pair u64 nodeTypeCodec)).map (fun x => ⟨x.1, x.2.1, x.2.2⟩) (fun c => (c.hash, c.version, c.nodeType))

/-- `node_type.rs:188-204` `Children`. -/
def childrenCodec : Codec (Children Key) :=
  (pair (array16 (option childCodec)) u64).map (fun x => ⟨x.1, x.2⟩) (fun c => (c.children, c.numChildren))

/-- `node_type.rs:306-328` `InternalNode`. -/
def internalNodeCodec : Codec (InternalNode Key) :=
  (pair childrenCodec (pair (option u64) bool)).map (fun x => ⟨x.1, x.2.1, x.2.2⟩) (fun n => (n.children, n.leafCount, n.leafCountMigration))

/-- `node_type.rs:700-715` `LeafNode`, `types/proof.rs:44-59` `SparseMerkleLeafNode`. -/
def leafNodeCodec : Codec (LeafNode Key) :=
  (pair bytes32 bytes32).map (fun x => ⟨x.1, x.2⟩) (fun l => (l.keyHash, l.valueHash))

/-- `node_type.rs:756-766` `Node`. -/
def nodeCodec : Codec (Node Key) :=
  ⟨fun n => match n with | .null => [0] | .internal n => 1 :: internalNodeCodec.enc n | .leaf l => 2 :: leafNodeCodec.enc l,
   fun l => match l with
     | b :: r =>
       if b = 0 then some (.null, r)
       else if b = 1 then (internalNodeCodec.dec r).map (fun x => (.internal x.1, x.2))
       else if b = 2 then (leafNodeCodec.dec r).map (fun x => (.leaf x.1, x.2))
       else none
     | [] => none⟩

/-- `nibble_path.rs:19-41` `NibblePath`. -/
def nibblePathCodec : Codec NibblePath :=
  (pair u64 (vec u8)).map (fun x => ⟨x.1, x.2⟩) (fun p => (p.numNibbles, p.bytes))

/-- `node_type.rs:37-56` `NodeKey`, with the packed path. -/
def nodeKeyCodec : Codec (Version × NibblePath) := pair u64 nibblePathCodec

/-- `writer.rs:95-103` `StaleNodeIndex`, with the packed path. -/
def staleCodec : Codec (Version × Version × NibblePath) := pair u64 nodeKeyCodec

/-- `definition.rs:18-41` `SparseMerkleProof`; the `PhantomHasher` takes no bytes. -/
def proofCodec : Codec (SparseMerkleProof Key) :=
  (pair (option leafNodeCodec) (vec bytes32)).map (fun x => ⟨x.1, x.2⟩) (fun p => (p.leaf, p.siblings))

/-- `definition.rs:236-250` `SparseMerkleRangeProof`. -/
def rangeProofCodec : Codec (SparseMerkleRangeProof Key) :=
  (vec bytes32).map (fun x => ⟨x⟩) (fun p => p.rightSiblings)

end Verif.Jmt
