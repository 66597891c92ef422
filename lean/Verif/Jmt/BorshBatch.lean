import Verif.Jmt.Borsh
/-!
Model of the derived `BorshSerialize`/`BorshDeserialize` implementations of the batches of `/repo/jmt/src/writer.rs`. The crate `borsh` 0.10 writes
a `BTreeMap` or `BTreeSet` as a `u32` length and the entries in the order of their keys, and reads one by inserting the entries one after the
other, in whatever order they come (it does not check the order, nor that keys are different).
-/

set_option autoImplicit false

namespace Verif.Jmt
open Codec

/-- `nibble_path.rs:19-29` derived `Ord`: the fields one after the other. -/
def pathLt (a b : NibblePath) : Bool := decide (a.numNibbles < b.numNibbles ∨ a.numNibbles = b.numNibbles ∧ a.bytes < b.bytes)

/-- `node_type.rs:37-56` derived `Ord` of `NodeKey`, with the packed path. -/
def nodeKeyLt (a b : Version × NibblePath) : Bool := decide (a.1 < b.1) || decide (a.1 = b.1) && pathLt a.2 b.2

/-- `writer.rs:95-103` derived `Ord` of `StaleNodeIndex`. -/
def staleLt (a b : Version × Version × NibblePath) : Bool := decide (a.1 < b.1) || decide (a.1 = b.1) && nodeKeyLt a.2 b.2

/-- `BTreeMap<K, V>`, from the codec of an entry. -/
def Codec.btreeMap {K V : Type} [DecidableEq K] (lt : K → K → Bool) (c : Codec (K × V)) : Codec (OMap K V) :=
  ⟨fun m => (vec c).enc m.entries, fun b => ((vec c).dec b).map (fun x => (OMap.empty.extend lt x.1, x.2))⟩

/-- `BTreeSet<K>`: as a map to nothing. -/
def Codec.btreeSet {K : Type} [DecidableEq K] (lt : K → K → Bool) (c : Codec K) : Codec (OMap K Unit) :=
  btreeMap lt (c.map (fun k => (k, ())) Prod.fst)

/-- `writer.rs:110-114` `TreeUpdateBatch` with `NodeBatch` (`writer.rs:25-28`) spread out, packed paths, and ordered maps. -/
structure WireBatch where
  nodes : OMap (Version × NibblePath) (Node Key)
  values : OMap (Version × Key) (Option Value)
  stale : OMap (Version × Version × NibblePath) Unit
  stats : List NodeStats

/-- `writer.rs:86-92` `NodeStats`. -/
def statsCodec : Codec NodeStats :=
  (pair u64 (pair u64 (pair u64 u64))).map (fun x => ⟨x.1, x.2.1, x.2.2.1, x.2.2.2⟩) (fun s => (s.newNodes, s.newLeaves, s.staleNodes, s.staleLeaves))

/-- `writer.rs:24-28` `NodeBatch`: the two maps. -/
def nodeBatchCodec : Codec (OMap (Version × NibblePath) (Node Key) × OMap (Version × Key) (Option Value)) :=
  pair (btreeMap nodeKeyLt (pair nodeKeyCodec nodeCodec)) (btreeMap valueKeyLt (pair (pair u64 bytes32) (option (vec u8))))

/-- `writer.rs:109-114` `TreeUpdateBatch`. -/
def updateBatchCodec : Codec WireBatch :=
  (pair nodeBatchCodec (pair (btreeSet staleLt staleCodec) (vec statsCodec))).map (fun x => ⟨x.1.1, x.1.2, x.2.1, x.2.2⟩)
    (fun b => ((b.nodes, b.values), b.stale, b.stats))

/-- The entries of the node map with packed paths (`NibblePath` is built nibble by nibble). -/
def packNodes : List (NodeKey × Node Key) → Res (List ((Version × NibblePath) × Node Key))
  | [] => .ok []
  | (nk, n) :: t => do
    let p ← NibblePath.fromIter nk.path
    let t ← packNodes t
    pure (((nk.version, p), n) :: t)

/-- The stale indices with packed paths. -/
def packStale : List StaleNodeIndex → Res (List ((Version × Version × NibblePath) × Unit))
  | [] => .ok []
  | i :: t => do
    let p ← NibblePath.fromIter i.nodeKey.path
    let t ← packStale t
    pure (((i.staleSinceVersion, i.nodeKey.version, p), ()) :: t)

/-- A batch of the model as the Rust value it stands for: the maps in order, the paths packed. -/
def TreeUpdateBatch.wire (b : TreeUpdateBatch Key) : Res WireBatch := do
  let nodes ← packNodes b.nodeBatch.nodes.entries
  let stale ← packStale b.staleNodeIndexBatch.elems
  pure ⟨OMap.empty.extend nodeKeyLt nodes, b.nodeBatch.values, OMap.empty.extend staleLt stale, b.nodeStats⟩

end Verif.Jmt
