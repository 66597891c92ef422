import Verif.Common.FMap
import Verif.Jmt.NodeType
/-!
Model of `/repo/jmt/src/writer.rs` (batches), `/repo/jmt/src/reader.rs` (reader trait) and of the
in-memory store `/repo/jmt/src/mock.rs`.
-/

set_option autoImplicit false

namespace Verif.Jmt
variable {D : Type}

/-- Order of `(Version, KeyHash)` keys of the `values` `BTreeMap` (`writer.rs:27`): lexicographic. -/
def valueKeyLt (a b : Version × Key) : Bool := decide (a.1 < b.1 ∨ (a.1 = b.1 ∧ a.2 < b.2))

/-- `writer.rs:25-28` `NodeBatch`. `nodes` is a `BTreeMap` whose iteration order is never observable;
`values` keeps its order because values are pushed to the history in that order. -/
structure NodeBatch (D : Type) where
  nodes : FMap NodeKey (Node D)
  values : OMap (Version × Key) (Option Value)

namespace NodeBatch
/-- `Default` -/
def empty : NodeBatch D := ⟨.empty, .empty⟩
/-- `writer.rs:48-50` `insert_node`. -/
def insertNode (b : NodeBatch D) (nk : NodeKey) (n : Node D) : NodeBatch D := { b with nodes := b.nodes.set nk n }
/-- `writer.rs:53-55` `insert_value`. -/
def insertValue (b : NodeBatch D) (v : Version) (k : Key) (value : Value) : NodeBatch D :=
  { b with values := b.values.insert valueKeyLt (v, k) (some value) }
/-- `writer.rs:63-70` `extend`. -/
def extend (b : NodeBatch D) (nodes : List (NodeKey × Node D))
    (values : List ((Version × Key) × Option Value)) : NodeBatch D :=
  ⟨b.nodes.extend nodes, b.values.extend valueKeyLt values⟩
/-- `writer.rs:78-80` `is_empty`. -/
def isEmpty (b : NodeBatch D) : Bool := b.nodes.isEmpty && b.values.isEmpty
end NodeBatch

/-- `writer.rs:97-103` `StaleNodeIndex`. -/
structure StaleNodeIndex where
  staleSinceVersion : Version
  nodeKey : NodeKey
deriving DecidableEq, Repr

/-- `writer.rs:87-92` `NodeStats`. -/
structure NodeStats where
  newNodes : Nat
  newLeaves : Nat
  staleNodes : Nat
  staleLeaves : Nat
deriving DecidableEq, Repr

/-- `writer.rs:110-114` `TreeUpdateBatch`. -/
structure TreeUpdateBatch (D : Type) where
  nodeBatch : NodeBatch D
  staleNodeIndexBatch : FSet StaleNodeIndex
  nodeStats : List NodeStats

/-- `reader.rs` `TreeReader` (`get_node_option`, `get_value_option`); I/O errors are not modelled. -/
structure Reader (D : Type) where
  getNodeOption : NodeKey → Option (Node D)
  getValueOption : Version → Key → Option Value

/-- `reader.rs` default method `get_node`: error when missing. -/
def Reader.getNode (r : Reader D) (nk : NodeKey) : Res (Node D) :=
  match r.getNodeOption nk with
  | some n => .ok n
  | none => .error (.err "Missing node")

/-- `reader.rs` default method `get_value`: error when missing. -/
def Reader.getValue (r : Reader D) (v : Version) (k : Key) : Res Value :=
  match r.getValueOption v k with
  | some x => .ok x
  | none => .error (.err "Missing value")

/-- `mock.rs:32-49` `MockTreeStoreInner` and `allow_overwrite` (preimages are in `Jmt/Merge.lean`). -/
structure Store (D : Type) where
  nodes : FMap NodeKey (Node D)
  staleNodes : FSet StaleNodeIndex
  valueHistory : FMap Key (List (Version × Option Value))
  allowOverwrite : Bool

namespace Store

/-- `mock.rs:51-58` `Default`. -/
def empty : Store D := ⟨.empty, .empty, .empty, false⟩

/-- `mock.rs:107-123` `get_value_option`: the newest entry with version `≤ max_version`, searched from the
end of the history. -/
def getValueOption (s : Store D) (maxVersion : Version) (k : Key) : Option Value :=
  match s.valueHistory.get k with
  | some h =>
    match h.reverse.find? (fun e => decide (e.1 ≤ maxVersion)) with
    | some e => e.2
    | none => none
  | none => none

/-- `mock.rs:83-124` `TreeReader for MockTreeStore`. -/
def reader (s : Store D) : Reader D := ⟨s.nodes.get, s.getValueOption⟩

/-- `mock.rs:154-180` `put_value`. -/
def putValueHistory (vh : FMap Key (List (Version × Option Value))) (version : Version) (k : Key)
    (value : Option Value) : Res (FMap Key (List (Version × Option Value))) :=
  match vh.get k with
  | some h =>
    match h.getLast? with
    | some (lastVersion, _) =>
      if version < lastVersion then .error (.err "values must be pushed in order")
      else if version = lastVersion then .ok (vh.set k (h.dropLast ++ [(version, value)]))
      else .ok (vh.set k (h ++ [(version, value)]))
    | none => .ok (vh.set k (h ++ [(version, value)]))
  | none => .ok (vh.set k [(version, value)])

/-- The node loop of `write_node_batch` (`mock.rs:135-140`). -/
def writeNodes (allowOverwrite : Bool) : List (NodeKey × Node D) → FMap NodeKey (Node D) →
    Res (FMap NodeKey (Node D))
  | [], m => .ok m
  | (nk, n) :: t, m => do
    if !allowOverwrite then assert ((m.get nk).isNone) "assertion failed: replaced == None"
    writeNodes allowOverwrite t (m.set nk n)

/-- The value loop of `write_node_batch` (`mock.rs:141-148`). -/
def writeValues : List ((Version × Key) × Option Value) → FMap Key (List (Version × Option Value)) →
    Res (FMap Key (List (Version × Option Value)))
  | [], vh => .ok vh
  | ((v, k), x) :: t, vh => do
    let vh ← putValueHistory vh v k x
    writeValues t vh

/-- `mock.rs:133-150` `write_node_batch`. -/
def writeNodeBatch (s : Store D) (b : NodeBatch D) : Res (Store D) := do
  let nodes ← writeNodes s.allowOverwrite b.nodes.entries s.nodes
  let vh ← writeValues b.values.entries s.valueHistory
  pure { s with nodes := nodes, valueHistory := vh }

/-- `mock.rs:211-215` `put_stale_node_index`, applied to all indices (`mock.rs:219-223`). -/
def putStale : List StaleNodeIndex → FSet StaleNodeIndex → Res (FSet StaleNodeIndex)
  | [], s => .ok s
  | i :: t, s => do
    ensure (!s.contains i) "Duplicated retire log."
    putStale t (s.insert i)

/-- `mock.rs:217-225` `write_tree_update_batch`. -/
def writeTreeUpdateBatch (s : Store D) (b : TreeUpdateBatch D) : Res (Store D) := do
  let s ← s.writeNodeBatch b.nodeBatch
  let stale ← putStale b.staleNodeIndexBatch.elems s.staleNodes
  pure { s with staleNodes := stale }

/-- The loop of `purge_stale_nodes` (`mock.rs:239-243`). -/
def purgeLoop : List StaleNodeIndex → Store D → Res (Store D)
  | [], s => .ok s
  | log :: t, s => do
    ensure ((s.nodes.get log.nodeKey).isSome) "Stale node index refers to non-existent node."
    purgeLoop t { s with nodes := s.nodes.erase log.nodeKey, staleNodes := s.staleNodes.erase log }

/-- `mock.rs:227-246` `purge_stale_nodes`. `stale_nodes` is a `BTreeSet` ordered by `stale_since_version`
first, so `take_while(stale_since_version ≤ m)` selects exactly the entries with that property; here `filter`. -/
def purgeStaleNodes (s : Store D) (leastReadable : Version) : Res (Store D) :=
  purgeLoop (s.staleNodes.elems.filter (fun l => decide (l.staleSinceVersion ≤ leastReadable))) s

end Store

end Verif.Jmt
