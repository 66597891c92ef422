import Verif.Jmt.History
import Verif.Jmt.Db
/-!
A user driving one store whose hash maps give their entries in a new order at every operation. (A `BTreeMap` or `BTreeSet` gives them
in the order of the keys, which is one of these orders.)
-/

set_option autoImplicit false

namespace Verif.Jmt
variable {D : Type}

/-- An order for the entries of each hash map of a `TreeCache` (`tree_cache.rs:88-140`: `node_cache`, `value_cache`,
`stale_node_index_cache`, and the nodes and stale node indices of `frozen_cache`; the frozen values are a `BTreeMap`, which the model
keeps in the order of its keys). -/
structure CacheOrder (D : Type) where
  nodes : List (NodeKey × Node D) → List (NodeKey × Node D)
  values : List ((Version × Key) × Option Value) → List ((Version × Key) × Option Value)
  stale : List NodeKey → List NodeKey
  frozenNodes : List (NodeKey × Node D) → List (NodeKey × Node D)
  frozenStale : List StaleNodeIndex → List StaleNodeIndex

/-- Every entry is given once. -/
structure CacheOrder.Ok (f : CacheOrder D) : Prop where
  nodes : ∀ l, (f.nodes l).Perm l
  values : ∀ l, (f.values l).Perm l
  stale : ∀ l, (f.stale l).Perm l
  frozenNodes : ∀ l, (f.frozenNodes l).Perm l
  frozenStale : ∀ l, (f.frozenStale l).Perm l

/-- The cache with its entries in another order. -/
def CacheOrder.cache (f : CacheOrder D) (c : TreeCache D) : TreeCache D :=
  { c with
    nodeCache := ⟨f.nodes c.nodeCache.entries⟩
    valueCache := ⟨f.values c.valueCache.entries⟩
    staleNodeIndexCache := ⟨f.stale c.staleNodeIndexCache.elems⟩
    frozen := { c.frozen with
      nodeCache := ⟨⟨f.frozenNodes c.frozen.nodeCache.nodes.entries⟩, c.frozen.nodeCache.values⟩
      staleNodeIndexCache := ⟨f.frozenStale c.frozen.staleNodeIndexCache.elems⟩ } }

/-- Orders for the steps of a call: of a version, the order when so many updates are left (`put_value_sets`), or before and after the
insertion (`batch_put_value_sets`). -/
abbrev CacheOrders (D : Type) := Version → Nat → CacheOrder D

namespace Tree

/-- `tree.rs:484-495` the inner loop of `put_value_sets`, as `putSet`; the cache is put in another order before every update and at the end. -/
def putSetIn (H : Hasher D) (migration : Bool) (o : Nat → CacheOrder D) (version : Version) : ValueSet → TreeCache D → Res (TreeCache D)
  | [], c => .ok ((o 0).cache c)
  | (key, value) :: t, c => do
    let c := ((o (t.length + 1)).cache c).putValue version key value
    let c ← put H migration key (value.map H.value) version c
    putSetIn H migration o version t c

/-- `tree.rs:480-499` the outer loop of `put_value_sets`, as `putSets`. -/
def putSetsIn (H : Hasher D) (migration : Bool) (o : CacheOrders D) : Version → List ValueSet → TreeCache D → Res (TreeCache D)
  | _, [], c => .ok c
  | version, s :: t, c => do
    let c ← putSetIn H migration (o version) version s c
    let c ← c.freeze H
    putSetsIn H migration o (version + 1) t c

/-- `tree.rs:474-502` `put_value_sets`. -/
def putValueSetsIn (H : Hasher D) (migration : Bool) (o : CacheOrders D) (reader : Reader D) (sets : List ValueSet) (firstVersion : Version) :
    Res (List D × TreeUpdateBatch D) := do
  let c ← putSetsIn H migration o firstVersion sets (TreeCache.new reader firstVersion)
  pure c.into

/-- `tree.rs:158-189` one round of the loop of `batch_put_value_sets`, as `batchPutSet`; the cache is put in another order before and after
the insertion. -/
def batchPutSetIn (H : Hasher D) (migration : Bool) (o : Nat → CacheOrder D) (hc : Option (HashCache D)) (version : Version)
    (set : List (Key × Value)) (c : TreeCache D) : Res (TreeCache D) := do
  assert (!set.isEmpty) "Transactions that output empty write set should not be included."
  let kvs := sortDedup set
  let c := (o 1).cache (kvs.foldl (fun c e => c.putValue version e.1 (some e.2)) c)
  let (c, (nk, _)) ← batchInsertAt H migration hc version rootNibbleHeight c.rootNodeKey
    (kvs.map (fun e => (e.1, H.value e.2))) c
  (((o 0).cache c).setRootNodeKey nk).freeze H

/-- The loop of `batch_put_value_sets`, as `batchPutSets`. -/
def batchPutSetsIn (H : Hasher D) (migration : Bool) (o : CacheOrders D) :
    Version → List (List (Key × Value) × Option (HashCache D)) → TreeCache D → Res (TreeCache D)
  | _, [], c => .ok c
  | version, (s, hc) :: t, c => do
    let c ← batchPutSetIn H migration (o version) hc version s c
    batchPutSetsIn H migration o (version + 1) t c

/-- `tree.rs:145-192` `batch_put_value_sets` (see `batchPutValueSets` for `zip_eq`). -/
def batchPutValueSetsIn (H : Hasher D) (migration : Bool) (o : CacheOrders D) (reader : Reader D) (sets : List (List (Key × Value)))
    (hashes : Option (List (HashCache D))) (firstVersion : Version) : Res (List D × TreeUpdateBatch D) := do
  let hcs : List (Option (HashCache D)) := match hashes with
    | some l => l.map some
    | none => sets.map (fun _ => none)
  let c ← batchPutSetsIn H migration o firstVersion (sets.zip hcs) (TreeCache.new reader firstVersion)
  assert (decide (sets.length = hcs.length)) "itertools: .zip_eq() reached end of one iterator before the other"
  pure c.into

end Tree

/-- An order for the entries of each map: `nodes` and `value_history` of `MockTreeStoreInner` (`mock.rs:33-35`), `stale_nodes`
(`mock.rs:34`), the nodes and stale node indices of a batch (`writer.rs:26`, `writer.rs:112`), which come out of hash maps
(`tree_cache.rs:302-315`), and the maps of the cache at every step of the call. -/
structure Shuffle (D : Type) where
  nodes : List (NodeKey × Node D) → List (NodeKey × Node D)
  history : List (Key × List (Version × Option Value)) → List (Key × List (Version × Option Value))
  stale : List StaleNodeIndex → List StaleNodeIndex
  newNodes : List (NodeKey × Node D) → List (NodeKey × Node D)
  newStale : List StaleNodeIndex → List StaleNodeIndex
  cache : CacheOrders D

/-- Every entry is given once. -/
structure Shuffle.Ok (f : Shuffle D) : Prop where
  nodes : ∀ l, (f.nodes l).Perm l
  history : ∀ l, (f.history l).Perm l
  stale : ∀ l, (f.stale l).Perm l
  newNodes : ∀ l, (f.newNodes l).Perm l
  newStale : ∀ l, (f.newStale l).Perm l
  cache : ∀ v i, (f.cache v i).Ok

/-- The store with its entries in another order. -/
def Shuffle.store (f : Shuffle D) (s : Store D) : Store D :=
  ⟨⟨f.nodes s.nodes.entries⟩, ⟨f.stale s.staleNodes.elems⟩, ⟨f.history s.valueHistory.entries⟩, s.allowOverwrite⟩

/-- The batch with its entries in another order. -/
def Shuffle.batch (f : Shuffle D) (b : TreeUpdateBatch D) : TreeUpdateBatch D :=
  ⟨⟨⟨f.newNodes b.nodeBatch.nodes.entries⟩, b.nodeBatch.values⟩, ⟨f.newStale b.staleNodeIndexBatch.elems⟩, b.nodeStats⟩

/-- One operation, as `Op.run`. -/
def Op.runIn (H : Hasher D) (f : Shuffle D) (st : Store D × Version) : Op → Res (Store D × Version)
  | .update m sets => do
    let (_, b) ← Tree.putValueSetsIn H m f.cache (f.store st.1).reader sets st.2
    let s ← (f.store st.1).writeTreeUpdateBatch (f.batch b)
    .ok (s, st.2 + sets.length)
  | .batch m sets => do
    let (_, b) ← Tree.batchPutValueSetsIn H m f.cache (f.store st.1).reader sets none st.2
    let s ← (f.store st.1).writeTreeUpdateBatch (f.batch b)
    .ok (s, st.2 + sets.length)
  | .purge v => do
    let s ← (f.store st.1).purgeStaleNodes v
    .ok (s, st.2)

/-- A list of operations, each with an order of its own. -/
def runOpsIn (H : Hasher D) : List (Shuffle D × Op) → Store D × Version → Res (Store D × Version)
  | [], st => .ok st
  | (f, op) :: ops, st => do
    let st ← op.runIn H f st
    runOpsIn H ops st

end Verif.Jmt
