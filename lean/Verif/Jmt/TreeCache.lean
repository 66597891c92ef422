import Verif.Jmt.Store
/-!
Model of `/repo/jmt/src/tree_cache.rs`.
-/

set_option autoImplicit false

namespace Verif.Jmt
variable {D : Type}

/-- `types.rs` `PRE_GENESIS_VERSION = u64::MAX`. -/
def preGenesisVersion : Version := 2 ^ 64 - 1

/-- `tree_cache.rs:90-102` `FrozenTreeCache`. -/
structure FrozenTreeCache (D : Type) where
  nodeCache : NodeBatch D
  staleNodeIndexCache : FSet StaleNodeIndex
  nodeStats : List NodeStats
  rootHashes : List D

/-- `tree_cache.rs:116-147` `TreeCache`. -/
structure TreeCache (D : Type) where
  rootNodeKey : NodeKey
  nextVersion : Version
  nodeCache : FMap NodeKey (Node D)
  valueCache : FMap (Version × Key) (Option Value)
  numNewLeaves : Nat
  staleNodeIndexCache : FSet NodeKey
  numStaleLeaves : Nat
  frozen : FrozenTreeCache D
  reader : Reader D

namespace TreeCache

/-- `tree_cache.rs:105-112` `FrozenTreeCache::new`. -/
def _root_.Verif.Jmt.FrozenTreeCache.new : FrozenTreeCache D := ⟨.empty, .empty, [], []⟩

/-- `tree_cache.rs:154-189` `TreeCache::new`. -/
def new (reader : Reader D) (nextVersion : Version) : TreeCache D :=
  let base (rk : NodeKey) (nc : FMap NodeKey (Node D)) : TreeCache D :=
    { rootNodeKey := rk, nextVersion := nextVersion, nodeCache := nc, valueCache := .empty,
      numNewLeaves := 0, staleNodeIndexCache := .empty, numStaleLeaves := 0, frozen := .new,
      reader := reader }
  if nextVersion = 0 then
    match reader.getNodeOption (.newEmptyPath preGenesisVersion) with
    | some _ => base (.newEmptyPath preGenesisVersion) .empty
    | none => base (.newEmptyPath 0) (FMap.empty.set (.newEmptyPath 0) .null)
  else base (.newEmptyPath (nextVersion - 1)) .empty

/-- `tree_cache.rs:204-212` `get_node_option`. -/
def getNodeOption (c : TreeCache D) (nk : NodeKey) : Option (Node D) :=
  match c.nodeCache.get nk with
  | some n => some n
  | none =>
    match c.frozen.nodeCache.nodes.get nk with
    | some n => some n
    | none => c.reader.getNodeOption nk

/-- `tree_cache.rs:192-200` `get_node`. -/
def getNode (c : TreeCache D) (nk : NodeKey) : Res (Node D) :=
  match c.nodeCache.get nk with
  | some n => .ok n
  | none =>
    match c.frozen.nodeCache.nodes.get nk with
    | some n => .ok n
    | none => c.reader.getNode nk

/-- `tree_cache.rs:220-222` `set_root_node_key`. -/
def setRootNodeKey (c : TreeCache D) (nk : NodeKey) : TreeCache D := { c with rootNodeKey := nk }

/-- `tree_cache.rs:225-236` `put_node`. -/
def putNode (c : TreeCache D) (nk : NodeKey) (n : Node D) : Res (TreeCache D) :=
  match c.nodeCache.get nk with
  | some _ => .error (.err "Node with key already exists in NodeBatch")
  | none => .ok { c with
      nodeCache := c.nodeCache.set nk n
      numNewLeaves := if n.isLeaf then c.numNewLeaves + 1 else c.numNewLeaves }

/-- `tree_cache.rs:238-240` `put_value`. -/
def putValue (c : TreeCache D) (v : Version) (k : Key) (x : Option Value) : TreeCache D :=
  { c with valueCache := c.valueCache.set (v, k) x }

/-- `tree_cache.rs:243-255` `delete_node`. The subtraction of line 253 panics where the counter is zero, as in a build with
overflow checks. -/
def deleteNode (c : TreeCache D) (nk : NodeKey) (isLeaf : Bool) : Res (TreeCache D) :=
  match c.nodeCache.get nk with
  | none =>
    if c.staleNodeIndexCache.contains nk then .error (.panic "Node gets stale twice unexpectedly.")
    else .ok { c with
      staleNodeIndexCache := c.staleNodeIndexCache.insert nk
      numStaleLeaves := if isLeaf then c.numStaleLeaves + 1 else c.numStaleLeaves }
  | some _ =>
    if isLeaf && c.numNewLeaves == 0 then .error (.panic "attempt to subtract with overflow")
    else .ok { c with
      nodeCache := c.nodeCache.erase nk
      numNewLeaves := if isLeaf then c.numNewLeaves - 1 else c.numNewLeaves }

/-- `tree_cache.rs:260-271` first part of `freeze`: the root node, writing a null node when it is missing. -/
def freezeRoot (c : TreeCache D) : Res (TreeCache D × Node D) :=
  match c.getNodeOption c.rootNodeKey with
  | some n => .ok (c, n)
  | none => do
    let c ← c.putNode c.rootNodeKey .null
    .ok (c, Node.null)

/-- `tree_cache.rs:273-294` second part of `freeze`: copy the root to the new version when nothing changed. -/
def freezeCopy (c : TreeCache D) : Res (TreeCache D) :=
  if c.nextVersion > 0 ∧ c.nodeCache.isEmpty = true ∧ c.staleNodeIndexCache.isEmpty = true then do
    let rootNode ← c.getNode c.rootNodeKey
    c.putNode (c.rootNodeKey.setVersion c.nextVersion) rootNode
  else .ok c

/-- `tree_cache.rs:295-324` last part of `freeze`: move the caches into the frozen cache. -/
def freezeMove (c : TreeCache D) : TreeCache D :=
  let stats : NodeStats :=
    { newNodes := c.nodeCache.size, newLeaves := c.numNewLeaves,
      staleNodes := c.staleNodeIndexCache.size, staleLeaves := c.numStaleLeaves }
  let staleNew : List StaleNodeIndex := c.staleNodeIndexCache.elems.map (fun nk => ⟨c.nextVersion, nk⟩)
  let frozen : FrozenTreeCache D :=
    { nodeCache := c.frozen.nodeCache.extend c.nodeCache.entries c.valueCache.entries
      staleNodeIndexCache := staleNew.foldl FSet.insert c.frozen.staleNodeIndexCache
      nodeStats := c.frozen.nodeStats ++ [stats]
      rootHashes := c.frozen.rootHashes }
  { c with
    nodeCache := .empty, valueCache := .empty, staleNodeIndexCache := .empty, frozen := frozen,
    numStaleLeaves := 0, numNewLeaves := 0, nextVersion := c.nextVersion + 1 }

/-- `tree_cache.rs:272` record the root hash. -/
def pushRoot (c : TreeCache D) (d : D) : TreeCache D :=
  { c with frozen := { c.frozen with rootHashes := c.frozen.rootHashes ++ [d] } }

/-- `tree_cache.rs:258-325` `freeze`. -/
def freeze (H : Hasher D) (c : TreeCache D) : Res (TreeCache D) := do
  let (c, rootNode) ← c.freezeRoot
  let c ← (c.pushRoot (rootNode.hash H)).freezeCopy
  .ok c.freezeMove

/-- `tree_cache.rs:328-342` conversion into root hashes and update batch. -/
def into (c : TreeCache D) : List D × TreeUpdateBatch D :=
  (c.frozen.rootHashes, ⟨c.frozen.nodeCache, c.frozen.staleNodeIndexCache, c.frozen.nodeStats⟩)

end TreeCache

end Verif.Jmt
