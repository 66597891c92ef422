import Verif.Jmt.Store
import Verif.Jmt.Proof
/-!
Model of `/repo/jmt/src/restore.rs` (restoring a tree from chunks of key-value pairs) on the in-memory store of
`/repo/jmt/src/mock.rs`.

`&mut self` methods return the new state. `add_chunk` can fail after having changed the state, and the caller still
holds that state afterwards; the model therefore returns the state together with the outcome. A panic ends the
execution (`Except.error (.panic _)`).
-/

set_option autoImplicit false

namespace Verif.Jmt
variable {D : Type}

/-- `restore.rs:34-45` `ChildInfo`. -/
inductive ChildInfo (D : Type) where
  | internal (hash : Option D) (leafCount : Option Nat)
  | leaf (node : LeafNode D)
deriving DecidableEq

/-- `restore.rs:49-60` `into_child`. -/
def ChildInfo.intoChild (H : Hasher D) (version : Version) : ChildInfo D → Res (Child D)
  | .internal none _ => .error (.panic "Must have been initialized.")
  | .internal (some h) (some n) => .ok ⟨h, version, .internal n⟩
  | .internal (some h) none => .ok ⟨h, version, .internalLegacy⟩
  | .leaf node => .ok ⟨node.hash H, version, .leaf⟩

/-- `restore.rs:64-71` `InternalInfo`. -/
structure InternalInfo (D : Type) where
  nodeKey : NodeKey
  children : Nibble → Option (ChildInfo D)

namespace InternalInfo

/-- `restore.rs:75-80` `new_empty`. -/
def newEmpty (nk : NodeKey) : InternalInfo D := ⟨nk, fun _ => none⟩

/-- `restore.rs:82-85` `set_child`. -/
def setChild (info : InternalInfo D) (index : Nibble) (c : ChildInfo D) : InternalInfo D :=
  ⟨info.nodeKey, fun i => if i = index then some c else info.children i⟩

/-- The loop of `into_internal_node` (`restore.rs:98-102`). -/
def intoChildren (H : Hasher D) (version : Version) (f : Nibble → Option (ChildInfo D)) :
    List Nibble → Children D → Res (Children D)
  | [], cs => .ok cs
  | i :: t, cs =>
    match f i with
    | none => intoChildren H version f t cs
    | some info => do
      let c ← info.intoChild H version
      intoChildren H version f t (cs.insert i c)

/-- `restore.rs:89-109` `into_internal_node`. -/
def intoInternalNode (H : Hasher D) (info : InternalInfo D) (version : Version) (migration : Bool) :
    Res (NodeKey × InternalNode D) := do
  let cs ← intoChildren H version info.children (List.finRange 16) .new
  let n ← InternalNode.newMigration cs migration
  pure (info.nodeKey, n)

/-- `children.iter().rposition(|x| x.is_some())` (`restore.rs:496-500`, `532-536`). -/
def rightmost (info : InternalInfo D) : Option Nibble :=
  (List.finRange 16).reverse.find? (fun i => (info.children i).isSome)

end InternalInfo

/-- `restore.rs:114-170` `JellyfishMerkleRestore`; the store it writes to is part of the state. -/
structure Restore (D : Type) where
  store : Store D
  version : Version
  partialNodes : List (InternalInfo D)
  frozenNodes : NodeBatch D
  previousLeaf : Option (LeafNode D)
  numKeysReceived : Nat
  expectedRootHash : D
  migration : Bool

/-- `node_type.rs:90-97` `gen_parent_node_key`. -/
def NodeKey.genParent (nk : NodeKey) : Res NodeKey :=
  match nk.path with
  | [] => .error (.panic "Current node key is root.")
  | _ :: _ => .ok ⟨nk.version, nk.path.dropLast⟩

/-- `mock.rs:90-105` `get_rightmost_leaf`. The Rust code goes through a `HashMap` in an unspecified order; the order
only matters when two stored leaves have the same key. -/
def Store.getRightmostLeaf (s : Store D) : Option (NodeKey × LeafNode D) :=
  s.nodes.entries.foldl (fun acc e =>
    match e.2 with
    | .leaf l =>
      match acc with
      | none => some (e.1, l)
      | some a => if a.2.keyHash < l.keyHash then some (e.1, l) else acc
    | _ => acc) none

namespace Restore

/-- The `while` loop of `recover_partial_nodes` (`restore.rs:251-253`); the path gets shorter in every round, so
`path.length + 1` rounds suffice. -/
def recoverStart (r : Reader D) : (fuel : Nat) → NodeKey → Res NodeKey
  | 0, nk => .ok nk
  | fuel + 1, nk =>
    match r.getNodeOption nk with
    | some _ => do
      let p ← nk.genParent
      recoverStart r fuel p
    | none => .ok nk

/-- The inner loop of `recover_partial_nodes` (`restore.rs:267-280`), over the child positions to be looked at. -/
def recoverChildren (H : Hasher D) (r : Reader D) (version : Version) : List Nibble → InternalInfo D → Res (InternalInfo D)
  | [], info => .ok info
  | i :: t, info => do
    let ck ← info.nodeKey.genChild version i
    match r.getNodeOption ck with
    | none => recoverChildren H r version t info
    | some (.internal n) => recoverChildren H r version t (info.setChild i (.internal (some (n.hash H)) n.leafCount))
    | some (.leaf l) => recoverChildren H r version t (info.setChild i (.leaf l))
    | some .null => .error (.err "Null node should not appear in storage.")

/-- The outer loop of `recover_partial_nodes` (`restore.rs:264-303`). `acc` is the reverse of the Rust vector, so that
the final `reverse` is not needed. -/
def recoverLoop (H : Hasher D) (r : Reader D) (version : Version) :
    (fuel : Nat) → NodeKey → Option Nibble → List (InternalInfo D) → Res (List (InternalInfo D))
  | 0, _, _, acc => .ok acc
  | fuel + 1, nk, prev, acc => do
    let range := match prev with
      | none => List.finRange 16
      | some i => (List.finRange 16).filter (fun j => decide (j < i))
    let info ← recoverChildren H r version range (.newEmpty nk)
    let info := match prev with
      | none => info
      | some i => info.setChild i (.internal none none)
    match nk.path.getLast? with
    | none => pure (info :: acc)
    | some i => recoverLoop H r version fuel ⟨nk.version, nk.path.dropLast⟩ (some i) (info :: acc)

/-- `restore.rs:236-306` `recover_partial_nodes`. -/
def recoverPartialNodes (H : Hasher D) (r : Reader D) (version : Version) (leafKey : NodeKey) :
    Res (List (InternalInfo D)) := do
  ensure (!leafKey.path.isEmpty) "Root node would not be written until entire restoration process has completed successfully."
  let nk ← leafKey.genParent
  let nk ← recoverStart r (nk.path.length + 1) nk
  recoverLoop H r version (nk.path.length + 1) nk none []

/-- `restore.rs:173-213` `new`. -/
def new (H : Hasher D) (s : Store D) (version : Version) (expectedRootHash : D) (migration : Bool) : Res (Restore D) :=
  match s.getRightmostLeaf with
  | some (nk, leaf) => do
    let partialNodes ← recoverPartialNodes H s.reader version nk
    pure ⟨s, version, partialNodes, .empty, some leaf, 0, expectedRootHash, migration⟩
  | none => .ok ⟨s, version, [.newEmpty (.newEmptyPath version)], .empty, none, 0, expectedRootHash, migration⟩

/-- `restore.rs:215-232` `new_overwrite`. -/
def newOverwrite (s : Store D) (version : Version) (expectedRootHash : D) (migration : Bool) : Restore D :=
  ⟨s, version, [.newEmpty (.newEmptyPath version)], .empty, none, 0, expectedRootHash, migration⟩

/-- `restore.rs:486-512` `freeze_previous_leaf`. -/
def freezePreviousLeaf (r : Restore D) : Res (Restore D) :=
  if r.numKeysReceived = 0 then .ok r
  else
    match r.partialNodes.getLast? with
    | none => .error (.panic "Must have at least one partial node.")
    | some lastNode =>
      match lastNode.rightmost with
      | none => .error (.panic "Must have at least one child.")
      | some i =>
        match lastNode.children i with
        | some (.leaf node) => do
          let ck ← lastNode.nodeKey.genChild r.version i
          pure { r with frozenNodes := r.frozenNodes.insertNode ck (.leaf node) }
        | _ => .error (.panic "Must have at least one child and must not have further internal nodes.")

/-- The parent update in `freeze_internal_nodes` (`restore.rs:530-551`). -/
def updateParent (ps : List (InternalInfo D)) (hash : D) (leafCount : Option Nat) : Res (List (InternalInfo D)) :=
  match ps.getLast? with
  | none => .ok ps
  | some parent =>
    match parent.rightmost with
    | none => .error (.panic "Must have at least one child.")
    | some i =>
      match parent.children i with
      | some (.internal h lc) => do
        assert h.isNone "assertion failed: hash.replace(node_hash) == None"
        assert lc.isNone "assertion failed: leaf_count.is_none()"
        pure (ps.dropLast ++ [parent.setChild i (.internal (some hash) leafCount)])
      | _ => .error (.panic "Must have at least one child and the rightmost child must not be a leaf.")

/-- `restore.rs:516-553` `freeze_internal_nodes`; the argument is the number of nodes to freeze. -/
def freezeInternalNodes (H : Hasher D) : Nat → Restore D → Res (Restore D)
  | 0, r => .ok r
  | n + 1, r =>
    match r.partialNodes.getLast? with
    | none => .error (.panic "This node must exist.")
    | some lastNode => do
      let (nk, node) ← lastNode.intoInternalNode H r.version r.migration
      let ps ← updateParent r.partialNodes.dropLast (node.hash H) node.leafCount
      freezeInternalNodes H n { r with partialNodes := ps, frozenNodes := r.frozenNodes.insertNode nk (.internal node) }

/-- `restore.rs:479-482` `freeze`. -/
def freeze (H : Hasher D) (r : Restore D) (numRemaining : Nat) : Res (Restore D) := do
  let r ← r.freezePreviousLeaf
  freezeInternalNodes H (r.partialNodes.length - numRemaining) r

/-- The loop of `insert_at_leaf` (`restore.rs:425-440`): one internal node per remaining nibble of the common prefix. -/
def insertChain (version : Version) : Nat → List Nibble → List Nibble → List (InternalInfo D) →
    Res (List Nibble × List (InternalInfo D))
  | 0, visited, _, ps => .ok (visited, ps)
  | _ + 1, _, [], _ => .error (.panic "This nibble must exist.")
  | n + 1, visited, nib :: rest, ps =>
    insertChain version n (visited ++ [nib]) rest
      (ps ++ [(InternalInfo.newEmpty ⟨version, visited⟩).setChild nib (.internal none none)])

/-- `restore.rs:399-476` `insert_at_leaf`. `visited` and `rest` are the nibbles before and after the position of
`remaining_nibbles`. `get_nibble` at index 64 (equal keys) would be an out-of-range panic. -/
def insertAtLeaf (H : Hasher D) (r : Restore D) (childIndex : Nibble) (existing : LeafNode D) (newKey : Key) (valueHash : D)
    (visited rest : List Nibble) : Res (Restore D) := do
  let num := r.partialNodes.length
  let ps := r.partialNodes.modify (num - 1) (fun p => p.setChild childIndex (.internal none none))
  let cpl := existing.keyHash.commonPrefixNibblesLen newKey
  let (visited, ps) ← insertChain r.version (cpl - num) visited rest ps
  assert (cpl < 64) "index out of bounds"
  let existingIndex := existing.keyHash.nibble cpl
  let info := (InternalInfo.newEmpty ⟨r.version, visited⟩).setChild existingIndex (.leaf existing)
  let r := { r with partialNodes := ps ++ [info] }
  let r ← r.freeze H r.partialNodes.length
  let newIndex := newKey.nibble cpl
  assert (existingIndex < newIndex) "New leaf must be on the right."
  pure { r with
    partialNodes := r.partialNodes.modify (r.partialNodes.length - 1) (fun p => p.setChild newIndex (.leaf ⟨newKey, valueHash⟩)) }

/-- The loop of `add_one` (`restore.rs:348-391`): `i` is the loop index, `rest` the nibbles not read yet. -/
def addOneLoop (H : Hasher D) (r : Restore D) (newKey : Key) (valueHash : D) : List Nibble → Nat → List Nibble → Res (Restore D)
  | [], _, _ => .ok r
  | nib :: rest, i, visited =>
    match r.partialNodes[i]? with
    | none => .error (.panic "assertion failed: i < self.partial_nodes.len()")
    | some info =>
      match info.children nib with
      | some (.leaf node) => do
        assert (i = r.partialNodes.length - 1) "If we see a leaf, there will be no more partial internal nodes on lower level, since they would have been frozen."
        insertAtLeaf H r nib node newKey valueHash (visited ++ [nib]) rest
      | some (.internal _ _) => addOneLoop H r newKey valueHash rest (i + 1) (visited ++ [nib])
      | none => do
        let r ← r.freeze H (i + 1)
        pure { r with partialNodes := r.partialNodes.modify i (fun p => p.setChild nib (.leaf ⟨newKey, valueHash⟩)) }

/-- `restore.rs:344-392` `add_one`. -/
def addOne (H : Hasher D) (r : Restore D) (newKey : Key) (valueHash : D) : Res (Restore D) :=
  addOneLoop H r newKey valueHash newKey.nibbles 0 []

/-- `restore.rs:637-667` `compute_left_sibling_impl` on the `2 ^ h` children from `start` on. -/
def computeLeftSiblingImpl (H : Hasher D) [DecidableEq D] (children : Nibble → Option (ChildInfo D)) : (h start : Nat) → Res (D × Bool)
  | 0, start =>
    match children (Fin.ofNat 16 start) with
    | some (.internal (some hash) _) => .ok (hash, false)
    | some (.internal none _) => .error (.panic "The hash must be known.")
    | some (.leaf node) => .ok (node.hash H, true)
    | none => .ok (H.placeholder, true)
  | h + 1, start => do
    let (leftHash, leftIsLeaf) ← computeLeftSiblingImpl H children h start
    let (rightHash, rightIsLeaf) ← computeLeftSiblingImpl H children h (start + 2 ^ h)
    if leftHash = H.placeholder ∧ rightIsLeaf then pure (rightHash, true)
    else if leftIsLeaf ∧ rightHash = H.placeholder then pure (leftHash, true)
    else pure (H.node leftHash rightHash, false)

/-- `restore.rs:629-634` `compute_left_sibling`; `height < 4` in the only call. -/
def computeLeftSibling (H : Hasher D) [DecidableEq D] (info : InternalInfo D) (n : Nibble) (height : Nat) : Res D := do
  let r ← computeLeftSiblingImpl H info.children height (InternalNode.childAndSiblingHalfStart n height).2
  pure r.1

/-- The first loop of `verify` (`restore.rs:575-594`) over the bit positions: the left siblings (topmost first) and the
number of right siblings visited. -/
def collectLeft (H : Hasher D) [DecidableEq D] (partialNodes : List (InternalInfo D)) (key : Key) :
    List Nat → List D → Nat → Res (List D × Nat)
  | [], left, num => .ok (left, num)
  | i :: t, left, num =>
    if key.bit i then
      match partialNodes[i / 4]? with
      | none => collectLeft H partialNodes key t (left ++ [H.placeholder]) num
      | some info => do
        let s ← computeLeftSibling H info (key.nibble (i / 4)) (3 - i % 4)
        collectLeft H partialNodes key t (left ++ [s]) num
    else collectLeft H partialNodes key t left (num + 1)

/-- The second loop of `verify` (`restore.rs:601-615`) over the bits, last one first. -/
def trimLeft (H : Hasher D) [DecidableEq D] (numRight : Nat) : List Bool → List D → Nat → Res (List D)
  | [], left, _ => .ok left
  | true :: bits, left, num =>
    match left.getLast? with
    | none => .error (.panic "This sibling must exist.")
    | some s => if s = H.placeholder then trimLeft H numRight bits left.dropLast num else .ok left
  | false :: bits, left, num =>
    if numRight < num then trimLeft H numRight bits left (num - 1) else .ok left

/-- `restore.rs:559-626` `verify`. -/
def verify (H : Hasher D) [DecidableEq D] (r : Restore D) (proof : SparseMerkleRangeProof D) : Res Unit :=
  match r.previousLeaf with
  | none => .error (.panic "The previous leaf must exist.")
  | some leaf => do
    let (left, num) ← collectLeft H r.partialNodes leaf.keyHash (List.range 256) [] 0
    ensure (decide (proof.rightSiblings.length ≤ num)) "Too many right siblings in the proof."
    let left ← trimLeft H proof.rightSiblings.length leaf.keyHash.bits.reverse left num
    proof.verify H r.expectedRootHash leaf left.reverse

/-- One round of the loop of `add_chunk_impl` (`restore.rs:325-331`) after the order check. -/
def addPair (H : Hasher D) (r : Restore D) (key : Key) (value : Value) : Res (Restore D) := do
  let r := { r with frozenNodes := r.frozenNodes.insertValue r.version key value }
  let r ← r.addOne H key (H.value value)
  pure { r with previousLeaf := some ⟨key, H.value value⟩, numKeysReceived := r.numKeysReceived + 1 }

/-- The order check `key > prev_leaf.key_hash()` (`restore.rs:319-324`). -/
def inOrder (r : Restore D) (key : Key) : Bool :=
  match r.previousLeaf with
  | none => true
  | some l => decide (l.keyHash < key)

/-- The loop of `add_chunk_impl` (`restore.rs:318-331`): the state reached and the error, if any. -/
def addPairs (H : Hasher D) : Restore D → List (Key × Value) → Res (Restore D × Option String)
  | r, [] => .ok (r, none)
  | r, (key, value) :: t =>
    if r.inOrder key then do
      let r ← r.addPair H key value
      addPairs H r t
    else .ok (r, some "Account keys must come in increasing order.")

/-- The rest of `add_chunk_impl` (`restore.rs:333-340`). An `Err` of `write_node_batch` is returned without the nodes
that may have been written before it occurred; it does not occur on a store that
holds no value of a later version for a key given (`C105_unchanged_partial`); `Restore.finishChunkLeft` has the nodes. -/
def finishChunk (H : Hasher D) [DecidableEq D] (r : Restore D) (proof : SparseMerkleRangeProof D) : Res (Restore D × Option String) :=
  match r.verify H proof with
  | .error (.panic m) => .error (.panic m)
  | .error (.err m) => .ok (r, some m)
  | .ok () =>
    match r.store.writeNodeBatch r.frozenNodes with
    | .error (.panic m) => .error (.panic m)
    | .error (.err m) => .ok (r, some m)
    | .ok s => .ok ({ r with store := s, frozenNodes := .empty }, none)

/-- `restore.rs:311-341` `add_chunk_impl` and `add_chunk` (716-722). -/
def addChunk (H : Hasher D) [DecidableEq D] (r : Restore D) (chunk : List (Key × Value)) (proof : SparseMerkleRangeProof D) :
    Res (Restore D × Option String) :=
  if chunk.isEmpty then .ok (r, some "Should not add empty chunks.")
  else
    match r.addPairs H chunk with
    | .error e => .error e
    | .ok (r, some m) => .ok (r, some m)
    | .ok (r, none) => r.finishChunk H proof

/-- Not in the code: a caller that adds chunk after chunk, going on after an `Err`; the outcome of each call. -/
def addChunks (H : Hasher D) [DecidableEq D] : Restore D → List (List (Key × Value) × SparseMerkleRangeProof D) →
    Res (Restore D × List (Option String))
  | r, [] => .ok (r, [])
  | r, c :: t => do
    let (r, out) ← r.addChunk H c.1 c.2
    let (r, outs) ← addChunks H r t
    pure (r, out :: outs)

/-- Not in the code: a caller that is interrupted again and again. Every session starts a restore on the store left by the one before,
adds chunks, and is dropped; the final store and the outcomes. -/
def sessions (H : Hasher D) [DecidableEq D] (version : Version) (root : D) (migration : Bool) :
    Store D → List (List (List (Key × Value) × SparseMerkleRangeProof D)) → Res (Store D × List (List (Option String)))
  | s, [] => .ok (s, [])
  | s, c :: t => do
    let r ← new H s version root migration
    let (r, outs) ← r.addChunks H c
    let (s, os) ← sessions H version root migration r.store t
    pure (s, outs :: os)

/-- The children of the only partial node, if there is only one (`restore.rs:674-685`). -/
def rootInfos (r : Restore D) : List (ChildInfo D) :=
  match r.partialNodes with
  | [root] => (List.finRange 16).filterMap root.children
  | _ => []

/-- `restore.rs:672-699` `finish_impl`: the store written. -/
def finish (H : Hasher D) (r : Restore D) : Res (Store D) :=
  match r.rootInfos with
  | [.leaf node] => do
    assert r.frozenNodes.isEmpty "assertion failed: self.frozen_nodes.is_empty()"
    r.store.writeNodeBatch (r.frozenNodes.insertNode (.newEmptyPath r.version) (.leaf node))
  | _ => do
    let r ← r.freeze H 0
    r.store.writeNodeBatch r.frozenNodes

end Restore

end Verif.Jmt
