import Verif.Jmt.Versioned
import Verif.Jmt.Exclusion
import Verif.Jmt.Ics23
import Verif.Jmt.Iterator
import Verif.Jmt.Tree
import Verif.Jmt.Batch
import Verif.Jmt.Restore
/-!
The functions of `Jmt/Read`, `Jmt/Versioned`, `Jmt/Exclusion`, `Jmt/Ics23`, `Jmt/Iterator`, `Jmt/TreeCache`, `Jmt/Tree`, `Jmt/Batch` and
`Jmt/Restore` that look something up, once more, with lookups that may fail: in `/repo/jmt/src/reader.rs` every lookup returns a `Result`. The
other files leave the errors out, because the in-memory store of `mock.rs` has none. Functions that look nothing up are taken from there.

During one call a lookup either fails each time or never. As nearly every failure ends the call, this matters only for a lookup that is made twice
in one call and fails the second time.
-/

set_option autoImplicit false

namespace Verif.Jmt
variable {D : Type} {α : Type}

/-- A `TreeReader` and `HasPreimage` (`reader.rs:10-58`) whose lookups may fail: what it holds, and the errors of the lookups that fail. -/
structure FReader (D : Type) where
  held : Reader D
  heldPreimage : Key → Option (List UInt8)
  nodeError : NodeKey → Option String
  valueError : Version → Key → Option String
  preimageError : Key → Option String
  /-- the error of `get_rightmost_leaf`, which looks at everything -/
  rightmostError : Option String

/-- The answer `a` to a lookup, or its error. -/
def answer (e : Option String) (a : α) : Res α :=
  match e with
  | some m => .error (.err m)
  | none => .ok a

namespace FReader

/-- `reader.rs:19` `get_node_option`. -/
def getNodeOption (r : FReader D) (nk : NodeKey) : Res (Option (Node D)) := answer (r.nodeError nk) (r.held.getNodeOption nk)

/-- `reader.rs:34-38` `get_value_option`. -/
def getValueOption (r : FReader D) (v : Version) (k : Key) : Res (Option Value) := answer (r.valueError v k) (r.held.getValueOption v k)

/-- `reader.rs:55-58` `preimage`. -/
def preimage (r : FReader D) (k : Key) : Res (Option (List UInt8)) := answer (r.preimageError k) (r.heldPreimage k)

/-- `reader.rs:13-16` `get_node`. -/
def getNode (r : FReader D) (nk : NodeKey) : Res (Node D) := do
  match ← r.getNodeOption nk with
  | some n => pure n
  | none => .error (.err "Missing node")

/-- `reader.rs:23-30` `get_value`. -/
def getValue (r : FReader D) (v : Version) (k : Key) : Res Value := do
  match ← r.getValueOption v k with
  | some x => pure x
  | none => .error (.err "Missing value")

/-- `tree.rs:856-862`, `983-989` and `1167-1173`: `get_node` at nibble depth `depth`; at depth 0 every error becomes a `MissingRootError`. -/
def getNodeAt (r : FReader D) (depth : Nat) (nk : NodeKey) : Res (Node D) :=
  match r.getNode nk with
  | .ok n => .ok n
  | .error e => .error (if depth = 0 then .err "Missing root" else e)

/-! ### reads -/

/-- `tree.rs:856-911` the loop of `get_with_proof`. -/
def getWithProofLoop (H : Hasher D) (r : FReader D) (key : Key) (version : Version) :
    (fuel : Nat) → (depth : Nat) → NodeKey → List Nibble → List D → Res (Option Value × SparseMerkleProof D)
  | 0, _, _, _, _ => .error (.err "Jellyfish Merkle tree has cyclic graph inside.")
  | fuel + 1, depth, nk, nibs, sibs =>
    match r.getNodeAt depth nk with
    | .error e => .error e
    | .ok (.internal n) =>
      match nibs with
      | [] => .error (.err "ran out of nibbles")
      | q :: nibs' =>
        match n.getChildWithSiblings H nk q with
        | .error e => .error e
        | .ok (none, s) => .ok (none, ⟨none, (sibs ++ s).reverse⟩)
        | .ok (some nk', s) => getWithProofLoop H r key version fuel (depth + 1) nk' nibs' (sibs ++ s)
    | .ok (.leaf l) =>
      if l.keyHash = key then do
        let v ← r.getValue version l.keyHash
        pure (some v, ⟨some l, sibs.reverse⟩)
      else .ok (none, ⟨some l, sibs.reverse⟩)
    | .ok .null =>
      if depth = 0 then .ok (none, ⟨none, []⟩)
      else .error (.err "Non-root null node exists with node key")

/-- `tree.rs:842-913` `get_with_proof`. -/
def getWithProof (H : Hasher D) (r : FReader D) (key : Key) (version : Version) : Res (Option Value × SparseMerkleProof D) :=
  getWithProofLoop H r key version (rootNibbleHeight + 1) 0 (.newEmptyPath version) key.nibbles []

/-- `tree.rs:1225-1233` `get_root_node`. -/
def getRootNode (r : FReader D) (version : Version) : Res (Node D) := do
  match ← r.getNodeOption (.newEmptyPath version) with
  | some n => pure n
  | none => .error (.err "Root node not found for version")

/-- `tree.rs:1235-1237` `get_root_hash`. -/
def getRootHash (H : Hasher D) (r : FReader D) (version : Version) : Res D := do
  let n ← r.getRootNode version
  pure (n.hash H)

/-- `tree.rs:1239-1243` `get_root_hash_option`. -/
def getRootHashOption (H : Hasher D) (r : FReader D) (version : Version) : Res (Option D) := do
  let n ← r.getNodeOption (.newEmptyPath version)
  pure (n.map (fun n => n.hash H))

/-- `tree.rs:1246-1256` `get_leaf_count`. -/
def getLeafCount (migration : Bool) (r : FReader D) (version : Version) : Res (Option Nat) :=
  if migration then do
    let n ← r.getRootNode version
    pure n.leafCount
  else .ok none

/-- `tree.rs:67-69` `get`. -/
def get (r : FReader D) (key : Key) (version : Version) : Res (Option Value) := r.getValueOption version key

/-- `trie.rs:18-20` `contains`. -/
def contains (r : FReader D) (key : Key) (version : Version) : Res Bool := do
  let x ← r.get key version
  pure x.isSome

/-- `tree.rs:1199-1223` `get_range_proof`. -/
def getRangeProof (H : Hasher D) (r : FReader D) (key : Key) (version : Version) : Res (SparseMerkleRangeProof D) := do
  let (account, proof) ← r.getWithProof H key version
  ensure account.isSome "rightmost_key_to_prove must exist."
  pure ⟨((proof.siblings.reverse.zip key.bits).filterMap (fun sb => if sb.2 then none else some sb.1)).reverse⟩

/-- `tree.rs:71-73` `get_proof`. -/
def getProof (H : Hasher D) (r : FReader D) (key : Key) (version : Version) : Res (SparseMerkleProof D) := do
  let (_, p) ← r.getWithProof H key version
  pure p

/-- `tree.rs:75-84` `verify_proof`. -/
def verifyProof (H : Hasher D) [DecidableEq D] (r : FReader D) (key : Key) (version : Version) (root : D) (p : SparseMerkleProof D) :
    Res Unit := do
  let (value, _) ← r.getWithProof H key version
  p.verify H root key value

/-! ### exclusion proofs -/

/-- `tree.rs:1166-1195`: the loop of `get_extreme_key_hash`. -/
def getExtremeKeyHashLoop (r : FReader D) (extreme : Tree.Extreme) : (fuel : Nat) → (depth : Nat) → NodeKey → Res Key
  | 0, _, _ => .error (.err "Jellyfish Merkle tree has cyclic graph inside.")
  | fuel + 1, depth, nk =>
    match r.getNodeAt depth nk with
    | .error e => .error e
    | .ok (.internal n) =>
      match Tree.minOrMax n extreme with
      | none => .error (.panic "a child always exists")
      | some q =>
        match n.getChildWithoutSiblings nk q with
        | .error e => .error e
        | .ok none => .error (.err "Internal node has no children")
        | .ok (some nk') => getExtremeKeyHashLoop r extreme fuel (depth + 1) nk'
    | .ok (.leaf l) => .ok l.keyHash
    | .ok .null => .error (.err "Null node cannot have children")

/-- `tree.rs:915-969` `search_closest_extreme_node` and `1150-1196` `get_extreme_key_hash`. -/
def searchClosestExtremeNode (r : FReader D) (version : Version) (extreme : Tree.Extreme) (to : List Nibble)
    (parents : List (InternalNode D)) : Res (Option Key) := do
  match ← Tree.climb extreme to.reverse parents.reverse with
  | none => pure none
  | some path => do
    let k ← r.getExtremeKeyHashLoop extreme.opposite (rootNibbleHeight + 1 - path.length) path.length ⟨version, path⟩
    pure (some k)

/-- `tree.rs:983-1036`: the loop of `search_for_closest_node`. -/
def searchLoop (r : FReader D) : (fuel : Nat) → (depth : Nat) → NodeKey → (nibs : List Nibble) → (visited : List Nibble) →
    (parents : List (InternalNode D)) → Res (Tree.SearchResult D)
  | 0, _, _, _, _, _ => .error (.err "Jellyfish Merkle tree has cyclic graph inside.")
  | fuel + 1, depth, nk, nibs, visited, parents =>
    match r.getNodeAt depth nk with
    | .error e => .error e
    | .ok (.internal n) =>
      match nibs with
      | [] => .error (.err "ran out of nibbles")
      | q :: nibs' =>
        match n.getChildWithoutSiblings nk q with
        | .error e => .error e
        | .ok none => .ok (.foundInternal (visited ++ [q]) (parents ++ [n]))
        | .ok (some nk') => searchLoop r fuel (depth + 1) nk' nibs' (visited ++ [q]) (parents ++ [n])
    | .ok (.leaf l) => .ok (.foundLeaf l.keyHash visited parents)
    | .ok .null =>
      if depth = 0 then .error (.err "Cannot manufacture nonexistence proof by exclusion for the empty tree")
      else .error (.err "Non-root null node exists with node key")

/-- `tree.rs:1041-1104` `get_bounding_path`. -/
def getBoundingPath (r : FReader D) (searchKey : Key) (version : Version) : Res (Option Key × Option Key) := do
  match ← r.searchLoop (rootNibbleHeight + 1) 0 (.newEmptyPath version) searchKey.nibbles [] [] with
  | .foundLeaf leafHash path parents =>
    if leafHash < searchKey then do
      let right ← r.searchClosestExtremeNode version .right path parents
      pure (some leafHash, right)
    else if leafHash = searchKey then
      .error (.err "found exact key when searching for bounding path for nonexistence proof")
    else do
      let left ← r.searchClosestExtremeNode version .left path parents
      pure (left, some leafHash)
  | .foundInternal path parents => do
    let right ← r.searchClosestExtremeNode version .right path parents
    let left ← r.searchClosestExtremeNode version .left path parents
    pure (left, right)

/-- `tree.rs:1107-1148` `get_with_exclusion_proof`. -/
def getWithExclusionProof (H : Hasher D) (r : FReader D) (key : Key) (version : Version) : Res (Tree.Answer D) := do
  match ← r.getWithProof H key version with
  | (some value, proof) => pure (.present value proof)
  | (none, _) =>
    match ← r.getBoundingPath key version with
    | (some left, some right) => do
      let (_, leftProof) ← r.getWithProof H left version
      let (_, rightProof) ← r.getWithProof H right version
      pure (.absent (.middle rightProof leftProof))
    | (some left, none) => do
      let (_, leftProof) ← r.getWithProof H left version
      pure (.absent (.rightmost leftProof))
    | (none, some right) => do
      let (_, rightProof) ← r.getWithProof H right version
      pure (.absent (.leftmost rightProof))
    | (none, none) => .error (.err "Invalid exclusion proof")

/-- `ics23_impl.rs:90-187`: one neighbour's inclusion proof with the key's preimage and value, as in `Tree.toNeighbour`. -/
def toNeighbour (sha : List UInt8 → Key) (r : FReader Key) (version : Version) (p : SparseMerkleProof Key) : Res Ics23.ExistenceProof :=
  match p.leaf with
  | none => .error (.panic "must have leaf")
  | some l => do
    match ← r.preimage l.keyHash with
    | none => .error (.err "missing preimage for key hash")
    | some key =>
      match ← r.get l.keyHash version with
      | none => .error (.err "missing value for key hash")
      | some value => Tree.toExistenceProof sha key value p

/-- `ics23_impl.rs:83-189` `exclusion_proof_to_ics23_nonexistence_proof`. -/
def toNonExistenceProof (sha : List UInt8 → Key) (r : FReader Key) (key : List UInt8) (version : Version) :
    Tree.ExclusionProof Key → Res Ics23.NonExistenceProof
  | .leftmost right => do
    let r' ← r.toNeighbour sha version right
    pure ⟨key, none, some r'⟩
  | .middle right left => do
    let r' ← r.toNeighbour sha version right
    let l' ← r.toNeighbour sha version left
    pure ⟨key, some l', some r'⟩
  | .rightmost left => do
    let l' ← r.toNeighbour sha version left
    pure ⟨key, some l', none⟩

/-- `ics23_impl.rs:194-229` `get_with_ics23_proof`. -/
def getWithIcs23Proof (sha : List UInt8 → Key) (r : FReader Key) (key : List UInt8) (version : Version) :
    Res (Option Value × Ics23.CommitmentProof) := do
  match ← r.getWithExclusionProof (Tree.shaHasher sha) (sha key) version with
  | .present value proof => do
    let p ← Tree.toExistenceProof sha key value proof
    pure (some value, .exist p)
  | .absent proof => do
    let p ← r.toNonExistenceProof sha key version proof
    pure (none, .nonexist p)

/-! ### iterators -/

/-- `iterator.rs:172-190` the second match of `new`. -/
def newBottom (r : FReader D) (version : Version) (startingKey : Key) (nk : NodeKey) (st : List (NodeVisitInfo D)) : Res (Iter D) := do
  let n ← r.getNode nk
  match n with
  | .internal _ => .error (.panic "Should have reached the bottom of the tree.")
  | .leaf l =>
    if l.keyHash < startingKey then do
      let st' ← Iter.cleanupStack st
      pure ⟨version, st', st'.isEmpty⟩
    else pure ⟨version, st, false⟩
  | .null => pure ⟨version, st, true⟩

/-- `iterator.rs:134-170` the `while let` loop of `new`. -/
def newLoop (r : FReader D) (version : Version) (startingKey : Key) :
    (nibbles : List Nibble) → NodeKey → List (NodeVisitInfo D) → Res (Iter D)
  | nibs, nk, st =>
    match r.getNode nk with
    | .error e => .error e
    | .ok (.internal n) =>
      match nibs with
      | [] => .error (.panic "Should have enough nibbles.")
      | i :: nibs' =>
        match n.child i with
        | some c =>
          match NodeVisitInfo.newNextChildToVisit nk n i with
          | .error e => .error e
          | .ok info =>
            match nk.genChild c.version i with
            | .error e => .error e
            | .ok nk' => newLoop r version startingKey nibs' nk' (info :: st)
        | none => Iter.newAbsent version nk n i st
    | .ok _ => r.newBottom version startingKey nk st

/-- `iterator.rs:126-191` `new`. -/
def newIter (r : FReader D) (version : Version) (startingKey : Key) : Res (Iter D) :=
  r.newLoop version startingKey startingKey.nibbles (.newEmptyPath version) []

/-- `iterator.rs:223-256` the loop of `new_by_index`. -/
def byIndexLoop (r : FReader D) (version : Version) (startIdx : Nat) :
    (fuel : Nat) → NodeKey → Node D → (skipped : Nat) → List (NodeVisitInfo D) → Res (Iter D)
  | 0, _, _, _, _ => .error (.err "Bug: potential infinite loop.")
  | _ + 1, _, .null, _, _ => .error (.panic "The Node::Null case has already been covered before loop.")
  | _ + 1, _, .leaf _, skipped, st =>
    if skipped = startIdx then .ok ⟨version, st, false⟩
    else .error (.err "Bug: The leaf should be the exact one we are looking for.")
  | fuel + 1, nk, .internal n, skipped, st =>
    match Iter.skipLeaves n.children.iterSorted skipped startIdx with
    | .error e => .error e
    | .ok (skipped', i, c) =>
      match nk.genChild c.version i with
      | .error e => .error e
      | .ok nk' =>
        match NodeVisitInfo.newNextChildToVisit nk n i with
        | .error e => .error e
        | .ok info =>
          match r.getNode nk' with
          | .error e => .error e
          | .ok n' => byIndexLoop r version startIdx fuel nk' n' skipped' (info :: st)

/-- `iterator.rs:206-257` `new_by_index`. -/
def newByIndex (r : FReader D) (version : Version) (startIdx : Nat) : Res (Iter D) := do
  let nk := NodeKey.newEmptyPath version
  let n ← r.getNode nk
  match n.leafCount with
  | none => .error (.err "Leaf counts not available.")
  | some total =>
    if startIdx ≥ total then pure ⟨version, [], true⟩
    else r.byIndexLoop version startIdx (rootNibbleHeight + 1) nk n 0 []

/-- `iterator.rs:316-352` the loop of `next` on a non-empty stack. -/
def nextLoop (r : FReader D) (version : Version) :
    (fuel : Nat) → List (NodeVisitInfo D) → Res (Option (Res (Key × Value)) × Iter D)
  | 0, _ => .error (.panic "out of fuel")
  | _ + 1, [] => .error (.panic "We have checked that self.parent_stack is not empty.")
  | fuel + 1, info :: st =>
    let i := InternalNode.onlyChildIndex info.nextChildToVisit
    match info.node.child i with
    | none => .error (.panic "Child should exist.")
    | some c =>
      match info.nodeKey.genChild c.version i with
      | .error e => .error e
      | .ok nk =>
        match r.getNode nk with
        | .ok (.internal n) =>
          match NodeVisitInfo.new nk n with
          | .error e => .error e
          | .ok info' => nextLoop r version fuel (info' :: info :: st)
        | .ok (.leaf l) =>
          match r.getValue nk.version l.keyHash with
          | .ok value =>
            match Iter.cleanupStack (info :: st) with
            | .error e => .error e
            | .ok st' => .ok (some (.ok (l.keyHash, value)), ⟨version, st', false⟩)
          | .error e => .ok (some (.error e), ⟨version, info :: st, false⟩)
        | .ok .null => .ok (some (.error (.err "Should not reach a null node.")), ⟨version, info :: st, false⟩)
        | .error e => .ok (some (.error e), ⟨version, info :: st, false⟩)

/-- `iterator.rs:289-314` `next` on an empty stack. `done` is set before the value is looked up. -/
def nextRoot (r : FReader D) (it : Iter D) : Res (Option (Res (Key × Value)) × Iter D) :=
  match r.getNode (.newEmptyPath it.version) with
  | .ok (.leaf l) => .ok (some ((r.getValue it.version l.keyHash).map (fun v => (l.keyHash, v))), { it with done := true })
  | .ok (.internal _) => .ok (none, it)
  | .ok .null => .error (.panic "We would have set done to true in new.")
  | .error e => .ok (some (.error e), it)

/-- `iterator.rs:284-353` `next`. -/
def next (r : FReader D) (it : Iter D) : Res (Option (Res (Key × Value)) × Iter D) :=
  if it.done then .ok (none, it)
  else if it.parentStack.isEmpty then r.nextRoot it
  else r.nextLoop it.version 66 it.parentStack

/-! ### updates

The field `reader` of a `TreeCache` is not looked at here; the lookups are made in the argument `r`. -/

/-- `tree_cache.rs:154-189` `TreeCache::new`. -/
def newCache (r : FReader D) (nextVersion : Version) : Res (TreeCache D) :=
  let base (rk : NodeKey) (nc : FMap NodeKey (Node D)) : TreeCache D :=
    { rootNodeKey := rk, nextVersion := nextVersion, nodeCache := nc, valueCache := .empty,
      numNewLeaves := 0, staleNodeIndexCache := .empty, numStaleLeaves := 0, frozen := .new,
      reader := r.held }
  if nextVersion = 0 then do
    match ← r.getNodeOption (.newEmptyPath preGenesisVersion) with
    | some _ => pure (base (.newEmptyPath preGenesisVersion) .empty)
    | none => pure (base (.newEmptyPath 0) (FMap.empty.set (.newEmptyPath 0) .null))
  else pure (base (.newEmptyPath (nextVersion - 1)) .empty)

/-- `tree_cache.rs:204-212` `get_node_option`. -/
def cachedOption (r : FReader D) (c : TreeCache D) (nk : NodeKey) : Res (Option (Node D)) :=
  match c.nodeCache.get nk with
  | some n => .ok (some n)
  | none =>
    match c.frozen.nodeCache.nodes.get nk with
    | some n => .ok (some n)
    | none => r.getNodeOption nk

/-- `tree_cache.rs:192-200` `get_node`. -/
def cached (r : FReader D) (c : TreeCache D) (nk : NodeKey) : Res (Node D) :=
  match c.nodeCache.get nk with
  | some n => .ok n
  | none =>
    match c.frozen.nodeCache.nodes.get nk with
    | some n => .ok n
    | none => r.getNode nk

/-- `tree_cache.rs:260-271` first part of `freeze`. -/
def freezeRoot (r : FReader D) (c : TreeCache D) : Res (TreeCache D × Node D) := do
  match ← r.cachedOption c c.rootNodeKey with
  | some n => pure (c, n)
  | none => do
    let c ← c.putNode c.rootNodeKey .null
    pure (c, Node.null)

/-- `tree_cache.rs:273-294` second part of `freeze`. -/
def freezeCopy (r : FReader D) (c : TreeCache D) : Res (TreeCache D) :=
  if c.nextVersion > 0 ∧ c.nodeCache.isEmpty = true ∧ c.staleNodeIndexCache.isEmpty = true then do
    let rootNode ← r.cached c c.rootNodeKey
    c.putNode (c.rootNodeKey.setVersion c.nextVersion) rootNode
  else .ok c

/-- `tree_cache.rs:258-325` `freeze`. -/
def freeze (H : Hasher D) (r : FReader D) (c : TreeCache D) : Res (TreeCache D) := do
  let (c, rootNode) ← r.freezeRoot c
  let c ← r.freezeCopy (c.pushRoot (rootNode.hash H))
  .ok c.freezeMove

/-- `tree.rs:643-690`: the part of `insert_at_internal_node` after the recursive call. -/
def finishInternal (H : Hasher D) (r : FReader D) (nk : NodeKey) (internal : InternalNode D) (version : Version)
    (childIndex : Nibble) (result : PutResult (NodeKey × Node D)) (c : TreeCache D) :
    Res (TreeCache D × PutResult (NodeKey × Node D)) := do
  let children := internal.children
  match result with
  | .notChanged => pure (c, .notChanged)
  | .updated (_, newNode) => do
    let ty ← newNode.nodeType
    rest (children.insert childIndex ⟨newNode.hash H, version, ty⟩) c
  | .removed => rest (children.remove childIndex) c
where
  /-- `tree.rs:662-690` -/
  rest (children : Children D) (c : TreeCache D) : Res (TreeCache D × PutResult (NodeKey × Node D)) := do
    let c ← c.deleteNode nk false
    let mk (c : TreeCache D) : Res (TreeCache D × PutResult (NodeKey × Node D)) := do
      let newInternal ← InternalNode.new children
      let nk := nk.setVersion version
      let c ← c.putNode nk (.internal newInternal)
      pure (c, .updated (nk, .internal newInternal))
    match children.iterSorted with
    | [] => pure (c, .removed)
    | [(childNibble, child)] =>
      if child.isLeaf then do
        let childKey ← nk.genChild child.version childNibble
        let childNode ← r.cached c childKey
        let c ← c.deleteNode childKey true
        let nk := nk.setVersion version
        let c ← c.putNode nk childNode
        pure (c, .updated (nk, childNode))
      else mk c
    | _ => mk c

/-- `tree.rs:543-602` `insert_at` and `607-641`. -/
def insertAt (H : Hasher D) (migration : Bool) (r : FReader D) (version : Version) (key : Key) (value : Option D) :
    (rest : List Nibble) → (visited : List Nibble) → (nk : NodeKey) → TreeCache D →
    Res (TreeCache D × PutResult (NodeKey × Node D))
  | rest, visited, nk, c =>
    match r.cachedOption c nk with
    | .error e => .error e
    | .ok (some (.internal internal)) =>
      match rest with
      | [] => .error (.panic "Ran out of nibbles")
      | childIndex :: rest' => do
        let (c, result) ← match internal.child childIndex with
          | some child => do
            let childKey ← nk.genChild child.version childIndex
            insertAt H migration r version key value rest' (visited ++ [childIndex]) childKey c
          | none =>
            match value with
            | some vh => do
              let newChildKey ← nk.genChild version childIndex
              let (c, r) ← Tree.createLeafNode newChildKey key vh c
              pure (c, PutResult.updated r)
            | none => pure (c, PutResult.notChanged)
        r.finishInternal H nk internal version childIndex result c
    | .ok (some (.leaf leaf)) => Tree.insertAtLeafNode H migration nk leaf version key visited rest value c
    | .ok (some .null) => Tree.insertAt.insertNull version key value nk true c
    | .ok none => Tree.insertAt.insertNull version key value nk false c

/-- `tree.rs:504-537` `put`. -/
def put (H : Hasher D) (migration : Bool) (r : FReader D) (key : Key) (value : Option D) (version : Version) (c : TreeCache D) :
    Res (TreeCache D) := do
  let (c, res) ← r.insertAt H migration version key value key.nibbles [] c.rootNodeKey c
  match res with
  | .updated (nk, _) => pure (c.setRootNodeKey nk)
  | .notChanged => pure c
  | .removed => do
    let k := NodeKey.newEmptyPath version
    let c := c.setRootNodeKey k
    c.putNode k .null

/-- `tree.rs:482-496` the inner loop of `put_value_sets`. -/
def putSet (H : Hasher D) (migration : Bool) (r : FReader D) (version : Version) : Tree.ValueSet → TreeCache D → Res (TreeCache D)
  | [], c => .ok c
  | (key, value) :: t, c => do
    let c := c.putValue version key value
    let c ← r.put H migration key (value.map H.value) version c
    putSet H migration r version t c

/-- `tree.rs:480-499` the outer loop of `put_value_sets`. -/
def putSets (H : Hasher D) (migration : Bool) (r : FReader D) : Version → List Tree.ValueSet → TreeCache D → Res (TreeCache D)
  | _, [], c => .ok c
  | version, s :: t, c => do
    let c ← r.putSet H migration version s c
    let c ← r.freeze H c
    putSets H migration r (version + 1) t c

/-- `tree.rs:474-502` `put_value_sets`. -/
def putValueSets (H : Hasher D) (migration : Bool) (r : FReader D) (sets : List Tree.ValueSet) (firstVersion : Version) :
    Res (List D × TreeUpdateBatch D) := do
  let c ← r.newCache firstVersion
  let c ← r.putSets H migration firstVersion sets c
  pure c.into

/-- `tree.rs:419-431` `put_value_set`. -/
def putValueSet (H : Hasher D) (migration : Bool) (r : FReader D) (set : Tree.ValueSet) (version : Version) :
    Res (D × TreeUpdateBatch D) := do
  let (roots, batch) ← r.putValueSets H migration [set] version
  match roots with
  | [x] => pure (x, batch)
  | _ => .error (.panic "root_hashes must consist of a single value.")

/-- `tree.rs:194-298` `batch_insert_at`. -/
def batchInsertAt (H : Hasher D) (migration : Bool) (r : FReader D) (hc : Option (Tree.HashCache D)) (version : Version) :
    (height : Nat) → NodeKey → List (Key × D) → TreeCache D → Res (TreeCache D × (NodeKey × Node D))
  | height, nk, kvs, c => do
    assert (!kvs.isEmpty) "assertion failed: !kvs.is_empty()"
    match ← r.cached c nk with
    | .internal internal => do
      let c ← c.deleteNode nk false
      match height with
      | 0 => .error (.panic "assertion failed: nibble_idx < ROOT_NIBBLE_HEIGHT")
      | height + 1 => do
        let (c, children) ← Tree.batchChildren H hc version (fun i g c =>
            match internal.child i with
            | some child => do
              let childKey ← nk.genChild child.version i
              batchInsertAt H migration r hc version height childKey g c
            | none => do
              let childKey ← nk.genChild version i
              Tree.batchCreateSubtree H migration hc version height childKey g c)
          (nibbleGroups kvs (rootNibbleHeight - (height + 1))) internal.children c
        let internal ← InternalNode.newMigration children migration
        let nk := nk.setVersion version
        let c ← c.putNode nk (.internal internal)
        pure (c, (nk, .internal internal))
    | .leaf leaf => do
      let c ← c.deleteNode nk true
      Tree.batchWithLeaf H migration hc version leaf height (nk.setVersion version) kvs c
    | .null => do
      ensure nk.path.isEmpty "Null node exists for non-root node"
      let c ← if nk.version = version then c.deleteNode nk false else pure c
      Tree.batchCreateSubtree H migration hc version height (.newEmptyPath version) kvs c

/-- `tree.rs:158-189` one round of the loop of `batch_put_value_sets`. -/
def batchPutSet (H : Hasher D) (migration : Bool) (r : FReader D) (hc : Option (Tree.HashCache D)) (version : Version)
    (set : List (Key × Value)) (c : TreeCache D) : Res (TreeCache D) := do
  assert (!set.isEmpty) "Transactions that output empty write set should not be included."
  let kvs := Tree.sortDedup set
  let c := kvs.foldl (fun c e => c.putValue version e.1 (some e.2)) c
  let (c, (nk, _)) ← r.batchInsertAt H migration hc version rootNibbleHeight c.rootNodeKey
    (kvs.map (fun e => (e.1, H.value e.2))) c
  r.freeze H (c.setRootNodeKey nk)

/-- The loop of `batch_put_value_sets`. -/
def batchPutSets (H : Hasher D) (migration : Bool) (r : FReader D) :
    Version → List (List (Key × Value) × Option (Tree.HashCache D)) → TreeCache D → Res (TreeCache D)
  | _, [], c => .ok c
  | version, (s, hc) :: t, c => do
    let c ← r.batchPutSet H migration hc version s c
    batchPutSets H migration r (version + 1) t c

/-- `tree.rs:145-192` `batch_put_value_sets`. -/
def batchPutValueSets (H : Hasher D) (migration : Bool) (r : FReader D) (sets : List (List (Key × Value)))
    (hashes : Option (List (Tree.HashCache D))) (firstVersion : Version) : Res (List D × TreeUpdateBatch D) := do
  let hcs : List (Option (Tree.HashCache D)) := match hashes with
    | some l => l.map some
    | none => sets.map (fun _ => none)
  let c ← r.newCache firstVersion
  let c ← r.batchPutSets H migration firstVersion (sets.zip hcs) c
  assert (decide (sets.length = hcs.length)) "itertools: .zip_eq() reached end of one iterator before the other"
  pure c.into

/-! ### restore -/

/-- The `while` loop of `recover_partial_nodes` (`restore.rs:251-253`). -/
def recoverStart (r : FReader D) : (fuel : Nat) → NodeKey → Res NodeKey
  | 0, nk => .ok nk
  | fuel + 1, nk => do
    match ← r.getNodeOption nk with
    | some _ => do
      let p ← nk.genParent
      recoverStart r fuel p
    | none => pure nk

/-- The inner loop of `recover_partial_nodes` (`restore.rs:267-280`). -/
def recoverChildren (H : Hasher D) (r : FReader D) (version : Version) : List Nibble → InternalInfo D → Res (InternalInfo D)
  | [], info => .ok info
  | i :: t, info => do
    let ck ← info.nodeKey.genChild version i
    match ← r.getNodeOption ck with
    | none => recoverChildren H r version t info
    | some (.internal n) => recoverChildren H r version t (info.setChild i (.internal (some (n.hash H)) n.leafCount))
    | some (.leaf l) => recoverChildren H r version t (info.setChild i (.leaf l))
    | some .null => .error (.err "Null node should not appear in storage.")

/-- The outer loop of `recover_partial_nodes` (`restore.rs:264-303`). -/
def recoverLoop (H : Hasher D) (r : FReader D) (version : Version) :
    (fuel : Nat) → NodeKey → Option Nibble → List (InternalInfo D) → Res (List (InternalInfo D))
  | 0, _, _, acc => .ok acc
  | fuel + 1, nk, prev, acc => do
    let range := match prev with
      | none => List.finRange 16
      | some i => (List.finRange 16).filter (fun j => decide (j < i))
    let info ← r.recoverChildren H version range (.newEmpty nk)
    let info := match prev with
      | none => info
      | some i => info.setChild i (.internal none none)
    match nk.path.getLast? with
    | none => pure (info :: acc)
    | some i => recoverLoop H r version fuel ⟨nk.version, nk.path.dropLast⟩ (some i) (info :: acc)

/-- `restore.rs:236-306` `recover_partial_nodes`. -/
def recoverPartialNodes (H : Hasher D) (r : FReader D) (version : Version) (leafKey : NodeKey) : Res (List (InternalInfo D)) := do
  ensure (!leafKey.path.isEmpty) "Root node would not be written until entire restoration process has completed successfully."
  let nk ← leafKey.genParent
  let nk ← r.recoverStart (nk.path.length + 1) nk
  r.recoverLoop H version (nk.path.length + 1) nk none []

/-- `restore.rs:173-213` `new`; `r` reads the store `s`. -/
def newRestore (H : Hasher D) (r : FReader D) (s : Store D) (version : Version) (expectedRootHash : D) (migration : Bool) :
    Res (Restore D) := do
  match ← answer r.rightmostError s.getRightmostLeaf with
  | some (nk, leaf) => do
    let partialNodes ← r.recoverPartialNodes H version nk
    pure ⟨s, version, partialNodes, .empty, some leaf, 0, expectedRootHash, migration⟩
  | none => pure ⟨s, version, [.newEmpty (.newEmptyPath version)], .empty, none, 0, expectedRootHash, migration⟩

end FReader
end Verif.Jmt
