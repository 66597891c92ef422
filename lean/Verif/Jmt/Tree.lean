import Verif.Jmt.TreeCache
/-!
Model of the update path of `/repo/jmt/src/tree.rs`: `put_value_set(s)`, `put`, `insert_at`,
`insert_at_internal_node`, `insert_at_leaf_node`, `create_leaf_node`.
-/

set_option autoImplicit false

namespace Verif.Jmt
variable {D : Type}

/-- `tree.rs:1260-1268` `PutResult`. -/
inductive PutResult (α : Type) where
  | updated (a : α)
  | notChanged
  | removed

/-- `nibble_path.rs` `skip_common_prefix`: number of common leading nibbles (both iterators advance by it). -/
def skipCommonPrefix (x y : List Nibble) : Nat := commonPrefixLen x y

namespace Tree

/-- `tree.rs:818-839` `create_leaf_node`. `nibble_iter.get_nibble_path().bytes()` is the whole key, passed
here as `key`. -/
def createLeafNode (nk : NodeKey) (key : Key) (valueHash : D) (c : TreeCache D) :
    Res (TreeCache D × (NodeKey × Node D)) := do
  let n : Node D := .leaf ⟨key, valueHash⟩
  let c ← c.putNode nk n
  pure (c, (nk, n))

/-- The loop of `tree.rs:791-808`: `count` single-child internal nodes above `node`, popping one nibble of
`commonPath` each. -/
def chainUp (H : Hasher D) (version : Version) : (count : Nat) → (commonPath : List Nibble) → NodeKey →
    InternalNode D → TreeCache D → Res (TreeCache D × (NodeKey × InternalNode D))
  | 0, _, nk, node, c => .ok (c, (nk, node))
  | count + 1, commonPath, _, node, c =>
    match commonPath.getLast? with
    | none => .error (.panic "Common nibble_path below internal node ran out of nibble")
    | some nibble => do
      let commonPath := commonPath.dropLast
      let nk : NodeKey := ⟨version, commonPath⟩
      let children := Children.new.insert nibble ⟨node.hash H, version, node.nodeType⟩
      let internal ← InternalNode.new children
      let c ← c.putNode nk (.internal internal)
      chainUp H version count commonPath nk internal c

/-- `tree.rs:696-815` `insert_at_leaf_node`. The nibble iterator over `key` is given by the visited and the
remaining nibbles. `migration` is `self.leaf_count_migration`. -/
def insertAtLeafNode (H : Hasher D) (migration : Bool) (nk : NodeKey) (existing : LeafNode D) (version : Version)
    (key : Key) (visited rest : List Nibble) (valueHash : Option D) (c : TreeCache D) :
    Res (TreeCache D × PutResult (NodeKey × Node D)) := do
  -- step 1
  let existingNibbles := existing.keyHash.nibbles
  let skipped := skipCommonPrefix visited existingNibbles
  assert (skipped == visited.length) "Leaf nodes failed to share the same visited nibbles"
  let existingRest := existingNibbles.drop skipped
  -- step 2
  let numCommon := skipCommonPrefix rest existingRest
  let restAfter := rest.drop numCommon
  let existingAfter := existingRest.drop numCommon
  let commonPath := visited ++ rest.take numCommon
  if restAfter.isEmpty then
    -- 2.1
    assert existingAfter.isEmpty "assertion failed: existing_leaf_nibble_iter_below_internal.is_finished()"
    let c ← c.deleteNode nk true
    match valueHash with
    | some vh => do
      let (c, r) ← createLeafNode (nk.setVersion version) key vh c
      pure (c, .updated r)
    | none => pure (c, .removed)
  else
    match valueHash with
    | some vh => do
      -- 2.2
      let c ← c.deleteNode nk true
      match existingAfter, restAfter with
      | existingIndex :: _, newIndex :: _ => do
        assert (existingIndex != newIndex) "assert_ne!(existing_leaf_index, new_leaf_index)"
        let children := Children.new.insert existingIndex ⟨existing.hash H, version, .leaf⟩
        let nk : NodeKey := ⟨version, commonPath⟩
        let k1 ← nk.genChild version existingIndex
        let c ← c.putNode k1 (.leaf existing)
        let k2 ← nk.genChild version newIndex
        let (c, (_, newLeaf)) ← createLeafNode k2 key vh c
        let children := children.insert newIndex ⟨newLeaf.hash H, version, .leaf⟩
        let internal ← InternalNode.newMigration children migration
        let c ← c.putNode nk (.internal internal)
        let (c, (nk, top)) ← chainUp H version numCommon commonPath nk internal c
        pure (c, .updated (nk, .internal top))
      | _, _ => .error (.panic "Ran out of nibbles")
    | none => pure (c, .notChanged)

/-- `tree.rs:643-690`: the part of `insert_at_internal_node` after the recursive call. -/
def finishInternal (H : Hasher D) (nk : NodeKey) (internal : InternalNode D) (version : Version)
    (childIndex : Nibble) (result : PutResult (NodeKey × Node D)) (c : TreeCache D) :
    Res (TreeCache D × PutResult (NodeKey × Node D)) := do
  let children := internal.children
  match result with
  | .notChanged => pure (c, .notChanged)
  | .updated (_, newNode) => do
    let ty ← newNode.nodeType
    rest (children.insert childIndex ⟨newNode.hash H, version, ty⟩) c
  | .removed => rest (children.remove childIndex) c
where
  /-- `tree.rs:662-690` -/
  rest (children : Children D) (c : TreeCache D) : Res (TreeCache D × PutResult (NodeKey × Node D)) := do
    let c ← c.deleteNode nk false
    let mk (c : TreeCache D) : Res (TreeCache D × PutResult (NodeKey × Node D)) := do
      let newInternal ← InternalNode.new children
      let nk := nk.setVersion version
      let c ← c.putNode nk (.internal newInternal)
      pure (c, .updated (nk, .internal newInternal))
    match children.iterSorted with
    | [] => pure (c, .removed)
    | [(childNibble, child)] =>
      if child.isLeaf then do
        let childKey ← nk.genChild child.version childNibble
        let childNode ← c.getNode childKey
        let c ← c.deleteNode childKey true
        let nk := nk.setVersion version
        let c ← c.putNode nk childNode
        pure (c, .updated (nk, childNode))
      else mk c
    | _ => mk c

/-- `tree.rs:543-602` `insert_at` and `tree.rs:607-641` (first half of `insert_at_internal_node`), recursion
on the remaining nibbles. -/
def insertAt (H : Hasher D) (migration : Bool) (version : Version) (key : Key) (value : Option D) :
    (rest : List Nibble) → (visited : List Nibble) → (nk : NodeKey) → TreeCache D →
    Res (TreeCache D × PutResult (NodeKey × Node D))
  | rest, visited, nk, c =>
    match c.getNodeOption nk with
    | some (.internal internal) =>
      match rest with
      | [] => .error (.panic "Ran out of nibbles")
      | childIndex :: rest' => do
        let (c, result) ← match internal.child childIndex with
          | some child => do
            let childKey ← nk.genChild child.version childIndex
            insertAt H migration version key value rest' (visited ++ [childIndex]) childKey c
          | none =>
            match value with
            | some vh => do
              let newChildKey ← nk.genChild version childIndex
              let (c, r) ← createLeafNode newChildKey key vh c
              pure (c, PutResult.updated r)
            | none => pure (c, PutResult.notChanged)
        finishInternal H nk internal version childIndex result c
    | some (.leaf leaf) => insertAtLeafNode H migration nk leaf version key visited rest value c
    | some .null => insertNull nk true c
    | none => insertNull nk false c
where
  /-- `tree.rs:576-600` the `Node::Null` case. -/
  insertNull (nk : NodeKey) (exists' : Bool) (c : TreeCache D) :
      Res (TreeCache D × PutResult (NodeKey × Node D)) := do
    ensure nk.path.isEmpty "Null node exists for non-root node"
    let c ← if nk.version = version ∧ exists' = true then c.deleteNode nk false else pure c
    match value with
    | some vh => do
      let (c, r) ← createLeafNode (.newEmptyPath version) key vh c
      pure (c, .updated r)
    | none => pure (c, .notChanged)

/-- `tree.rs:504-537` `put`. -/
def put (H : Hasher D) (migration : Bool) (key : Key) (value : Option D) (version : Version) (c : TreeCache D) :
    Res (TreeCache D) := do
  let (c, r) ← insertAt H migration version key value key.nibbles [] c.rootNodeKey c
  match r with
  | .updated (nk, _) => pure (c.setRootNodeKey nk)
  | .notChanged => pure c
  | .removed => do
    let k := NodeKey.newEmptyPath version
    let c := c.setRootNodeKey k
    c.putNode k .null

/-- One update of a key: `Some value` inserts, `None` deletes. -/
abbrev ValueSet := List (Key × Option Value)

/-- `tree.rs:482-496` the inner loop of `put_value_sets`. -/
def putSet (H : Hasher D) (migration : Bool) (version : Version) : ValueSet → TreeCache D → Res (TreeCache D)
  | [], c => .ok c
  | (key, value) :: t, c => do
    let c := c.putValue version key value
    let c ← put H migration key (value.map H.value) version c
    putSet H migration version t c

/-- `tree.rs:480-499` the outer loop of `put_value_sets`. -/
def putSets (H : Hasher D) (migration : Bool) : Version → List ValueSet → TreeCache D → Res (TreeCache D)
  | _, [], c => .ok c
  | version, s :: t, c => do
    let c ← putSet H migration version s c
    let c ← c.freeze H
    putSets H migration (version + 1) t c

/-- `tree.rs:474-502` `put_value_sets`. -/
def putValueSets (H : Hasher D) (migration : Bool) (reader : Reader D) (sets : List ValueSet)
    (firstVersion : Version) : Res (List D × TreeUpdateBatch D) := do
  let c ← putSets H migration firstVersion sets (TreeCache.new reader firstVersion)
  pure c.into

/-- `tree.rs:419-431` `put_value_set`. -/
def putValueSet (H : Hasher D) (migration : Bool) (reader : Reader D) (set : ValueSet) (version : Version) :
    Res (D × TreeUpdateBatch D) := do
  let (roots, batch) ← putValueSets H migration reader [set] version
  match roots with
  | [r] => pure (r, batch)
  | _ => .error (.panic "root_hashes must consist of a single value.")

end Tree
end Verif.Jmt
