import Verif.Jmt.Read
/-!
Model of the exclusion proofs of `/repo/jmt/src/tree.rs`: the search for the neighbours of an absent key.
-/

set_option autoImplicit false

namespace Verif.Jmt
namespace Tree
variable {D : Type}

/-- `tree.rs:1284-1288` `Extreme`. -/
inductive Extreme where
  | left
  | right

/-- `tree.rs:1290-1297` `opposite`. -/
def Extreme.opposite : Extreme → Extreme
  | .left => .right
  | .right => .left

/-- `tree.rs:1299-1310` `SearchResult`. The `ordering` of `FoundLeaf` is `key_hash.cmp(&search_key)`, computed where it is used. -/
inductive SearchResult (D : Type) where
  | foundLeaf (leafHash : Key) (pathToLeaf : List Nibble) (parents : List (InternalNode D))
  | foundInternal (pathToInternal : List Nibble) (parents : List (InternalNode D))

/-- `tree.rs:922-942` `neighbor_nibble`. `children_unsorted` iterates over the children in the order of their nibbles
(`node_type.rs:465-467`, 263-265), so the greatest smaller nibble is the last one and the least greater nibble the first one. -/
def neighborNibble (node : InternalNode D) (childIndex : Nibble) : Extreme → Option Nibble
  | .left => ((node.children.iterSorted.filter (fun p => decide (p.1 < childIndex))).getLast?).map Prod.fst
  | .right => ((node.children.iterSorted.filter (fun p => decide (childIndex < p.1))).head?).map Prod.fst

/-- `tree.rs:944-959`: the loop of `search_closest_extreme_node`. Path and parents are given from the inside out, so that `pop` takes the
head. `index.unwrap()` panics when the path is shorter than the list of parents. The result is the path with the neighbour pushed;
`path.push` asserts that there is room. -/
def climb (extreme : Extreme) : (path : List Nibble) → (parents : List (InternalNode D)) → Res (Option (List Nibble))
  | _, [] => .ok none
  | [], _ :: _ => .error (.panic "called `Option::unwrap()` on a `None` value")
  | index :: path, parent :: parents =>
    match neighborNibble parent index extreme with
    | none => climb extreme path parents
    | some n =>
      if path.length < rootNibbleHeight then .ok (some (path.reverse ++ [n]))
      else .error (.panic "assertion failed: ROOT_NIBBLE_HEIGHT > self.num_nibbles")

/-- `tree.rs:1158-1164` `min_or_max`. -/
def minOrMax (node : InternalNode D) : Extreme → Option Nibble
  | .left => node.children.iterSorted.head?.map Prod.fst
  | .right => node.children.iterSorted.getLast?.map Prod.fst

/-- `tree.rs:1166-1195`: the loop of `get_extreme_key_hash`, `fuel` iterations left at nibble depth `depth`. -/
def getExtremeKeyHashLoop (r : Reader D) (extreme : Extreme) : (fuel : Nat) → (depth : Nat) → NodeKey → Res Key
  | 0, _, _ => .error (.err "Jellyfish Merkle tree has cyclic graph inside.")
  | fuel + 1, depth, nk =>
    match r.getNodeOption nk with
    | none => .error (.err (if depth = 0 then "Missing root" else "Missing node"))
    | some (.internal n) =>
      match minOrMax n extreme with
      | none => .error (.panic "a child always exists")
      | some q =>
        match n.getChildWithoutSiblings nk q with
        | .error e => .error e
        | .ok none => .error (.err "Internal node has no children")
        | .ok (some nk') => getExtremeKeyHashLoop r extreme fuel (depth + 1) nk'
    | some (.leaf l) => .ok l.keyHash
    | some .null => .error (.err "Null node cannot have children")

/-- `tree.rs:1150-1196` `get_extreme_key_hash`: `for nibble_depth in nibble_depth..=ROOT_NIBBLE_HEIGHT`. -/
def getExtremeKeyHash (r : Reader D) (nk : NodeKey) (depth : Nat) (extreme : Extreme) : Res Key :=
  getExtremeKeyHashLoop r extreme (rootNibbleHeight + 1 - depth) depth nk

/-- `tree.rs:915-969` `search_closest_extreme_node`. The node key of the neighbour is made with the version of the query. -/
def searchClosestExtremeNode (r : Reader D) (version : Version) (extreme : Extreme) (to : List Nibble) (parents : List (InternalNode D)) :
    Res (Option Key) := do
  match ← climb extreme to.reverse parents.reverse with
  | none => pure none
  | some path => do
    let k ← getExtremeKeyHash r ⟨version, path⟩ path.length extreme.opposite
    pure (some k)

/-- `tree.rs:983-1036`: the loop of `search_for_closest_node`; `visited` are the nibbles taken from the iterator. -/
def searchLoop (r : Reader D) : (fuel : Nat) → (depth : Nat) → NodeKey → (nibs : List Nibble) → (visited : List Nibble) →
    (parents : List (InternalNode D)) → Res (SearchResult D)
  | 0, _, _, _, _, _ => .error (.err "Jellyfish Merkle tree has cyclic graph inside.")
  | fuel + 1, depth, nk, nibs, visited, parents =>
    match r.getNodeOption nk with
    | none => .error (.err (if depth = 0 then "Missing root" else "Missing node"))
    | some (.internal n) =>
      match nibs with
      | [] => .error (.err "ran out of nibbles")
      | q :: nibs' =>
        match n.getChildWithoutSiblings nk q with
        | .error e => .error e
        | .ok none => .ok (.foundInternal (visited ++ [q]) (parents ++ [n]))
        | .ok (some nk') => searchLoop r fuel (depth + 1) nk' nibs' (visited ++ [q]) (parents ++ [n])
    | some (.leaf l) => .ok (.foundLeaf l.keyHash visited parents)
    | some .null =>
      if depth = 0 then .error (.err "Cannot manufacture nonexistence proof by exclusion for the empty tree")
      else .error (.err "Non-root null node exists with node key")

/-- `tree.rs:972-1039` `search_for_closest_node`. -/
def searchForClosestNode (r : Reader D) (version : Version) (searchKey : Key) : Res (SearchResult D) :=
  searchLoop r (rootNibbleHeight + 1) 0 (.newEmptyPath version) searchKey.nibbles [] []

/-- `tree.rs:1041-1104` `get_bounding_path`: the neighbours on the left and on the right. -/
def getBoundingPath (r : Reader D) (searchKey : Key) (version : Version) : Res (Option Key × Option Key) := do
  match ← searchForClosestNode r version searchKey with
  | .foundLeaf leafHash path parents =>
    if leafHash < searchKey then do
      let right ← searchClosestExtremeNode r version .right path parents
      pure (some leafHash, right)
    else if leafHash = searchKey then
      .error (.err "found exact key when searching for bounding path for nonexistence proof")
    else do
      let left ← searchClosestExtremeNode r version .left path parents
      pure (left, some leafHash)
  | .foundInternal path parents => do
    let right ← searchClosestExtremeNode r version .right path parents
    let left ← searchClosestExtremeNode r version .left path parents
    pure (left, right)

/-- `tree.rs:1270-1282` `ExclusionProof`. -/
inductive ExclusionProof (D : Type) where
  | leftmost (leftmostRight : SparseMerkleProof D)
  | middle (leftmostRight rightmostLeft : SparseMerkleProof D)
  | rightmost (rightmostLeft : SparseMerkleProof D)

/-- The inner `Result` of `get_with_exclusion_proof`: `Ok((value, proof))` or `Err(exclusion_proof)`. -/
inductive Answer (D : Type) where
  | present (value : Value) (proof : SparseMerkleProof D)
  | absent (proof : ExclusionProof D)

/-- `tree.rs:1107-1148` `get_with_exclusion_proof`. -/
def getWithExclusionProof (H : Hasher D) (r : Reader D) (key : Key) (version : Version) : Res (Answer D) := do
  match ← getWithProof H r key version with
  | (some value, proof) => pure (.present value proof)
  | (none, _) =>
    match ← getBoundingPath r key version with
    | (some left, some right) => do
      let (_, leftProof) ← getWithProof H r left version
      let (_, rightProof) ← getWithProof H r right version
      pure (.absent (.middle rightProof leftProof))
    | (some left, none) => do
      let (_, leftProof) ← getWithProof H r left version
      pure (.absent (.rightmost leftProof))
    | (none, some right) => do
      let (_, rightProof) ← getWithProof H r right version
      pure (.absent (.leftmost rightProof))
    | (none, none) => .error (.err "Invalid exclusion proof")

end Tree
end Verif.Jmt
