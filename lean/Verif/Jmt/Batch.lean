import Verif.Jmt.Tree
/-!
Model of the batch update path of `/repo/jmt/src/tree.rs` lines 129-414 (`batch_put_value_sets`,
`batch_insert_at`, `batch_create_subtree`, `batch_create_subtree_with_existing_leaf`) and of
`NibbleRangeIterator` (`/repo/jmt/src/types/nibble.rs` lines 48-91).
-/

set_option autoImplicit false

namespace Verif.Jmt
variable {D : Type}

/-- `self.sorted_kvs[i].0.0.nibble(self.nibble_idx)`; every index used below is in range. -/
def nibAt (kvs : List (Key × D)) (idx i : Nat) : Nibble :=
  match kvs[i]? with
  | some e => e.1.nibble idx
  | none => 0

/-- `nibble.rs:76-83`: the binary search for the last index of the current nibble. `j - i` shrinks in every
round, so fuel `kvs.length` is never exhausted. -/
def lastOfNibble (kvs : List (Key × D)) (idx : Nat) (cur : Nibble) : (fuel i j : Nat) → Nat
  | 0, i, _ => i
  | fuel + 1, i, j =>
    if i < j then
      let mid := j - (j - i) / 2
      if nibAt kvs idx mid > cur then lastOfNibble kvs idx cur fuel i (mid - 1)
      else lastOfNibble kvs idx cur fuel mid j
    else i

/-- `nibble.rs:71-90` `NibbleRangeIterator::next`; the second component of the result is the new `pos - 1`. -/
def nextRange (kvs : List (Key × D)) (idx pos : Nat) : Option (Nat × Nat) :=
  if pos < kvs.length then
    some (pos, lastOfNibble kvs idx (nibAt kvs idx pos) kvs.length pos (kvs.length - 1))
  else none

/-- All items of the iterator, starting at `pos`. Every item advances `pos`. -/
def nibbleRanges (kvs : List (Key × D)) (idx : Nat) : (fuel pos : Nat) → List (Nat × Nat)
  | 0, _ => []
  | fuel + 1, pos =>
    match nextRange kvs idx pos with
    | none => []
    | some (l, r) => (l, r) :: nibbleRanges kvs idx fuel (r + 1)

/-- What the loops over `NibbleRangeIterator::new(kvs, depth)` use of an item: the child index
`kvs[left].0.0.get_nibble(depth)` and the slice `&kvs[left..=right]`. -/
def nibbleGroups (kvs : List (Key × D)) (idx : Nat) : List (Nibble × List (Key × D)) :=
  (nibbleRanges kvs idx kvs.length 0).map
    (fun lr => (nibAt kvs idx lr.1, (kvs.drop lr.1).take (lr.2 + 1 - lr.1)))

/-- Order of `KeyHash` as keys of a `BTreeMap`. -/
def keyLt (a b : Key) : Bool := decide (a < b)

namespace Tree

/-- A `HashMap<NibblePath, [u8; 32]>` of node hashes. -/
abbrev HashCache (D : Type) := FMap (List Nibble) D

/-- `tree.rs:129-143` `get_hash`. -/
def getHash (H : Hasher D) (hc : Option (HashCache D)) (nk : NodeKey) (node : Node D) : Res D :=
  match hc with
  | some cache =>
    match cache.get nk.path with
    | some h => .ok h
    | none => .error (.panic "can not be found in hash cache")
  | none => .ok (node.hash H)

/-- The loops of `tree.rs:216-257`, `321-353` and `388-407`: for every group compute the new child with `f` and
enter it into `children`. -/
def batchChildren (H : Hasher D) (hc : Option (HashCache D)) (version : Version)
    (f : Nibble → List (Key × D) → TreeCache D → Res (TreeCache D × (NodeKey × Node D))) :
    List (Nibble × List (Key × D)) → Children D → TreeCache D → Res (TreeCache D × Children D)
  | [], children, c => .ok (c, children)
  | (i, g) :: rest, children, c => do
    let (c, (nk, node)) ← f i g c
    let h ← getHash H hc nk node
    let ty ← node.nodeType
    batchChildren H hc version f rest (children.insert i ⟨h, version, ty⟩) c

/-- `tree.rs:373-414` `batch_create_subtree`. The recursion variable is `ROOT_NIBBLE_HEIGHT - depth`; at 0 the
assertion of `NibbleRangeIterator::new` (`nibble.rs:58`) fails. -/
def batchCreateSubtree (H : Hasher D) (migration : Bool) (hc : Option (HashCache D)) (version : Version) :
    (height : Nat) → NodeKey → List (Key × D) → TreeCache D → Res (TreeCache D × (NodeKey × Node D))
  | height, nk, kvs, c =>
    match kvs with
    | [(k, x)] => do
      let n : Node D := .leaf ⟨k, x⟩
      let c ← c.putNode nk n
      pure (c, (nk, n))
    | kvs =>
      match height with
      | 0 => .error (.panic "assertion failed: nibble_idx < ROOT_NIBBLE_HEIGHT")
      | height + 1 => do
        let (c, children) ← batchChildren H hc version (fun i g c => do
            let childKey ← nk.genChild version i
            batchCreateSubtree H migration hc version height childKey g c)
          (nibbleGroups kvs (rootNibbleHeight - (height + 1))) Children.new c
        let internal ← InternalNode.newMigration children migration
        let c ← c.putNode nk (.internal internal)
        pure (c, (nk, .internal internal))

/-- `tree.rs:300-371` `batch_create_subtree_with_existing_leaf`. `isolated_existing_leaf` stays `true` exactly
when no group has the existing leaf's nibble. -/
def batchWithLeaf (H : Hasher D) (migration : Bool) (hc : Option (HashCache D)) (version : Version)
    (existing : LeafNode D) :
    (height : Nat) → NodeKey → List (Key × D) → TreeCache D → Res (TreeCache D × (NodeKey × Node D))
  | height, nk, kvs, c =>
    match single kvs with
    | some x => do
      let n : Node D := .leaf ⟨existing.keyHash, x⟩
      let c ← c.putNode nk n
      pure (c, (nk, n))
    | none =>
      match height with
      | 0 => .error (.panic "index out of bounds")
      | height + 1 => do
        let depth := rootNibbleHeight - (height + 1)
        let bucket := existing.keyHash.nibble depth
        let groups := nibbleGroups kvs depth
        let (c, children) ← batchChildren H hc version (fun i g c => do
            let childKey ← nk.genChild version i
            if bucket = i then batchWithLeaf H migration hc version existing height childKey g c
            else batchCreateSubtree H migration hc version height childKey g c)
          groups Children.new c
        let (c, children) ← isolated nk bucket (groups.all (fun g => decide (g.1 ≠ bucket))) children c
        let internal ← InternalNode.newMigration children migration
        let c ← c.putNode nk (.internal internal)
        pure (c, (nk, .internal internal))
where
  /-- `tree.rs:313`: `kvs.len() == 1 && kvs[0].0 == existing_leaf_key` -/
  single (kvs : List (Key × D)) : Option D :=
    match kvs with
    | [(k, x)] => if k = existing.keyHash then some x else none
    | _ => none
  /-- `tree.rs:354-363` -/
  isolated (nk : NodeKey) (bucket : Nibble) (b : Bool) (children : Children D) (c : TreeCache D) :
      Res (TreeCache D × Children D) :=
    if b then do
      let k ← nk.genChild version bucket
      let c ← c.putNode k (.leaf existing)
      pure (c, children.insert bucket ⟨existing.hash H, version, .leaf⟩)
    else pure (c, children)

/-- `tree.rs:194-298` `batch_insert_at`. -/
def batchInsertAt (H : Hasher D) (migration : Bool) (hc : Option (HashCache D)) (version : Version) :
    (height : Nat) → NodeKey → List (Key × D) → TreeCache D → Res (TreeCache D × (NodeKey × Node D))
  | height, nk, kvs, c => do
    assert (!kvs.isEmpty) "assertion failed: !kvs.is_empty()"
    match ← c.getNode nk with
    | .internal internal => do
      let c ← c.deleteNode nk false
      match height with
      | 0 => .error (.panic "assertion failed: nibble_idx < ROOT_NIBBLE_HEIGHT")
      | height + 1 => do
        let (c, children) ← batchChildren H hc version (fun i g c =>
            match internal.child i with
            | some child => do
              let childKey ← nk.genChild child.version i
              batchInsertAt H migration hc version height childKey g c
            | none => do
              let childKey ← nk.genChild version i
              batchCreateSubtree H migration hc version height childKey g c)
          (nibbleGroups kvs (rootNibbleHeight - (height + 1))) internal.children c
        let internal ← InternalNode.newMigration children migration
        let nk := nk.setVersion version
        let c ← c.putNode nk (.internal internal)
        pure (c, (nk, .internal internal))
    | .leaf leaf => do
      let c ← c.deleteNode nk true
      batchWithLeaf H migration hc version leaf height (nk.setVersion version) kvs c
    | .null => do
      ensure nk.path.isEmpty "Null node exists for non-root node"
      let c ← if nk.version = version then c.deleteNode nk false else pure c
      batchCreateSubtree H migration hc version height (.newEmptyPath version) kvs c

/-- `tree.rs:166-175`: the value set through a `BTreeMap` (sorted, the last duplicate wins). -/
def sortDedup (set : List (Key × Value)) : List (Key × Value) := ((OMap.empty : OMap Key Value).extend keyLt set).entries

/-- `tree.rs:158-189` one round of the loop of `batch_put_value_sets`. -/
def batchPutSet (H : Hasher D) (migration : Bool) (hc : Option (HashCache D)) (version : Version)
    (set : List (Key × Value)) (c : TreeCache D) : Res (TreeCache D) := do
  assert (!set.isEmpty) "Transactions that output empty write set should not be included."
  let kvs := sortDedup set
  let c := kvs.foldl (fun c e => c.putValue version e.1 (some e.2)) c
  let (c, (nk, _)) ← batchInsertAt H migration hc version rootNibbleHeight c.rootNodeKey
    (kvs.map (fun e => (e.1, H.value e.2))) c
  (c.setRootNodeKey nk).freeze H

/-- The loop of `batch_put_value_sets`. -/
def batchPutSets (H : Hasher D) (migration : Bool) :
    Version → List (List (Key × Value) × Option (HashCache D)) → TreeCache D → Res (TreeCache D)
  | _, [], c => .ok c
  | version, (s, hc) :: t, c => do
    let c ← batchPutSet H migration hc version s c
    batchPutSets H migration (version + 1) t c

/-- `tree.rs:145-192` `batch_put_value_sets`; `itertools::zip_eq` panics when the lengths differ. (It does so only
on reaching the end of the shorter list, so an error of an earlier round would come first.) -/
def batchPutValueSets (H : Hasher D) (migration : Bool) (reader : Reader D) (sets : List (List (Key × Value)))
    (hashes : Option (List (HashCache D))) (firstVersion : Version) : Res (List D × TreeUpdateBatch D) := do
  let hcs : List (Option (HashCache D)) := match hashes with
    | some l => l.map some
    | none => sets.map (fun _ => none)
  let c ← batchPutSets H migration firstVersion (sets.zip hcs) (TreeCache.new reader firstVersion)
  assert (decide (sets.length = hcs.length)) "itertools: .zip_eq() reached end of one iterator before the other"
  pure c.into

end Tree
end Verif.Jmt
