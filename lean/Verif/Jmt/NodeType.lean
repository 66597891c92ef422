import Verif.Common.Err
import Verif.Jmt.Hash
/-!
Model of `/repo/jmt/src/node_type.rs`.
-/

set_option autoImplicit false

namespace Verif.Jmt

/-- `types.rs` `Version = u64`; unbounded here (overflow at `u64::MAX` is not modelled). -/
notation "Version" => Nat

/-- `types/nibble.rs:18` `ROOT_NIBBLE_HEIGHT = 32 * 2`. -/
def rootNibbleHeight : Nat := 64

/-- `node_type.rs:51-56` `NodeKey`. The packed `NibblePath` is represented by its list of nibbles;
`Verif/Jmt/NibblePath.lean` models the packed form and shows that equality and push/pop agree. -/
structure NodeKey where
  version : Version
  path : List Nibble
deriving DecidableEq, Repr

/-- `node_type.rs:68-70` `new_empty_path`. -/
def NodeKey.newEmptyPath (v : Version) : NodeKey := ⟨v, []⟩

/-- `node_type.rs:83-87` `gen_child_node_key`; `NibblePath::push` asserts `num_nibbles < 64`. -/
def NodeKey.genChild (nk : NodeKey) (v : Version) (n : Nibble) : Res NodeKey :=
  if nk.path.length < rootNibbleHeight then .ok ⟨v, nk.path ++ [n]⟩
  else .error (.panic "assertion failed: ROOT_NIBBLE_HEIGHT > self.num_nibbles")

/-- `node_type.rs:100-102` `set_version`. -/
def NodeKey.setVersion (nk : NodeKey) (v : Version) : NodeKey := ⟨v, nk.path⟩

/-- `node_type.rs:115-123` `NodeType`. -/
inductive NodeType where
  | leaf
  | internalLegacy
  | internal (leafCount : Nat)
deriving DecidableEq, Repr

/-- `node_type.rs:152-162` `Child`. -/
structure Child (D : Type) where
  hash : D
  version : Version
  nodeType : NodeType
deriving DecidableEq, Repr

/-- `node_type.rs:173-175` `Child::is_leaf`. -/
def Child.isLeaf {D : Type} (c : Child D) : Bool :=
  match c.nodeType with
  | .leaf => true
  | _ => false

/-- `node_type.rs:177-183` `Child::leaf_count`. -/
def Child.leafCount {D : Type} (c : Child D) : Option Nat :=
  match c.nodeType with
  | .leaf => some 1
  | .internalLegacy => none
  | .internal n => some n

/-- `node_type.rs:199-204` `Children`: 16 optional children and a counter. -/
structure Children (D : Type) where
  children : Nibble → Option (Child D)
  numChildren : Nat

namespace Children
variable {D : Type}

/-- `node_type.rs:225-227` `new`. -/
def new : Children D := ⟨fun _ => none, 0⟩

/-- `node_type.rs:230-236` `insert`. -/
def insert (cs : Children D) (n : Nibble) (c : Child D) : Children D :=
  ⟨fun i => if i = n then some c else cs.children i,
   if (cs.children n).isNone then cs.numChildren + 1 else cs.numChildren⟩

/-- `node_type.rs:239-241` `get`. -/
def get (cs : Children D) (n : Nibble) : Option (Child D) := cs.children n

/-- `node_type.rs:244-246` `is_empty`. -/
def isEmpty (cs : Children D) : Bool := cs.numChildren == 0

/-- `node_type.rs:249-255` `remove` (the counter is positive whenever it is decremented). -/
def remove (cs : Children D) (n : Nibble) : Children D :=
  ⟨fun i => if i = n then none else cs.children i,
   if (cs.children n).isSome then cs.numChildren - 1 else cs.numChildren⟩

/-- `node_type.rs:287-298` `iter_sorted` (also `iter`, 263-265). -/
def iterSorted (cs : Children D) : List (Nibble × Child D) :=
  (List.finRange 16).filterMap (fun i => (cs.children i).map (fun c => (i, c)))

/-- `node_type.rs:258-260` `values`. -/
def values (cs : Children D) : List (Child D) := (List.finRange 16).filterMap cs.children

end Children

/-- `node_type.rs:321-328` `InternalNode`. -/
structure InternalNode (D : Type) where
  children : Children D
  leafCount : Option Nat
  leafCountMigration : Bool

namespace InternalNode
variable {D : Type}

/-- `node_type.rs:427-437` `sum_leaf_count`. -/
def sumLeafCount (cs : Children D) : Option Nat :=
  cs.values.foldl (fun acc c => match acc, c.leafCount with
    | some a, some n => some (a + n)
    | _, _ => none) (some 0)

/-- `node_type.rs:404-425` `new_impl`. -/
def newImpl (cs : Children D) (migration : Bool) : Res (InternalNode D) := do
  ensure (!cs.isEmpty) "Children must not be empty"
  if cs.numChildren = 1 then
    match cs.values with
    | [] => .error (.panic "Must have 1 element")
    | c :: _ => ensure (!c.isLeaf) "If there's only one child, it must not be a leaf."
  pure ⟨cs, sumLeafCount cs, migration⟩

/-- `node_type.rs:400-402` `new_migration`: `.expect("Input children are logical.")`. -/
def newMigration (cs : Children D) (migration : Bool) : Res (InternalNode D) :=
  match newImpl cs migration with
  | .ok n => .ok n
  | .error _ => .error (.panic "Input children are logical.")

/-- `node_type.rs:396-398` `new`. -/
def new (cs : Children D) : Res (InternalNode D) := newMigration cs true

/-- `node_type.rs:443-448` `node_type`. -/
def nodeType (n : InternalNode D) : NodeType :=
  match n.leafCount with
  | some c => .internal c
  | none => .internalLegacy

/-- `node_type.rs:470-472` `child`. -/
def child (n : InternalNode D) (i : Nibble) : Option (Child D) := n.children.get i

/-- `node_type.rs:477-490` `generate_bitmaps`, `u16` bitmaps as naturals. The `assert_eq!` that the leaf
bitmap is a subset of the existence bitmap holds by construction (`leafBitmap_subset`). -/
def generateBitmaps (n : InternalNode D) : Nat × Nat :=
  n.children.iterSorted.foldl (fun (acc : Nat × Nat) ic =>
    (acc.1 ||| (1 <<< ic.1.val), if ic.2.isLeaf then acc.2 ||| (1 <<< ic.1.val) else acc.2)) (0, 0)

/-- `node_type.rs:493-500` `range_bitmaps`; the asserts on `start` and `width` hold for every call made
(`width` is 16, 8, 4, 2 or 1 and divides `start < 16`). -/
def rangeBitmaps (start width : Nat) (bm : Nat × Nat) : Nat × Nat :=
  let mask := ((1 <<< width) - 1) <<< start
  (bm.1 &&& mask, bm.2 &&& mask)

/-- `u16::count_ones`. -/
def countOnes (n : Nat) : Nat := (List.range 16).countP n.testBit

/-- `u16::trailing_zeros` (16 for 0), as a nibble; Rust's `Nibble::from` would panic on 16, every use is
guarded by a non-zero bitmap. -/
def trailingZeros (n : Nat) : Nat := ((List.range 16).find? n.testBit).getD 16

/-- `Nibble::from(range_existence_bitmap.trailing_zeros() as u8)`. -/
def onlyChildIndex (bm : Nat) : Nibble := Fin.ofNat 16 (trailingZeros bm)

/-- `node_type.rs:502-541` `merkle_hash`, with `width = 2 ^ h`.
`self.child(only_child_index).unwrap()` is replaced by the placeholder when the child is absent; the child
is present for the bitmaps the code passes (`merkleHash_eq_sub`). -/
def merkleHash (H : Hasher D) (n : InternalNode D) : (h : Nat) → (start : Nat) → Nat × Nat → D
  | h, start, bm =>
    let width := 2 ^ h
    let r := rangeBitmaps start width bm
    if r.1 = 0 then H.placeholder
    else if width = 1 ∨ (countOnes r.1 = 1 ∧ r.2 ≠ 0) then
      match n.child (onlyChildIndex r.1) with
      | some c => c.hash
      | none => H.placeholder
    else
      match h with
      | 0 => H.placeholder -- not reached: `h = 0` means `width = 1`
      | h' + 1 => H.node (merkleHash H n h' start r) (merkleHash H n h' (start + width / 2) r)
termination_by structural h => h

/-- `node_type.rs:450-456` `hash`. -/
def hash (H : Hasher D) (n : InternalNode D) : D := merkleHash H n 4 0 n.generateBitmaps

/-- `node_type.rs:676-687` `get_child_and_sibling_half_start`: `u8` arithmetic. -/
def childAndSiblingHalfStart (n : Nibble) (height : Nat) : Nat × Nat :=
  let childHalfStart := ((0xff <<< height) % 256) &&& n.val
  (childHalfStart, childHalfStart ^^^ (1 <<< height))

/-- `node_type.rs:690-695` `get_child_half_start`. -/
def childHalfStart (n : Nibble) (height : Nat) : Nat := ((0xff <<< height) % 256) &&& n.val

/-- Loop body of `get_child_with_siblings`, heights `h-1, …, 0`. -/
def getChildWithSiblingsLoop (H : Hasher D) (nd : InternalNode D) (nk : NodeKey) (n : Nibble)
    (bm : Nat × Nat) : (h : Nat) → List D → Res (Option NodeKey × List D)
  | 0, _ => .error (.panic "Impossible to get here without returning even at the lowest level.")
  | h + 1, siblings =>
    let width := 1 <<< h
    let (chs, shs) := childAndSiblingHalfStart n h
    let siblings := siblings ++ [merkleHash H nd h shs bm]
    let r := rangeBitmaps chs width bm
    if r.1 = 0 then .ok (none, siblings)
    else if width = 1 ∨ (countOnes r.1 = 1 ∧ r.2 ≠ 0) then
      let i := onlyChildIndex r.1
      match nd.child i with
      | none => .error (.panic "Corrupted internal node")
      | some c => do
        let k ← nk.genChild c.version i
        pure (some k, siblings)
    else getChildWithSiblingsLoop H nd nk n bm h siblings

/-- `node_type.rs:610-666` `get_child_with_siblings`. -/
def getChildWithSiblings (H : Hasher D) (nd : InternalNode D) (nk : NodeKey) (n : Nibble) :
    Res (Option NodeKey × List D) :=
  getChildWithSiblingsLoop H nd nk n nd.generateBitmaps 4 []

/-- Loop body of `get_child_without_siblings`. -/
def getChildWithoutSiblingsLoop (nd : InternalNode D) (nk : NodeKey) (n : Nibble)
    (bm : Nat × Nat) : (h : Nat) → Res (Option NodeKey)
  | 0 => .error (.panic "Impossible to get here without returning even at the lowest level.")
  | h + 1 =>
    let width := 1 <<< h
    let r := rangeBitmaps (childHalfStart n h) width bm
    if r.1 = 0 then .ok none
    else if width = 1 ∨ (countOnes r.1 = 1 ∧ r.2 ≠ 0) then
      let i := onlyChildIndex r.1
      match nd.child i with
      | none => .error (.panic "Corrupted internal node")
      | some c => do
        let k ← nk.genChild c.version i
        pure (some k)
    else getChildWithoutSiblingsLoop nd nk n bm h

/-- `node_type.rs:546-588` `get_child_without_siblings`. -/
def getChildWithoutSiblings (nd : InternalNode D) (nk : NodeKey) (n : Nibble) : Res (Option NodeKey) :=
  getChildWithoutSiblingsLoop nd nk n nd.generateBitmaps 4

end InternalNode

/-- `node_type.rs:710-715` `LeafNode` (also `types/proof.rs` `SparseMerkleLeafNode`, same fields). -/
structure LeafNode (D : Type) where
  keyHash : Key
  valueHash : D
deriving DecidableEq

/-- `node_type.rs:736-738` `LeafNode::hash`. -/
def LeafNode.hash {D : Type} (H : Hasher D) (l : LeafNode D) : D := H.leaf l.keyHash l.valueHash

/-- `node_type.rs:757-766` `Node`. -/
inductive Node (D : Type) where
  | null
  | internal (n : InternalNode D)
  | leaf (l : LeafNode D)

namespace Node
variable {D : Type}

/-- `node_type.rs:813-815` `is_leaf`. -/
def isLeaf : Node D → Bool
  | .leaf _ => true
  | _ => false

/-- `node_type.rs:818-826` `node_type`. -/
def nodeType : Node D → Res NodeType
  | .null => .error (.panic "unreachable")
  | .leaf _ => .ok .leaf
  | .internal n => .ok n.nodeType

/-- `node_type.rs:829-835` `leaf_count`. -/
def leafCount : Node D → Option Nat
  | .null => some 0
  | .leaf _ => some 1
  | .internal n => n.leafCount

/-- `node_type.rs:838-844` `hash`. -/
def hash (H : Hasher D) : Node D → D
  | .null => H.placeholder
  | .internal n => n.hash H
  | .leaf l => l.hash H

end Node

end Verif.Jmt
