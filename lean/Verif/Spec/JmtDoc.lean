import Mathlib.Data.List.Forall2
import Verif.Spec.PmtDoc
import Verif.Jmt.Proof
import Verif.Jmt.NibblePath
/-!
Which JSON documents stand for which nodes, node keys and proofs of the Jellyfish Merkle tree, without saying how they are read.
-/

set_option autoImplicit false

namespace Verif.Jmt.Spec

open Verif.Serde
open Verif.Pmt.Spec (Named ArrayDoc)

/-- The structure has the named fields, with these values: an array of them in this order, or an object with at least them, in any order. With
`true`, a field may be absent from an object, which is the same as `null`. -/
inductive Fields (names : List (String × Bool)) : Serde.Value → List Serde.Value → Prop where
  | array {l : List Serde.Value} (h : l.length = names.length) : Fields names (.seq l) l
  | object {fs : List (String × Serde.Value)} {l : List Serde.Value}
      (h : List.Forall₂ (fun n v => Named fs n.1 v ∨ n.2 = true ∧ v = .null ∧ ∀ e ∈ fs, e.1 ≠ n.1) names l) : Fields names (.obj fs) l

/-- The document is the number, of type `u64`. -/
def NumDoc (c : Serde.Value) (n : Nat) : Prop := c = .num n ∧ n < 2 ^ 64

/-- The document is the hash, as an array of numbers. -/
def HashDoc (c : Serde.Value) (k : Key) : Prop := ArrayDoc c k.bytes

/-- The document is the list of hashes. -/
def HashesDoc (c : Serde.Value) (l : List Key) : Prop := ∃ cs, c = .seq cs ∧ List.Forall₂ HashDoc cs l

/-- The document is `null`, or what there is. -/
def OptDoc {α : Type} (P : Serde.Value → α → Prop) (c : Serde.Value) : Option α → Prop
  | none => c = .null
  | some a => P c a

/-- The document is the path. -/
def PathDoc (c : Serde.Value) (p : NibblePath) : Prop :=
  ∃ x y, Fields [("num_nibbles", false), ("bytes", false)] c [x, y] ∧ NumDoc x p.numNibbles ∧ ArrayDoc y p.bytes

/-- The document is the node key. -/
def NodeKeyDoc (c : Serde.Value) (version : Version) (path : NibblePath) : Prop :=
  ∃ x y, Fields [("version", false), ("nibble_path", false)] c [x, y] ∧ NumDoc x version ∧ PathDoc y path

/-- The document is the type of a node. -/
inductive NodeTypeDoc : Serde.Value → NodeType → Prop where
  | leaf : NodeTypeDoc (.str "Leaf") .leaf
  | leafNull : NodeTypeDoc (.obj [("Leaf", .null)]) .leaf
  | internalLegacy : NodeTypeDoc (.str "InternalLegacy") .internalLegacy
  | internalLegacyNull : NodeTypeDoc (.obj [("InternalLegacy", .null)]) .internalLegacy
  | internal {c x : Serde.Value} {n : Nat} (fields : Fields [("leaf_count", false)] c [x]) (hx : NumDoc x n) : NodeTypeDoc (.obj [("Internal", c)]) (.internal n)

/-- The document is the child. -/
def ChildDoc (c : Serde.Value) (ch : Child Key) : Prop :=
  ∃ x y z, Fields [("hash", false), ("version", false), ("node_type", false)] c [x, y, z] ∧ HashDoc x ch.hash ∧ NumDoc y ch.version ∧
    NodeTypeDoc z ch.nodeType

/-- The document is the sixteen places for children, and any number. -/
def ChildrenDoc (c : Serde.Value) (cs : Children Key) : Prop :=
  ∃ (xs : Nibble → Serde.Value) (y : Serde.Value), Fields [("children", false), ("num_children", false)] c [.seq (List.ofFn xs), y] ∧
    (∀ i, OptDoc ChildDoc (xs i) (cs.children i)) ∧ NumDoc y cs.numChildren

/-- The document is the contents of an internal node. -/
def InternalDoc (c : Serde.Value) (n : InternalNode Key) : Prop :=
  ∃ x y, Fields [("children", false), ("leaf_count", true), ("leaf_count_migration", false)] c [x, y, .bool n.leafCountMigration] ∧
    ChildrenDoc x n.children ∧ OptDoc NumDoc y n.leafCount

/-- The document is the contents of a leaf. -/
def LeafDoc (c : Serde.Value) (l : LeafNode Key) : Prop :=
  ∃ x y, Fields [("key_hash", false), ("value_hash", false)] c [x, y] ∧ HashDoc x l.keyHash ∧ HashDoc y l.valueHash

/-- The document is the node. -/
inductive NodeDoc : Serde.Value → Node Key → Prop where
  | null : NodeDoc (.str "Null") .null
  | nullNull : NodeDoc (.obj [("Null", .null)]) .null
  | internal {c : Serde.Value} {n : InternalNode Key} (h : InternalDoc c n) : NodeDoc (.obj [("Internal", c)]) (.internal n)
  | leaf {c : Serde.Value} {l : LeafNode Key} (h : LeafDoc c l) : NodeDoc (.obj [("Leaf", c)]) (.leaf l)

/-- The document is the proof. -/
def ProofDoc (c : Serde.Value) (p : SparseMerkleProof Key) : Prop :=
  ∃ x y, Fields [("leaf", true), ("siblings", false), ("phantom_hasher", false)] c [x, y, .null] ∧ OptDoc LeafDoc x p.leaf ∧ HashesDoc y p.siblings

/-- The document is the range proof. -/
def RangeProofDoc (c : Serde.Value) (p : SparseMerkleRangeProof Key) : Prop :=
  ∃ x, Fields [("right_siblings", false)] c [x] ∧ HashesDoc x p.rightSiblings

end Verif.Jmt.Spec
