import Verif.Common.Serde
import Verif.Pmt.Trie
/-!
Which JSON documents stand for which nodes and tries, without saying how they are read.
-/

set_option autoImplicit false

namespace Verif.Pmt.Spec

open Verif.Serde

/-- The object has one field of this name, with this value. -/
def Named (fs : List (String × Value)) (name : String) (v : Value) : Prop :=
  ∃ l r, fs = l ++ (name, v) :: r ∧ ∀ e ∈ l ++ r, e.1 ≠ name

/-- A structure with the two fields: an array of both, or an object with at least them. -/
def TwoNamed (a b : String) (c x y : Value) : Prop :=
  c = .seq [x, y] ∨ ∃ fs, c = .obj fs ∧ Named fs a x ∧ Named fs b y

/-- The document is the byte string as a text, in upper or lower case. -/
def HexDoc (c : Value) (b : Bytes) : Prop :=
  ∃ s, c = .str s ∧ s.toList.map Char.toLower = (hexEncode b).toList

/-- The document is the byte string as an array of numbers. -/
def ArrayDoc (c : Value) (b : Bytes) : Prop := c = .seq (b.map (fun x => .num x.toNat))

/-- The document is the node. -/
inductive NodeDoc : Value → Node → Prop where
  | empty : NodeDoc (.str "Empty") .empty
  | emptyNull : NodeDoc (.obj [("Empty", .null)]) .empty
  | leaf {c k x : Value} {key value : Bytes} (fields : TwoNamed "key" "value" c k x) (hk : HexDoc k key) (hx : HexDoc x value) :
      NodeDoc (.obj [("Leaf", c)]) (.leaf (key.map UInt8.toNat) value)
  | ext {c p x : Value} {pre : Bytes} {n : Node} (fields : TwoNamed "prefix" "node" c p x) (hp : HexDoc p pre) (hx : NodeDoc x n) :
      NodeDoc (.obj [("Extension", c)]) (.ext (pre.map UInt8.toNat) n)
  | branch {c : Value} {cs : Fin 16 → Value} {children : Fin 16 → Node} (hcs : ∀ i, NodeDoc (cs i) (children i))
      (fields : TwoNamed "children" "value" c (.seq (List.ofFn cs)) .null) : NodeDoc (.obj [("Branch", c)]) (.branch children none)
  /-- Absent is the same as `null`. -/
  | branchAbsent {fs : List (String × Value)} {cs : Fin 16 → Value} {children : Fin 16 → Node} (hcs : ∀ i, NodeDoc (cs i) (children i))
      (hc : Named fs "children" (.seq (List.ofFn cs))) (hv : ∀ e ∈ fs, e.1 ≠ "value") : NodeDoc (.obj [("Branch", .obj fs)]) (.branch children none)
  | branchValue {c x : Value} {cs : Fin 16 → Value} {children : Fin 16 → Node} {v : Bytes} (hcs : ∀ i, NodeDoc (cs i) (children i))
      (fields : TwoNamed "children" "value" c (.seq (List.ofFn cs)) x) (hx : ArrayDoc x v) : NodeDoc (.obj [("Branch", c)]) (.branch children (some v))
  | hash {c x : Value} {h : H256} (fields : c = .seq [x] ∨ ∃ fs, c = .obj fs ∧ Named fs "hash" x) (hx : ArrayDoc x h.bytes) :
      NodeDoc (.obj [("Hash", c)]) (.hash h)

/-- The document is a trie with this root node and this root hash. -/
def TrieDoc (c : Value) (root : Node) (rootHash : H256) : Prop :=
  ∃ x y, TwoNamed "root" "root_hash" c x y ∧ NodeDoc x root ∧ ArrayDoc y rootHash.bytes

end Verif.Pmt.Spec
