import Verif.Pmt.Node
/-!
Nodes of tries and what decoding their encoding should give.
-/

set_option autoImplicit false

namespace Verif.Pmt.Spec

/-- The nodes that can occur in a trie: paths of digits (with the terminator in leaves), not empty in extensions; values in branches not empty;
sizes that fit into memory. Children are arbitrary nodes of this kind, also hash nodes. -/
def NodeOk : Node → Prop
  | .empty => True
  | .leaf key value => (∃ l : List (Fin 16), key = l.map Fin.val ++ [16] ∧ l.length ≤ 2 ^ 60) ∧ value.length < 2 ^ 60
  | .ext pre node => (∃ l : List (Fin 16), pre = l.map Fin.val ∧ l ≠ [] ∧ l.length ≤ 2 ^ 60) ∧ NodeOk node
  | .branch children value => (∀ i, NodeOk (children i)) ∧ ∀ v, value = some v → v ≠ [] ∧ v.length < 2 ^ 60
  | .hash _ => True

/-- A node that is not a hash. -/
def NotHash : Node → Prop
  | .hash _ => False
  | _ => True

/-- A node without hash nodes in it. -/
def Hashless : Node → Prop
  | .empty => True
  | .leaf _ _ => True
  | .ext _ node => Hashless node
  | .branch children _ => ∀ i, Hashless (children i)
  | .hash _ => False

/-- The hash of the encoding of the first node, if it has at least 32 bytes, and otherwise the second node (also if the first is a hash node, which
has no encoding). -/
def byHash (K : Keccak) (n m : Node) : Node :=
  match encodeRaw K n with
  | .ok (b, _) => if b.length < 32 then m else .hash (K b)
  | .error _ => m

/-- The node with each child of at least 32 encoded bytes replaced by its hash. -/
def collapse (K : Keccak) : Node → Node
  | .ext pre node => .ext pre (byHash K node (collapse K node))
  | .branch children value => .branch (fun i => byHash K (children i) (collapse K (children i))) value
  | n => n

end Verif.Pmt.Spec
