import Verif.Pmt.Node
/-!
The form that paths have in the nodes of a trie, whatever the trie holds.
-/

set_option autoImplicit false

namespace Verif.Pmt.Spec

/-- The paths in the node are digits, ended by the terminator exactly in leaves, and not empty in extensions. -/
inductive Shaped : Node → Prop where
  | empty : Shaped .empty
  | leaf (p : List (Fin 16)) (v : Bytes) : Shaped (.leaf (p.map Fin.val ++ [16]) v)
  | ext {p : List (Fin 16)} {n : Node} (hp : p ≠ []) (hn : Shaped n) : Shaped (.ext (p.map Fin.val) n)
  | branch {cs : Fin 16 → Node} (v : Option Bytes) (hc : ∀ i, Shaped (cs i)) : Shaped (.branch cs v)
  | hash (x : H256) : Shaped (.hash x)

/-- Paths and values of a size that can be encoded; no value is empty. -/
def Small : Node → Prop
  | .empty => True
  | .leaf key value => key.length ≤ 2 ^ 60 + 1 ∧ value ≠ [] ∧ value.length < 2 ^ 60
  | .ext pre node => pre.length ≤ 2 ^ 60 ∧ Small node
  | .branch children value => (∀ i, Small (children i)) ∧ ∀ v, value = some v → v ≠ [] ∧ v.length < 2 ^ 60
  | .hash _ => True

end Verif.Pmt.Spec
