import Verif.Spec.YellowPaper
/-!
The items that stand for nodes in the Yellow Paper (appendix D), whether or not they belong to a trie.
-/

set_option autoImplicit false

namespace Verif.Pmt.Yellow

/-- `Format false i`: the item is a node. `Format true i`: the item stands for a child in a node, which is a node of less than 32 bytes, or
the hash of one. Paths and values fit into memory. -/
inductive Format : Bool → Item → Prop where
  | empty : Format false (.data [])
  | leaf (l : List (Fin 16)) (v : Bytes) (hl : l.length ≤ 2 ^ 60) (hv : v.length < 2 ^ 60) : Format false (.list [.data (hp l true), .data v])
  | ext (l : List (Fin 16)) (i : Item) (hl : l.length ≤ 2 ^ 60) (hne : l ≠ []) (hi : Format true i) : Format false (.list [.data (hp l false), i])
  | branch (c : Fin 16 → Item) (v : Bytes) (hv : v.length < 2 ^ 60) (hc : ∀ j, Format true (c j)) :
      Format false (.list ((List.finRange 16).map c ++ [.data v]))
  | short (i : Item) (hi : Format false i) (hs : (rlp i).length < 32) : Format true i
  | hash (h : H256) : Format true (.data h.bytes)

end Verif.Pmt.Yellow
