import Verif.Spec.PmtWalk
/-!
What a trie holds at a path of digits, on any database. The path need not be that of a key: the number of its digits may be odd.
-/

set_option autoImplicit false

namespace Verif.Pmt.Spec

/-- The walk along the path from the node ends with the value. -/
def HeldAt (db : Db) (n : Node) (l : List (Fin 16)) (v : Bytes) : Prop :=
  ∃ s, Relation.ReflTransGen (Goes (Stored db)) (n, l.map Fin.val ++ [16]) s ∧ AnswersAt s (some v)

/-- The bytes made of pairs of digits; a last digit without a partner is left out. -/
def keyBytes : List (Fin 16) → Bytes
  | a :: b :: t => UInt8.ofNat (a.val * 16 + b.val) :: keyBytes t
  | _ => []

/-- No walk down from the node is endless: the stored nodes that it leads to do not lead back to themselves. -/
inductive Ending (db : Db) : Node → Prop where
  | empty : Ending db .empty
  | leaf (key : Nibbles) (v : Bytes) : Ending db (.leaf key v)
  | ext (pre : Nibbles) {n : Node} (h : Ending db n) : Ending db (.ext pre n)
  | branch {cs : Fin 16 → Node} {w : Option Bytes} (h : ∀ i, Ending db (cs i)) : Ending db (.branch cs w)
  | hash {x : H256} (h : ∀ b n, Stored db x b → decodeNode b = .ok n → Ending db n) : Ending db (.hash x)

end Verif.Pmt.Spec
