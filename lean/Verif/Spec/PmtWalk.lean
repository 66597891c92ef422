import Verif.Spec.PmtBytes
import Verif.Pmt.Trie
/-!
The walk of a key through a database, or through the bytes of a proof: from the root, one node after the other.
-/

set_option autoImplicit false

namespace Verif.Pmt.Spec

open Verif.Pmt.Yellow (nibbles)

/-- A part is considered if it has the root hash or is not shorter than a hash. -/
def Considered (K : Keccak) (root : H256) (b : Bytes) : Prop := K b = root ∨ 32 ≤ b.length

/-- The part with the given hash: the last one, if several have it. -/
def PartOf (K : Keccak) (root : H256) (proof : List Bytes) (x : H256) (b : Bytes) : Prop :=
  ∃ l r, proof = l ++ b :: r ∧ K b = x ∧ Considered K root b ∧ ∀ c ∈ r, K c = x → ¬ Considered K root c

/-- The bytes that a database has under a hash. -/
def Stored (db : Db) (x : H256) (b : Bytes) : Prop := db.get x = some b

/-- A place on the walk: a node, and what is left of the path. -/
abbrev Place := Node × Nibbles

/-- From one place to the next: from a hash to the node in the bytes that have it, from an extension behind its path, from a branch to the
child of the next digit. -/
inductive Goes (has : H256 → Bytes → Prop) : Place → Place → Prop where
  | hash {x : H256} {b : Bytes} {n : Node} {p : Nibbles} (hb : has x b) (hn : Accepted b n) : Goes has (.hash x, p) (n, p)
  | ext {q p : Nibbles} {n : Node} : Goes has (.ext q n, q ++ p) (n, p)
  | branch {cs : Fin 16 → Node} {v : Option Bytes} {i : Fin 16} {p : Nibbles} : Goes has (.branch cs v, i.val :: p) (cs i, p)

/-- The walk ends here with an answer. -/
inductive AnswersAt : Place → Option Bytes → Prop where
  | empty (p : Nibbles) : AnswersAt (.empty, p) none
  | leaf (p : Nibbles) (v : Bytes) : AnswersAt (.leaf p v, p) (some v)
  | otherLeaf {p q : Nibbles} (v : Bytes) (h : q ≠ p) : AnswersAt (.leaf q v, p) none
  | otherExt {p q : Nibbles} (n : Node) (h : ¬ q <+: p) : AnswersAt (.ext q n, p) none
  | branch {p : Nibbles} (cs : Fin 16 → Node) (v : Option Bytes) (h : ∀ i : Fin 16, p.head? ≠ some i.val) : AnswersAt (.branch cs v, p) v

/-- The walk of the key from the node comes to the place. -/
def Comes (has : H256 → Bytes → Prop) (n : Node) (key : Bytes) (s : Place) : Prop :=
  Relation.ReflTransGen (Goes has) (n, (nibbles key).map Fin.val ++ [16]) s

end Verif.Pmt.Spec
