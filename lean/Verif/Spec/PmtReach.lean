import Verif.Pmt.Trie
/-!
Which stored nodes belong to a root: those found from it by following the hashes inside the nodes.
-/

set_option autoImplicit false

namespace Verif.Pmt.Spec

/-- The hashes inside a node. -/
def refs : Node → List H256
  | .hash h => [h]
  | .ext _ n => refs n
  | .branch cs _ => (List.finRange 16).flatMap (fun i => refs (cs i))
  | _ => []

/-- The hash `x` is found from the root hash `r` by following the hashes inside stored nodes. -/
inductive Reach (db : Db) (r : H256) : H256 → Prop
  | root : Reach db r r
  | child {x y : H256} {b : Bytes} {n : Node} (hx : Reach db r x) (hb : db.get x = some b) (hn : decodeNode b = .ok n) (hy : y ∈ refs n) :
      Reach db r y

end Verif.Pmt.Spec
