import Verif.Spec.Smt
/-!
Specification of the siblings of a key in the binary sparse Merkle tree of a list of entries, position by position.
-/

set_option autoImplicit false

namespace Verif.Spec
open Verif.Jmt
variable {D : Type}

/-- `a` and `b` agree on their first `i` bits. -/
def agreeTo (i : Nat) (a b : Key) : Bool := (List.range i).all (fun j => a.bit j == b.bit j)

/-- The entries that leave the path of `k` at bit `i`. -/
def offPath (k : Key) (i : Nat) (l : List (Key × D)) : List (Key × D) :=
  l.filter (fun e => agreeTo i e.1 k && e.1.bit i != k.bit i)

/-- The hash of the subtree beside the path of `k` at bit `i`. -/
def sibling (H : Hasher D) (k : Key) (l : List (Key × D)) (i : Nat) : D := smt H (255 - i) (offPath k i l)

/-- The siblings on the left of the path of `k` (where its bit is 1) among the first `depth` bits, lowest first. -/
def leftSiblings (H : Hasher D) (k : Key) (depth : Nat) (l : List (Key × D)) : List D :=
  (((List.range depth).filter k.bit).map (sibling H k l)).reverse

/-- The siblings on the right of the path of `k` (where its bit is 0) among the first `depth` bits, lowest first. -/
def rightSiblings (H : Hasher D) (k : Key) (depth : Nat) (l : List (Key × D)) : List D :=
  (((List.range depth).filter (fun i => !k.bit i)).map (sibling H k l)).reverse

/-- All node inputs hashed by the loop of `SparseMerkleRangeProof::verify`: the bits (lowest first), the siblings on the left and on the right, and the
hash reached so far. -/
def rangeInputs (H : Hasher D) : List Bool → List D → List D → D → List (HashInput D)
  | true :: bits, l :: left, right, h => .node l h :: rangeInputs H bits left right (H.node l h)
  | false :: bits, left, r :: right, h => .node h r :: rangeInputs H bits left right (H.node h r)
  | _, _, _, _ => []

end Verif.Spec
