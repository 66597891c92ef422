import Verif.Jmt.Hash
/-!
Specification: the root hash of a binary sparse Merkle tree of height 256 over a finite list of
(key, value hash) entries, and the sibling path of a key in it. Independent of nibbles, versions, storage
and of how the tree was built.
-/

set_option autoImplicit false

namespace Verif.Spec
open Verif.Jmt
variable {D : Type}

/-- Root of the subtree with `n` bits left, for entries whose keys agree on the first `256 - n` bits:
* no entry: the placeholder;
* one entry: the hash of that leaf (a subtree with a single key is replaced by the leaf itself);
* otherwise: hash of the two halves, split by the next key bit (`0` left, `1` right). -/
def smt (H : Hasher D) : (n : Nat) → List (Key × D) → D
  | _, [] => H.placeholder
  | _, [(k, v)] => H.leaf k v
  | 0, _ => H.placeholder -- two different keys differ in one of 256 bits
  | n + 1, l =>
    H.node (smt H n (l.filter (fun e => !e.1.bit (256 - (n + 1)))))
      (smt H n (l.filter (fun e => e.1.bit (256 - (n + 1)))))

/-- Root hash of the whole tree. -/
def smtRoot (H : Hasher D) (l : List (Key × D)) : D := smt H 256 l

/-- Walking down from the root of the same tree along the bits of `k` until at most one entry is left:
the sibling hashes met on the way (topmost first) and the entry found there, if any. -/
def smtPath (H : Hasher D) (k : Key) : (n : Nat) → List (Key × D) → List D × Option (Key × D)
  | _, [] => ([], none)
  | _, [e] => ([], some e)
  | 0, _ => ([], none) -- two different keys differ in one of 256 bits
  | n + 1, l =>
    let i := 256 - (n + 1)
    let r := smtPath H k n (l.filter (fun e => e.1.bit i == k.bit i))
    (smt H n (l.filter (fun e => e.1.bit i != k.bit i)) :: r.1, r.2)

/-- `L` lists each key of the map `f` once, with the hash of its value. -/
def Lists (H : Hasher D) (f : Key → Option Value) (L : List (Key × D)) : Prop :=
  (L.map Prod.fst).Nodup ∧ ∀ k h, (k, h) ∈ L ↔ (f k).map H.value = some h

/-! ### Hash inputs, for statements about collisions

A statement "or the hash function has a collision" would be vacuous for a real hash function, whose
collisions exist. The soundness theorems therefore name the two lists of inputs hashed by the two
computations being compared and claim a collision between a member of one and a member of the other. -/

/-- An input of the node hash function. -/
inductive HashInput (D : Type) where
  | leaf (k : Key) (v : D)
  | node (a b : D)

/-- Its hash. -/
def HashInput.digest (H : Hasher D) : HashInput D → D
  | .leaf k v => H.leaf k v
  | .node a b => H.node a b

/-- All inputs hashed when computing `smt H n l`. -/
def smtInputs (H : Hasher D) : (n : Nat) → List (Key × D) → List (HashInput D)
  | _, [] => []
  | _, [(k, v)] => [.leaf k v]
  | 0, _ => []
  | n + 1, l =>
    let a := l.filter (fun e => !e.1.bit (256 - (n + 1)))
    let b := l.filter (fun e => e.1.bit (256 - (n + 1)))
    .node (smt H n a) (smt H n b) :: (smtInputs H n a ++ smtInputs H n b)

/-- A collision between an input of `xs` and one of `ys`, or an input of one of them hashing to the
placeholder. -/
def Clash (H : Hasher D) (xs ys : List (HashInput D)) : Prop :=
  (∃ x ∈ xs, ∃ y ∈ ys, x ≠ y ∧ x.digest H = y.digest H) ∨
  (∃ x ∈ xs ++ ys, x.digest H = H.placeholder)

/-- The hash at the top of a path: `sibs` topmost first, with the direction bits of the path, and `h` at
the bottom. -/
def climb (H : Hasher D) : List D → List Bool → D → D
  | s :: sibs, b :: bits, h => if b then H.node s (climb H sibs bits h) else H.node (climb H sibs bits h) s
  | _, _, h => h

/-- All node inputs hashed when computing `climb H sibs bits h`. -/
def climbInputs (H : Hasher D) : List D → List Bool → D → List (HashInput D)
  | s :: sibs, b :: bits, h =>
    (if b then .node s (climb H sibs bits h) else .node (climb H sibs bits h) s) :: climbInputs H sibs bits h
  | _, _, _ => []

end Verif.Spec
