import Verif.Proofs.Reads
/-! Concrete keys, operations and a hash function for the examples that accompany the theorems. -/

set_option autoImplicit false

namespace Verif.Props
open Verif Verif.Jmt Verif.Spec

/-- Hash values as terms: a hash function without collisions. -/
inductive Term where
  | placeholder
  | value (v : Value)
  | leaf (k : Key) (v : Term)
  | node (a b : Term)
deriving DecidableEq

/-- The collision-free hash functions. -/
def termHasher : Hasher Term := ⟨.placeholder, .leaf, .node, .value⟩

/-- The key with first byte `a`, last byte `b` and zeros between. -/
def key (a b : UInt8) : Key := ⟨a :: (List.replicate 30 0 ++ [b]), rfl⟩

/-- Three versions: two keys sharing 63 nibbles and another one; then an overwrite, a deletion and a repeated key;
pruning; then a deletion of an absent key. -/
def exOps : List Op :=
  [.update true [[(key 1 1, some [1]), (key 1 2, some [2]), (key 0xF0 0, some [3])],
      [(key 1 1, none), (key 1 2, some [7]), (key 0x80 0, some [4]), (key 0x80 0, some [5])]],
   .purge 1,
   .update true [[(key 9 9, none)]]]

theorem exOps_startable : Startable 0 (commitsOf exOps) := ⟨.inl rfl, by simp [exOps, commitsOf, Op.commits]⟩

theorem exOps_reached : ∃ s, Reached termHasher 0 exOps s 3 := Reached.exists termHasher exOps_startable

theorem exOps_readable1 : Readable 0 exOps 1 :=
  ⟨by decide, by decide, .inl (by simp [exOps])⟩

theorem exOps_readable2 : Readable 0 exOps 2 :=
  ⟨by decide, by decide, .inr rfl⟩

example : contentsAt 0 exOps 1 (key 1 1) = none := by decide +kernel
example : contentsAt 0 exOps 1 (key 1 2) = some [7] := by decide +kernel
example : contentsAt 0 exOps 1 (key 0x80 0) = some [5] := by decide +kernel
example : contentsAt 0 exOps 2 (key 0xF0 0) = some [3] := by decide +kernel

end Verif.Props
