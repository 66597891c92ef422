import Verif.Pmt.Node
import Mathlib.Data.Nat.Digits.Defs
import Mathlib.Data.List.FinRange
/-!
The root hash of a trie as Ethereum's Yellow Paper defines it (appendix B: RLP; appendix C: hex-prefix encoding; appendix D: Merkle Patricia
tries), by recursion over the list of entries. Nothing here refers to the nodes, the algorithms or the RLP functions of the model.
-/

set_option autoImplicit false

namespace Verif.Pmt.Yellow

/-- What RLP encodes: byte strings and lists (appendix B, the set 𝕋). -/
inductive Item where
  | data (b : Bytes)
  | list (l : List Item)

/-- Big-endian representation without leading zeros (`BE`). -/
def be (n : Nat) : Bytes := ((Nat.digits 256 n).map UInt8.ofNat).reverse

/-- A payload with its length in front; `o` is 128 for byte strings and 192 for lists. -/
def withLength (o : Nat) (s : Bytes) : Bytes :=
  if s.length < 56 then UInt8.ofNat (o + s.length) :: s
  else UInt8.ofNat (o + 55 + (be s.length).length) :: be s.length ++ s

mutual
/-- RLP: a single byte below 128 is itself. -/
def rlp : Item → Bytes
  | .data b => if b.length = 1 ∧ ∀ x ∈ b, x.toNat < 128 then b else withLength 128 b
  | .list l => withLength 192 (rlpAll l)
/-- The encodings of the members of a list, one after the other. -/
def rlpAll : List Item → Bytes
  | [] => []
  | i :: t => rlp i ++ rlpAll t
end

/-- Pairs of nibbles as bytes. -/
def pairs : List (Fin 16) → Bytes
  | a :: b :: t => UInt8.ofNat (16 * a.val + b.val) :: pairs t
  | _ => []

/-- Hex-prefix encoding (`HP`), with `f = 2` for leaves and `f = 0` otherwise. -/
def hp (x : List (Fin 16)) (leaf : Bool) : Bytes :=
  let f := if leaf then 2 else 0
  if x.length % 2 = 0 then UInt8.ofNat (16 * f) :: pairs x
  else match x with
    | [] => []
    | a :: t => UInt8.ofNat (16 * (f + 1) + a.val) :: pairs t

/-- Nibbles of a key, the high one of each byte first. -/
def nibbles : Bytes → List (Fin 16)
  | [] => []
  | b :: t => Fin.ofNat 16 (b.toNat / 16) :: Fin.ofNat 16 b.toNat :: nibbles t

/-- The longest common prefix of two paths. -/
def common2 : List (Fin 16) → List (Fin 16) → List (Fin 16)
  | a :: s, b :: t => if a = b then a :: common2 s t else []
  | _, _ => []

/-- The longest common prefix of the paths of a list. -/
def common : List (List (Fin 16)) → List (Fin 16)
  | [] => []
  | [p] => p
  | p :: t => common2 p (common t)

/-- The entries whose path begins with the nibble, without it. -/
def below (i : Fin 16) (J : List (List (Fin 16) × Bytes)) : List (List (Fin 16) × Bytes) :=
  J.filterMap (fun e => match e.1 with
    | [] => none
    | a :: p => if a = i then some (p, e.2) else none)

/-- The value of the entry with the empty path, or the empty byte string. -/
def here (J : List (List (Fin 16) × Bytes)) : Bytes :=
  match J.find? (fun e => e.1.isEmpty) with
  | some e => e.2
  | none => []

/-- A node in its parent (`n`): itself if its encoding is shorter than 32 bytes, and otherwise the hash of its encoding. -/
def cap (K : Keccak) (i : Item) : Item := if (rlp i).length < 32 then i else .data (K (rlp i)).bytes

/-- The node for a list of entries (`c`): nothing, a leaf, an extension, or a branch. The number bounds the depth. -/
def struct (K : Keccak) : Nat → List (List (Fin 16) × Bytes) → Item
  | 0, _ => .data []
  | _ + 1, [] => .data []
  | _ + 1, [(p, v)] => .list [.data (hp p true), .data v]
  | n + 1, J =>
    let c := common (J.map Prod.fst)
    if c ≠ [] then .list [.data (hp c false), cap K (struct K n (J.map (fun e => (e.1.drop c.length, e.2))))]
    else .list ((List.finRange 16).map (fun i => cap K (struct K n (below i J))) ++ [.data (here J)])

/-- The entries, keys as nibbles. -/
def entries (J : List (Bytes × Bytes)) : List (List (Fin 16) × Bytes) := J.map (fun e => (nibbles e.1, e.2))

/-- The root hash of the trie with the given entries (`TRIE`). -/
def trieRoot (K : Keccak) (J : List (Bytes × Bytes)) : H256 :=
  K (rlp (struct K (((entries J).map (fun e => e.1.length)).sum + 1) (entries J)))

/-- The list has exactly the entries of the map, each once. -/
def Lists (J : List (Bytes × Bytes)) (m : Bytes → Option Bytes) : Prop :=
  (J.map Prod.fst).Nodup ∧ ∀ k v, (k, v) ∈ J ↔ m k = some v

end Verif.Pmt.Yellow
