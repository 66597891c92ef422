import Verif.Spec.YellowPaper
import Mathlib.Logic.Relation
/-!
Which bytes `decode_node` accepts as which nodes, and on which it panics, without saying how they are read.
-/

set_option autoImplicit false

namespace Verif.Pmt.Spec

open Verif.Pmt.Yellow (withLength nibbles)

/-- One item and its payload: a byte below 128, or a payload with its length in front, as data or as a list. -/
inductive RlpItem : Bytes → Bytes → Prop where
  | byte {c : UInt8} (h : c.toNat < 128) : RlpItem [c] [c]
  | data {d : Bytes} (h : d.length < 2 ^ 64) : RlpItem (withLength 128 d) d
  | list {d : Bytes} (h : d.length < 2 ^ 64) : RlpItem (withLength 192 d) d

/-- The bytes do not begin with an item. -/
def Unreadable (b : Bytes) : Prop := ∀ x d r, RlpItem x d → b ≠ x ++ r

/-- The items one after the other, up to the end or to something that is not an item. -/
inductive RlpItems : Bytes → List Bytes → Prop where
  | stop {b : Bytes} (h : Unreadable b) : RlpItems b []
  | next {x d r : Bytes} {l : List Bytes} (hx : RlpItem x d) (hl : RlpItems r l) : RlpItems (x ++ r) (x :: l)

/-- The items of a list that has at least one. The first must lie in the list; the others may lie behind it. -/
inductive ListBytes : Bytes → List Bytes → Prop where
  | mk {x d r s : Bytes} {l : List Bytes} (hlen : (x ++ r).length < 2 ^ 64) (hx : RlpItem x d) (hl : RlpItems (r ++ s) l) :
      ListBytes (withLength 192 (x ++ r) ++ s) (x :: l)

/-- A path in the hex-prefix encoding; when the number of digits is even, half of the first byte has no meaning. -/
inductive PathBytes : Bytes → List (Fin 16) → Bool → Prop where
  | even (x : Fin 16) (t : Bytes) (leaf : Bool) : PathBytes (UInt8.ofNat ((if leaf then 32 else 0) + x.val) :: t) (nibbles t) leaf
  | odd (x : Fin 16) (t : Bytes) (leaf : Bool) : PathBytes (UInt8.ofNat ((if leaf then 48 else 16) + x.val) :: t) (x :: nibbles t) leaf

/-- The value of a branch: an empty item for none. -/
inductive ValueBytes : Bytes → Option Bytes → Prop where
  | noData : ValueBytes [0x80] none
  | noList : ValueBytes [0xc0] none
  | value {v d : Bytes} (h : RlpItem v d) (hd : d ≠ []) : ValueBytes v (some d)

/-- The bytes are accepted as the node. -/
inductive Accepted : Bytes → Node → Prop where
  | empty (r : Bytes) : Accepted (0x80 :: r) .empty
  /-- The beginning of an item of data that is longer than the bytes, or whose length is not in its only form. -/
  | cut {c : UInt8} {t : Bytes} (h1 : 128 ≤ c.toNat) (h2 : c.toNat < 192) (h : Unreadable (c :: t)) : Accepted (c :: t) .empty
  | hash (h : H256) (r : Bytes) : Accepted (withLength 128 h.bytes ++ r) (.hash h)
  | leaf {b k v d e : Bytes} {p : List (Fin 16)} (hl : ListBytes b [k, v]) (hk : RlpItem k d) (hp : PathBytes d p true) (hv : RlpItem v e) :
      Accepted b (.leaf (p.map Fin.val ++ [16]) e)
  | ext {b k v d : Bytes} {p : List (Fin 16)} {n : Node} (hl : ListBytes b [k, v]) (hk : RlpItem k d) (hp : PathBytes d p false) (hne : p ≠ [])
      (hv : Accepted v n) : Accepted b (.ext (p.map Fin.val) n)
  | branch {b v : Bytes} {xs : Fin 16 → Bytes} {cs : Fin 16 → Node} {value : Option Bytes} (hl : ListBytes b (List.ofFn xs ++ [v]))
      (hc : ∀ i, Accepted (xs i) (cs i)) (hv : ValueBytes v value) : Accepted b (.branch cs value)

/-- `decode_node` panics on the bytes: a list of two begins with no path, or with the path of an extension that is empty, or such a list is one of
the nodes inside, and the nodes in front of it are accepted. -/
inductive Breaks : Bytes → Prop where
  | path {b k v d : Bytes} (hl : ListBytes b [k, v]) (hk : RlpItem k d) (hp : ∀ p leaf, PathBytes d p leaf → leaf = false ∧ p = []) : Breaks b
  | ext {b k v d : Bytes} {p : List (Fin 16)} (hl : ListBytes b [k, v]) (hk : RlpItem k d) (hp : PathBytes d p false) (hne : p ≠ [])
      (hv : Breaks v) : Breaks b
  | branch {b v : Bytes} {xs : Fin 16 → Bytes} (hl : ListBytes b (List.ofFn xs ++ [v])) (i : Fin 16) (hb : ∀ j < i, ∃ n, Accepted (xs j) n)
      (hi : Breaks (xs i)) : Breaks b

/-- A part of the proof has the first hash, and begins with the second hash as data, so that nothing else is read of it. -/
def Leads (K : Keccak) (proof : List Bytes) (x y : H256) : Prop := ∃ b ∈ proof, K b = x ∧ ∃ r, b = withLength 128 y.bytes ++ r

/-- Parts of the proof that are hashes lead from one of them back to it. -/
def Circle (K : Keccak) (proof : List Bytes) : Prop := ∃ x, Relation.TransGen (Leads K proof) x x

end Verif.Pmt.Spec
