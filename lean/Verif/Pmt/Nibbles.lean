import Verif.Common.Err
/-!
Model of `/repo/pmt/src/nibbles.rs`.

`Nibbles { hex_data: Vec<u8> }` is a list of naturals: digits below 16, and 16 as terminator of the path of a leaf.
`common_prefix`, `offset`, `slice`, `join`, `extend`, `truncate`, `pop` and `push` are list operations.
-/

set_option autoImplicit false

namespace Verif.Pmt

/-- `Vec<u8>`. -/
abbrev Bytes := List UInt8

/-- `nibbles.rs:8-10` `Nibbles`. -/
abbrev Nibbles := List Nat

namespace Nibbles

/-- `nibbles.rs:19-29` `from_raw`. -/
def fromRaw (raw : Bytes) (isLeaf : Bool) : Nibbles :=
  raw.flatMap (fun b => [b.toNat / 16, b.toNat % 16]) ++ if isLeaf then [16] else []

/-- `nibbles.rs:31-57` `from_compact`. -/
def fromCompact : Bytes → Res Nibbles
  | [] => .error (.panic "index out of bounds: compact[0]")
  | flag :: rest =>
    match flag.toNat / 16 with
    | 0 => .ok (fromRaw rest false)
    | 1 => .ok (flag.toNat % 16 :: fromRaw rest false)
    | 2 => .ok (fromRaw rest true)
    | 3 => .ok (flag.toNat % 16 :: fromRaw rest true)
    | _ => .error (.panic "invalid data")

/-- `nibbles.rs:59-61` `is_leaf`; `len - 1` underflows on an empty path. -/
def isLeaf (n : Nibbles) : Res Bool :=
  match n.getLast? with
  | none => .error (.panic "attempt to subtract with overflow")
  | some x => .ok (x == 16)

/-- The loop of `encode_compact` and `encode_raw` (`nibbles.rs:86-88`, `102-104`): pairs of digits as bytes; a last single digit is
left out. -/
def pairs : Nibbles → Bytes
  | a :: b :: t => UInt8.ofNat (a * 16 + b) :: pairs t
  | _ => []

/-- The path without the terminator (`nibbles.rs:66-70`, `96-100`). -/
def body (n : Nibbles) (leaf : Bool) : Nibbles := if leaf then n.dropLast else n

/-- `nibbles.rs:63-91` `encode_compact`. -/
def encodeCompact (n : Nibbles) : Res Bytes := do
  let leaf ← isLeaf n
  let flag := if leaf then 0x20 else 0x00
  match body n leaf with
  | [] => pure [UInt8.ofNat flag]
  | a :: t =>
    if (a :: t).length % 2 = 1 then pure (UInt8.ofNat (0x10 + a + flag) :: pairs t)
    else pure (UInt8.ofNat flag :: pairs (a :: t))

/-- `nibbles.rs:93-107` `encode_raw`. -/
def encodeRaw (n : Nibbles) : Res (Bytes × Bool) := do
  let leaf ← isLeaf n
  pure (pairs (body n leaf), leaf)

/-- `nibbles.rs:121-131` `common_prefix`. -/
def commonPrefix : Nibbles → Nibbles → Nat
  | a :: t, b :: u => if a = b then commonPrefix t u + 1 else 0
  | _, _ => 0

end Nibbles
end Verif.Pmt
