import Verif.Pmt.Nibbles
/-!
Model of the parts of the external crate `rlp` (version 0.5) that `/repo/pmt/src/inner.rs` uses. The crate is not part of the repository;
this is a transcription of its published behaviour: `RlpStream::{new_list, append, append_raw, append_empty_data}` on byte strings,
`Rlp::{prototype, at, data, as_raw, is_data, is_empty, size}`. `usize` is taken to have 64 bits.
-/

set_option autoImplicit false

namespace Verif.Pmt.Rlp

/-- Big-endian bytes without leading zeros; the first argument bounds their number. -/
def beBytes : (fuel : Nat) → Nat → Bytes
  | 0, _ => []
  | fuel + 1, n => if n = 0 then [] else beBytes fuel (n / 256) ++ [UInt8.ofNat n]

/-- The number given by big-endian bytes. -/
def beNat (b : Bytes) : Nat := b.foldl (fun acc x => acc * 256 + x.toNat) 0

/-- Header of a payload of the given length, with the offset (`0x80` for data, `0xc0` for lists). -/
def header (offset len : Nat) : Bytes :=
  if len ≤ 55 then [UInt8.ofNat (offset + len)]
  else UInt8.ofNat (offset + 55 + (beBytes 8 len).length) :: beBytes 8 len

/-- `append` of a byte string. -/
def encodeData (b : Bytes) : Bytes :=
  match b with
  | [x] => if x.toNat < 0x80 then [x] else header 0x80 1 ++ b
  | _ => header 0x80 b.length ++ b

/-- `RlpStream::new_list` and `out` around encoded items. -/
def encodeList (items : List Bytes) : Bytes := header 0xc0 items.flatten.length ++ items.flatten

/-- `PayloadInfo`. -/
structure Info where
  headerLen : Nat
  valueLen : Nat

/-- `calculate_payload_info`. -/
def longInfo (bytes : Bytes) (lenOfLen : Nat) : Res Info :=
  match bytes[1]? with
  | none => .error (.err "RlpIsTooShort")
  | some b =>
    if b = 0 then .error (.err "RlpDataLenWithZeroPrefix")
    else if bytes.length < 1 + lenOfLen then .error (.err "RlpIsTooShort")
    else
      let n := beNat ((bytes.drop 1).take lenOfLen)
      if n ≤ 55 then .error (.err "RlpInvalidIndirection") else .ok ⟨1 + lenOfLen, n⟩

/-- `PayloadInfo::from`. -/
def infoFrom (bytes : Bytes) : Res Info :=
  match bytes with
  | [] => .error (.err "RlpIsTooShort")
  | b :: _ =>
    let l := b.toNat
    if l ≤ 0x7f then .ok ⟨0, 1⟩
    else if l ≤ 0xb7 then .ok ⟨1, l - 0x80⟩
    else if l ≤ 0xbf then longInfo bytes (l - 0xb7)
    else if l ≤ 0xf7 then .ok ⟨1, l - 0xc0⟩
    else longInfo bytes (l - 0xf7)

/-- `BasicDecoder::payload_info`. -/
def payloadInfo (bytes : Bytes) : Res Info :=
  match infoFrom bytes with
  | .error e => .error e
  | .ok i => if i.headerLen + i.valueLen ≤ bytes.length then .ok i else .error (.err "RlpIsTooShort")

/-- `Rlp::is_data`. -/
def isData (bytes : Bytes) : Bool :=
  match bytes with
  | [] => false
  | b :: _ => decide (b.toNat < 0xc0)

/-- `Rlp::is_list`. -/
def isList (bytes : Bytes) : Bool :=
  match bytes with
  | [] => false
  | b :: _ => decide (0xc0 ≤ b.toNat)

/-- `Rlp::is_empty`. -/
def isEmpty (bytes : Bytes) : Bool :=
  match bytes with
  | [] => false
  | b :: _ => b == 0xc0 || b == 0x80

/-- `Rlp::size`. -/
def size (bytes : Bytes) : Nat :=
  if isData bytes then
    match payloadInfo bytes with
    | .ok i => i.valueLen
    | .error _ => 0
  else 0

/-- `Rlp::data`. -/
def data (bytes : Bytes) : Res Bytes :=
  match payloadInfo bytes with
  | .error e => .error e
  | .ok i => .ok ((bytes.drop i.headerLen).take i.valueLen)

/-- The first item of `bytes`, header included. -/
def first (bytes : Bytes) : Option Bytes :=
  match payloadInfo bytes with
  | .error _ => none
  | .ok i => some (bytes.take (i.headerLen + i.valueLen))

/-- Items one after the other, up to the first that cannot be read. Every item has at least one byte, so `bytes.length` rounds suffice. -/
def itemsFrom : (fuel : Nat) → Bytes → List Bytes
  | 0, _ => []
  | fuel + 1, bytes =>
    match first bytes with
    | none => []
    | some x => x :: itemsFrom fuel (bytes.drop x.length)

/-- The items `at(0)`, `at(1)`, … up to the first error, which `iter().count()` counts. The first item is looked for in the payload of the
list; the later ones start from a cached offset and are looked for in all of `bytes`, so that bytes after the end of the list are
read as further items. -/
def items (bytes : Bytes) : List Bytes :=
  match payloadInfo bytes with
  | .error _ => []
  | .ok i =>
    match first ((bytes.drop i.headerLen).take i.valueLen) with
    | none => []
    | some x => x :: itemsFrom bytes.length (bytes.drop (i.headerLen + x.length))

/-- `Prototype`. -/
inductive Proto where
  | null
  | data (n : Nat)
  | list (items : List Bytes)

/-- `Rlp::prototype`; the list arm carries the items instead of their number. -/
def prototype (bytes : Bytes) : Proto :=
  if isData bytes then .data (size bytes) else if isList bytes then .list (items bytes) else .null

end Verif.Pmt.Rlp
