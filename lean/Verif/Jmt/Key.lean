/-!
Model of `/repo/jmt/src/bytes32ext.rs` (bit and nibble views of 32-byte hashes) and of `Nibble`
(`/repo/jmt/src/types/nibble.rs` lines 21-46).
-/

set_option autoImplicit false

namespace Verif.Jmt

/-- `types/nibble.rs:21` `Nibble(u8)`; `From<u8>` asserts `< 16`. -/
abbrev Nibble := Fin 16

/-- `lib.rs` `KeyHash([u8; 32])`. -/
structure Key where
  bytes : List UInt8
  len : bytes.length = 32
deriving DecidableEq

/-- The `i`-th byte of `[u8; 32]`. Rust panics when `i ≥ 32`; every use below is guarded. -/
def Key.byte (k : Key) (i : Nat) : Nat := (k.bytes.getD i 0).toNat

/-- `bytes32ext.rs:23-29` `get_nibble` and `bytes32ext.rs:42-47` `nibble`:
`index % 2 == 0` gives `self[index/2] >> 4`, odd gives `self[index/2] & 0x0F`.
(Rust panics for `index ≥ 64`; callers in the model use `index < 64`.) -/
def Key.nibble (k : Key) (index : Nat) : Nibble :=
  if index % 2 = 0 then Fin.ofNat 16 (k.byte (index / 2) >>> 4)
  else Fin.ofNat 16 (k.byte (index / 2) &&& 0x0F)

/-- `NibblePath::new(key.0.to_vec()).nibbles()` (`nibble_path.rs`): the 64 nibbles of the key in order. -/
def Key.nibbles (k : Key) : List Nibble := (List.range 64).map k.nibble

/-- `bytes32ext.rs:83-90` `HashValueBitIterator::get_bit`. -/
def Key.bit (k : Key) (index : Nat) : Bool :=
  let pos := index / 8
  let bit := 7 - index % 8
  (k.byte pos >>> bit) &&& 1 != 0

/-- `bytes32ext.rs:38-40, 75-80, 93-99` `iter_bits()`: bits `0..256` in order. -/
def Key.bits (k : Key) : List Bool := (List.range 256).map k.bit

/-- Number of leading positions where two lists agree (`zip`, `take_while`, `count`). -/
def commonPrefixLen {α : Type} [DecidableEq α] : List α → List α → Nat
  | a :: as, b :: bs => if a = b then commonPrefixLen as bs + 1 else 0
  | _, _ => 0

/-- `bytes32ext.rs:31-36` `common_prefix_bits_len`:
`iter_bits().zip(other.iter_bits()).take_while(|(x, y)| x == y).count()`. -/
def Key.commonPrefixBitsLen (a b : Key) : Nat :=
  ((a.bits.zip b.bits).takeWhile (fun p => p.1 == p.2)).length

/-- `bytes32ext.rs:16-18` `common_prefix_nibbles_len`. -/
def Key.commonPrefixNibblesLen (a b : Key) : Nat := a.commonPrefixBitsLen b / 4

/-- One step of the loop of `from_bit_iter`: `if bit { buf[i / 8] |= 1 << (7 - i % 8) }`. -/
def setBit (buf : List UInt8) (i : Nat) (bit : Bool) : List UInt8 :=
  if bit then buf.modify (i / 8) (fun b => b ||| ((1 : UInt8) <<< (UInt8.ofNat (7 - i % 8)))) else buf

/-- `bytes32ext.rs:50-62` `from_bit_iter`. -/
def fromBitIter (bits : List Bool) : Option (List UInt8) :=
  if bits.length ≠ 256 then none
  else some ((bits.zipIdx).foldl (fun buf p => setBit buf p.2 p.1) (List.replicate 32 0))

/-- `KeyHash` derives `Ord`: lexicographic order of the 32 bytes. -/
instance : LT Key := ⟨fun a b => a.bytes < b.bytes⟩
instance : LE Key := ⟨fun a b => ¬ (b < a)⟩
instance (a b : Key) : Decidable (a < b) := inferInstanceAs (Decidable (a.bytes < b.bytes))
instance (a b : Key) : Decidable (a ≤ b) := inferInstanceAs (Decidable (¬ _))

end Verif.Jmt
