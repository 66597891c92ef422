import Verif.Jmt.Key
/-! Specification: a key as a 256-bit number. -/

set_option autoImplicit false

namespace Verif.Spec
open Verif.Jmt

/-- The number with the given digits, most significant first. -/
def digitsNum (base : Nat) (l : List Nat) : Nat := l.foldl (fun a d => base * a + d) 0

/-- A 32-byte key read as a big-endian number. -/
def keyNum (k : Key) : Nat := digitsNum 256 (k.bytes.map UInt8.toNat)

end Verif.Spec
