import Verif.Jmt.Key
/-!
Model of the text in which `KeyHash::with` (`/repo/jmt/src/lib.rs:221-227`) reports a key to the log: `EscapedByteSlice` (`lib.rs:254-281`).
Texts are lists of ASCII bytes.
-/

set_option autoImplicit false

namespace Verif.Jmt

/-- A digit of `{:02x}`. -/
def hexDigit (n : Nat) : UInt8 := if n < 10 then UInt8.ofNat (48 + n) else UInt8.ofNat (87 + n)

/-- `lib.rs:259-277` the text of one byte. -/
def escapeByte (b : UInt8) : List UInt8 :=
  if b = 10 then [92, 110]
  else if b = 13 then [92, 114]
  else if b = 9 then [92, 116]
  else if b = 92 ∨ b = 34 then [92, b]
  else if b = 0 then [92, 48]
  else if b ≥ 0x20 ∧ b < 0x7f then [b]
  else [92, 120, hexDigit (b.toNat / 16), hexDigit (b.toNat % 16)]

/-- `lib.rs:257-281` `fmt`. -/
def escaped (l : List UInt8) : List UInt8 := [98, 34] ++ l.flatMap escapeByte ++ [34]

end Verif.Jmt
