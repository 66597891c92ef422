/-!
Byte string literals of Rust (The Rust Reference, "Byte string literals" and "Byte escapes"), without raw literals and line continuations.
Texts are lists of ASCII bytes.
-/

set_option autoImplicit false

namespace Verif.Spec

/-- The value of a hexadecimal digit, upper or lower case. -/
def hexValue (c : UInt8) : Option Nat :=
  if 48 ≤ c ∧ c ≤ 57 then some (c.toNat - 48)
  else if 97 ≤ c ∧ c ≤ 102 then some (c.toNat - 87)
  else if 65 ≤ c ∧ c ≤ 70 then some (c.toNat - 55)
  else none

/-- Read the rest of a literal up to the closing quote, which must end the text. -/
def readItems : List UInt8 → Option (List UInt8)
  | [] => none
  | [34] => some []
  | 34 :: _ :: _ => none
  | 92 :: 120 :: x :: y :: rest =>
    match hexValue x, hexValue y with
    | some a, some b => (readItems rest).map (UInt8.ofNat (16 * a + b) :: ·)
    | _, _ => none
  | 92 :: c :: rest =>
    if c = 110 then (readItems rest).map (10 :: ·)
    else if c = 114 then (readItems rest).map (13 :: ·)
    else if c = 116 then (readItems rest).map (9 :: ·)
    else if c = 92 then (readItems rest).map (92 :: ·)
    else if c = 48 then (readItems rest).map (0 :: ·)
    else if c = 39 then (readItems rest).map (39 :: ·)
    else if c = 34 then (readItems rest).map (34 :: ·)
    else none
  | c :: rest => if c = 13 ∨ c = 92 ∨ c ≥ 128 then none else (readItems rest).map (c :: ·)

/-- The bytes a literal `b"…"` stands for. -/
def readLiteral : List UInt8 → Option (List UInt8)
  | 98 :: 34 :: rest => readItems rest
  | _ => none

end Verif.Spec
