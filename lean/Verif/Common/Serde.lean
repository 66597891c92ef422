import Verif.Common.Err
/-!
What the derived implementations of serde do in the format of `serde_json`, which the crate itself uses (`/repo/pmt/src/inner.rs:841-848`). A document is a tree of
JSON values; its text, printed and parsed by `serde_json`, is not modelled.
-/

set_option autoImplicit false

namespace Verif.Serde

/-- A JSON value without fractions and negative numbers, which none of the types reads. -/
inductive Value where
  | null
  | bool (b : Bool)
  | num (n : Nat)
  | str (s : String)
  | seq (l : List Value)
  | obj (fields : List (String × Value))

/-- The entry of an object with the given name: unknown names are ignored, a second entry with the name is an error. -/
def field? (fs : List (String × Value)) (name : String) : Res (Option Value) :=
  match fs.filter (fun e => e.1 = name) with
  | [] => .ok none
  | [e] => .ok (some e.2)
  | _ => .error (.err "duplicate field")

/-- A field without default. -/
def field (fs : List (String × Value)) (name : String) : Res Value := do
  match ← field? fs name with
  | some v => pure v
  | none => .error (.err "missing field")

/-- A field of type `Option`, for which absent is the same as `null`. -/
def optField (fs : List (String × Value)) (name : String) : Res Value := do
  pure ((← field? fs name).getD .null)

/-- The two fields of a structure, given as an object or as an array; with `opt`, the second has type `Option`. -/
def twoFields (a b : String) (opt : Bool) : Value → Res (Value × Value)
  | .obj fs => do
    let x ← field fs a
    let y ← if opt then optField fs b else field fs b
    pure (x, y)
  | .seq [x, y] => .ok (x, y)
  | _ => .error (.err "invalid type")

/-- The field of a structure with one field. -/
def oneField (a : String) : Value → Res Value
  | .obj fs => field fs a
  | .seq [x] => .ok x
  | _ => .error (.err "invalid type")

/-- The fields of a structure, given as an object or as an array; with `true`, a field has type `Option`. -/
def readFields (names : List (String × Bool)) : Value → Res (List Value)
  | .obj fs => names.mapM (fun n => if n.2 then optField fs n.1 else field fs n.1)
  | .seq l => if l.length = names.length then .ok l else .error (.err "invalid length")
  | _ => .error (.err "invalid type")

/-- All of them, or the first error. -/
def readAll {α : Type} (f : Value → Res α) : List Value → Res (List α)
  | [] => .ok []
  | v :: l => do
    let a ← f v
    let as ← readAll f l
    pure (a :: as)

/-- A `u8`. -/
def writeByte (b : UInt8) : Value := .num b.toNat

/-- A `u8`. -/
def readByte : Value → Res UInt8
  | .num n => if n < 256 then .ok (UInt8.ofNat n) else .error (.err "invalid value")
  | _ => .error (.err "invalid type")

/-- A `Vec<u8>` as an array. -/
def writeBytes (b : List UInt8) : Value := .seq (b.map writeByte)

/-- A `Vec<u8>` as an array. -/
def readBytes : Value → Res (List UInt8)
  | .seq l => readAll readByte l
  | _ => .error (.err "invalid type")

/-- An array `[T; n]`. -/
def readArray {α : Type} (f : Value → Res α) (n : Nat) : Value → Res {l : List α // l.length = n}
  | .seq l => do
    let r ← readAll f l
    if h : r.length = n then pure ⟨r, h⟩ else .error (.err "invalid length")
  | _ => .error (.err "invalid type")

/-- A `Vec<T>`. -/
def readVec {α : Type} (f : Value → Res α) : Value → Res (List α)
  | .seq l => readAll f l
  | _ => .error (.err "invalid type")

/-- An `Option<T>`. -/
def writeOption {α : Type} (g : α → Value) : Option α → Value
  | none => .null
  | some a => g a

/-- An `Option<T>`. -/
def readOption {α : Type} (f : Value → Res α) : Value → Res (Option α)
  | .null => .ok none
  | v => do
    pure (some (← f v))

/-- A `u64`, or a `usize`. -/
def readU64 : Value → Res Nat
  | .num n => if n < 2 ^ 64 then .ok n else .error (.err "invalid type")
  | _ => .error (.err "invalid type")

/-- A `bool`. -/
def readBool : Value → Res Bool
  | .bool b => .ok b
  | _ => .error (.err "invalid type")

/-- A unit structure: `PhantomData`. -/
def readUnit : Value → Res Unit
  | .null => .ok ()
  | _ => .error (.err "invalid type")

/-- The digits `0` to `9`, `a` to `f`. -/
def hexChar (n : Nat) : Char := if n < 10 then Char.ofNat (48 + n) else Char.ofNat (87 + n)

/-- `hex::encode` (crate `hex`). -/
def hexEncode (b : List UInt8) : String := String.ofList (b.flatMap (fun x => [hexChar (x.toNat / 16), hexChar (x.toNat % 16)]))

/-- The value of a digit; upper case is accepted, too. -/
def hexVal (c : Char) : Res Nat :=
  if 48 ≤ c.toNat ∧ c.toNat ≤ 57 then .ok (c.toNat - 48)
  else if 97 ≤ c.toNat ∧ c.toNat ≤ 102 then .ok (c.toNat - 87)
  else if 65 ≤ c.toNat ∧ c.toNat ≤ 70 then .ok (c.toNat - 55)
  else .error (.err "invalid character")

/-- The loop of `hex::decode`. -/
def hexPairs : List Char → Res (List UInt8)
  | [] => .ok []
  | [_] => .error (.err "odd number of digits")
  | a :: b :: t => do
    let x ← hexVal a
    let y ← hexVal b
    let r ← hexPairs t
    pure (UInt8.ofNat (16 * x + y) :: r)

/-- `hex::decode` (crate `hex`). -/
def hexDecode (s : String) : Res (List UInt8) := hexPairs s.toList

/-- A byte string as hexadecimal text. -/
def readHex : Value → Res (List UInt8)
  | .str s => hexDecode s
  | _ => .error (.err "invalid type")

end Verif.Serde
