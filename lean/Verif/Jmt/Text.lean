import Verif.Common.Serde
import Verif.Jmt.NibblePath
import Verif.Jmt.Key
/-!
Model of the `Debug` texts of `/repo/jmt/src` and of the iterator over the bits of a key (`bytes32ext.rs`).

A text is a list of characters. The texts are those of `{:?}`; the indented form `{:#?}` is not modelled. `debug_tuple`
and the derived `Debug` are those of the standard library: the name, the opening bracket, the fields, the closing
bracket. The `Debug` of a `String` puts it between quotation marks and escapes special characters; hexadecimal digits
are never escaped. The text of a key in the log is in `Jmt/Escape.lean`.
-/

set_option autoImplicit false

namespace Verif.Jmt
open Verif.Serde (hexChar hexEncode)

/-- `lib.rs:230-252`: the `Debug` of `KeyHash`, `ValueHash` and `RootHash`, which differ in the name. -/
def debugHash (name : List Char) (bytes : List UInt8) : List Char :=
  name ++ ['(', '"'] ++ (hexEncode bytes).toList ++ ['"', ')']

/-- `lib.rs:230-236`. -/
def debugKeyHash (bytes : List UInt8) : List Char := debugHash "KeyHash".toList bytes
/-- `lib.rs:238-244`. -/
def debugValueHash (bytes : List UInt8) : List Char := debugHash "ValueHash".toList bytes
/-- `lib.rs:246-252`. -/
def debugRootHash (bytes : List UInt8) : List Char := debugHash "RootHash".toList bytes

/-- `nibble.rs:38-42` the `LowerHex` of `Nibble`. -/
def nibbleText (n : Nibble) : List Char := [hexChar n.val]

/-- `nibble_path.rs:44-49` the `Debug` of `NibblePath`: the nibbles one after the other. Reading a nibble for which
there is no byte panics. -/
def NibblePath.debug (p : NibblePath) : Res (List Char) := do
  let l ← p.nibbles.collect
  pure (l.flatMap nibbleText)

/-- `node_type.rs:37-56` the derived `Debug` of `NodeKey`. -/
def debugNodeKey (version : Nat) (path : NibblePath) : Res (List Char) := do
  let t ← path.debug
  pure ("NodeKey { version: ".toList ++ version.repr.toList ++ ", nibble_path: ".toList ++ t ++ " }".toList)

/-- `lib.rs:125-132` the `Display` of `MissingRootError`. -/
def missingRootText (version : Nat) : List Char :=
  "Missing state root node at version ".toList ++ version.repr.toList ++ ", probably pruned.".toList

/-- `bytes32ext.rs:66-72` `HashValueBitIterator`: the range `pos` of the bits not yet returned is `lo..hi`. -/
structure KeyBitIter where
  key : Key
  lo : Nat
  hi : Nat

namespace KeyBitIter

/-- `bytes32ext.rs:38-40, 76-81` `iter_bits`. -/
def new (k : Key) : KeyBitIter := ⟨k, 0, 32 * 8⟩

/-- `bytes32ext.rs:97-99` `next`. -/
def next (it : KeyBitIter) : Option Bool × KeyBitIter :=
  if it.lo < it.hi then (some (it.key.bit it.lo), { it with lo := it.lo + 1 }) else (none, it)

/-- `bytes32ext.rs:107-109` `next_back`. -/
def nextBack (it : KeyBitIter) : Option Bool × KeyBitIter :=
  if it.lo < it.hi then (some (it.key.bit (it.hi - 1)), { it with hi := it.hi - 1 }) else (none, it)

/-- `bytes32ext.rs:101-103` `size_hint` (and `len()`, `bytes32ext.rs:112`): both bounds are the length of the range. -/
def sizeHint (it : KeyBitIter) : Nat × Option Nat := (it.hi - it.lo, some (it.hi - it.lo))

end KeyBitIter

end Verif.Jmt
