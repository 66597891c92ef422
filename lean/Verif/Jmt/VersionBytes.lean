import Verif.Jmt.Borsh
/-! Model of the conversions of `db::Version` (`/repo/jmt/src/db.rs:12-34`). -/

set_option autoImplicit false

namespace Verif.Jmt

/-- `db.rs:30-34` `From<Version> for Vec<u8>`: `to_be_bytes`. -/
def versionToBytes (v : Version) : List UInt8 := (Codec.leBytes 8 v).reverse

/-- `db.rs:24-28` `From<Vec<u8>> for Version`: `from_be_bytes`; `try_into()` fails unless there are 8 bytes, and `unwrap_or_default()`
then gives 8 zeros. -/
def versionOfBytes (b : List UInt8) : Version := Codec.leNat ((if b.length = 8 then b else List.replicate 8 0).reverse)

end Verif.Jmt
