import Verif.Pmt.System
/-! The functions of a trie that count entries. -/

set_option autoImplicit false

namespace Verif.Pmt.Trie

/-- `inner.rs:92-95` `len`. A database error would give 0; the database of the model (`db.rs:111-114`) returns none. -/
def len (_ : Trie) (db : Db) : Nat := db.len

/-- `inner.rs:102-104` `is_empty`. -/
def isEmpty (t : Trie) (db : Db) : Bool := t.len db == 0

end Verif.Pmt.Trie
