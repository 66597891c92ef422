import Verif.Jmt.Store
/-!
Model of the derived functions of `/repo/jmt/src/db.rs` `VersionedDatabase` on the in-memory store. `value_history()` gives the
entries of the history map (`mock.rs:77-80`); collecting them into a `HashMap` is the map itself.
-/

set_option autoImplicit false

namespace Verif.Jmt
variable {D : Type}
namespace Store

/-- `db.rs:159-165` `len`: number of keys whose last history entry is a value. -/
def len (s : Store D) : Nat :=
  (s.valueHistory.entries.filter (fun e => match e.2.getLast? with | some (_, some _) => true | _ => false)).length

/-- `db.rs:168-179` `version`: the largest version in the value history, 0 when there is none. -/
def version (s : Store D) : Version :=
  s.valueHistory.entries.foldl (fun latest e => e.2.foldl (fun latest x => if latest < x.1 then x.1 else latest) latest) 0

/-- `db.rs:213-215` `is_empty`. -/
def isEmpty (s : Store D) : Bool := s.len == 0

end Store
end Verif.Jmt
