import Verif.Pmt.System
/-!
Programs in which some commits fail, because the database returns an error while nodes are written or removed.
-/

set_option autoImplicit false

namespace Verif.Pmt

/-- Where the database fails in `commit` (`inner.rs:298-313`). `insert_batch` and `remove_batch` go through their keys one by one
(`db.rs:28-47`), the entries of the cache in the order of a hash map, so those dealt with before the failure can be any: they are those on
which the function is `true`. A database that does a batch as a whole is the case of a constant function. -/
inductive Fault where
  | inserting (done : H256 → Bool)
  | removing (done : H256 → Bool)

/-- `inner.rs:279-313` `commit`, when the database returns an error: `?` leaves the function with the cache emptied (`drain`) and `root`, `root_hash`,
`gen_keys` (to which the nodes written have been added) and `passing_keys` as they are. -/
def Trie.failCommit (K : Keccak) (t : Trie) (db : Db) (f : Fault) : Res (Trie × Db) := do
  let (t, _) ← t.writeRoot K
  match f with
  | .inserting done => pure ({ t with cache := [] }, db.insertBatch (t.cache.filter (fun e => done e.1)))
  | .removing done =>
    let removed := t.passingKeys.filter (fun k => !(t.genKeys.contains k))
    pure ({ t with cache := [] }, (db.insertBatch t.cache).removeBatch (removed.filter done))

/-- A call, or a `commit` that fails. -/
inductive FOp where
  | call (op : Op)
  | fail (i : Nat) (f : Fault)

namespace Sys

/-- One call or failing commit. -/
def stepF (K : Keccak) (s : Sys) : FOp → Res (Sys × Ret)
  | .call op => s.step K op
  | .fail i f =>
    match s.tries[i]? with
    | .none => .ok (s, .none)
    | .some t =>
      match t.failCommit K s.db f with
      | .error e => .error e
      | .ok (t, db) => .ok (⟨db, s.tries.set i t, s.roots⟩, .failed "database error")

/-- A program with failing commits. -/
def runF (K : Keccak) (s : Sys) : List FOp → Res (Sys × List Ret)
  | [] => .ok (s, [])
  | op :: ops =>
    match s.stepF K op with
    | .error e => .error e
    | .ok (s, r) =>
      match runF K s ops with
      | .error e => .error e
      | .ok (s, rs) => .ok (s, r :: rs)

end Sys

namespace Spec

/-- The program without the failing commits. -/
def calls : List FOp → List Op
  | [] => []
  | .call op :: ops => op :: calls ops
  | .fail _ _ :: ops => calls ops

/-- What the calls returned, without the failing commits. -/
def returned : List FOp → List Ret → List Ret
  | .call _ :: ops, r :: rs => r :: returned ops rs
  | .fail _ _ :: ops, _ :: rs => returned ops rs
  | _, _ => []

end Spec
end Verif.Pmt
