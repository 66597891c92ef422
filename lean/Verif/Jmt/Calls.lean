import Verif.Jmt.Batch
/-!
A database that keeps all it is given, and a sequence of calls of `put_value_sets` and `batch_put_value_sets` on it. This is not code of the
library: it is the store the library is meant to be used with, where the mock store of the library (`Verif.Jmt.Store`) refuses some writes.
-/

set_option autoImplicit false

namespace Verif.Jmt
variable {D : Type}

/-- The database after a batch has been written: a node of the batch or else the node that was there before, and, of the values with
versions up to the one asked for, the newest of the batch or else the one that was there before. (So the answers
are those of `reader.rs:32-39` `get_value_option` when the versions of the batch are newer than those written before, or when those that
are not older are newer than the version asked for.) -/
def Reader.plus (r : Reader D) (b : TreeUpdateBatch D) : Reader D where
  getNodeOption nk := (b.nodeBatch.nodes.get nk).or (r.getNodeOption nk)
  getValueOption u k :=
    match (b.nodeBatch.values.entries.filter (fun e => decide (e.1.2 = k))).reverse.find? (fun e => decide (e.1.1 ≤ u)) with
    | some e => e.2
    | none => r.getValueOption u k

/-- A call that computes new versions; each call has its own setting of the migration switch. -/
inductive UpdateCall where
  /-- `put_value_sets(sets, first_version)` (`tree.rs:474-502`) -/
  | put (migration : Bool) (sets : List Tree.ValueSet)
  /-- `batch_put_value_sets(sets, None, first_version)` (`tree.rs:145-192`) -/
  | batch (migration : Bool) (sets : List (List (Key × Value)))

/-- The call made at version `v`. -/
def UpdateCall.run (H : Hasher D) (r : Reader D) (v : Version) : UpdateCall → Res (List D × TreeUpdateBatch D)
  | .put m sets => Tree.putValueSets H m r sets v
  | .batch m sets => Tree.batchPutValueSets H m r sets none v

/-- The updates of a call, one set for each version. -/
def UpdateCall.sets : UpdateCall → List Tree.ValueSet
  | .put _ sets => sets
  | .batch _ sets => sets.map (fun s => s.map (fun e => (e.1, some e.2)))

/-- Several calls, with the batch written after each and the versions counted on. Root hashes of all calls and the database in the end. -/
def Tree.putCalls (H : Hasher D) : List UpdateCall → Reader D → Version → Res (List D × Reader D)
  | [], r, _ => .ok ([], r)
  | c :: t, r, v => do
    let (roots, b) ← c.run H r v
    let (roots', r') ← Tree.putCalls H t (r.plus b) (v + c.sets.length)
    .ok (roots ++ roots', r')

end Verif.Jmt
