import Verif.Jmt.Batch
import Verif.Spec.History
/-!
A user of the library driving one store: compute an update, write it, now and then prune. These are the
call sequences used throughout `/repo/jmt/src/tests` (`put_value_sets` then `write_tree_update_batch`,
`purge_stale_nodes`); nothing here is library code.
-/

set_option autoImplicit false

namespace Verif.Jmt
variable {D : Type}

/-- One committed version: the updates of that version. -/
inductive Commit where
  /-- one value set of `put_value_sets`, with the tree's `leaf_count_migration` flag -/
  | seq (migration : Bool) (s : Tree.ValueSet)
  /-- one value set of `batch_put_value_sets` -/
  | batch (migration : Bool) (s : List (Key × Value))

/-- The updates a commit carries. -/
def Commit.updates : Commit → List (Key × Option Value)
  | .seq _ s => s
  | .batch _ s => s.map (fun e => (e.1, some e.2))

/-- Operations on a store. -/
inductive Op where
  /-- `put_value_sets(sets, next_version)` followed by `write_tree_update_batch` -/
  | update (migration : Bool) (sets : List Tree.ValueSet)
  /-- `batch_put_value_sets(sets, None, next_version)` followed by `write_tree_update_batch` -/
  | batch (migration : Bool) (sets : List (List (Key × Value)))
  /-- `purge_stale_nodes(least_readable_version)` -/
  | purge (leastReadable : Version)

/-- The versions an operation commits. -/
def Op.commits : Op → List Commit
  | .update m sets => sets.map (.seq m)
  | .batch m sets => sets.map (.batch m)
  | .purge _ => []

/-- Run one operation; the state is the store and the next version number. -/
def Op.run (H : Hasher D) (st : Store D × Version) : Op → Res (Store D × Version)
  | .update m sets => do
    let (_, b) ← Tree.putValueSets H m st.1.reader sets st.2
    let s ← st.1.writeTreeUpdateBatch b
    .ok (s, st.2 + sets.length)
  | .batch m sets => do
    let (_, b) ← Tree.batchPutValueSets H m st.1.reader sets none st.2
    let s ← st.1.writeTreeUpdateBatch b
    .ok (s, st.2 + sets.length)
  | .purge v => do
    let s ← st.1.purgeStaleNodes v
    .ok (s, st.2)

/-- Run a list of operations. -/
def runOps (H : Hasher D) : List Op → Store D × Version → Res (Store D × Version)
  | [], st => .ok st
  | op :: ops, st => do
    let st ← op.run H st
    runOps H ops st

/-- All versions committed by a list of operations. -/
def commitsOf (ops : List Op) : List Commit := ops.flatMap Op.commits

/-- What the library asks of its callers.
`first`: the first version is 0, or it is made by `put_value_sets` and leaves some key (findings J3 and J9 of `DESIGN.md`: otherwise
the library stores no root for the first version, and `batch_put_value_sets` fails when there is no root).
`batches`: no empty value set is given to `batch_put_value_sets` (asserted in `tree.rs`). -/
structure Startable (v0 : Version) (hist : List Commit) : Prop where
  first : v0 = 0 ∨ ∀ c, hist.head? = some c →
    (∀ m s, c ≠ .batch m s) ∧ ∃ k v, Spec.applyUpdates (fun _ => none) c.updates k = some v
  batches : ∀ m s, Commit.batch m s ∈ hist → s ≠ []

/-- `s` and `next` are the store and the next version after the operations `ops`, starting with version `v0`
on the empty store. -/
structure Reached (H : Hasher D) (v0 : Version) (ops : List Op) (s : Store D) (next : Version) : Prop where
  startable : Startable v0 (commitsOf ops)
  run : runOps H ops (Store.empty, v0) = .ok (s, next)

/-- Version `v` was committed by `ops`, and not given up by pruning (the newest version never is). -/
structure Readable (v0 : Version) (ops : List Op) (v : Version) : Prop where
  ge : v0 ≤ v
  lt : v < v0 + (commitsOf ops).length
  kept : (∀ m, Op.purge m ∈ ops → m ≤ v) ∨ v + 1 = v0 + (commitsOf ops).length

/-- The map from keys to values that version `v` should hold. -/
def contentsAt (v0 : Version) (ops : List Op) (v : Version) : Key → Option Value :=
  Spec.contents (((commitsOf ops).map Commit.updates).take (v + 1 - v0))

end Verif.Jmt
