import Verif.Jmt.History
/-!
The version arithmetic of the update calls as the machine does it. Versions are `u64`; elsewhere in the model they are natural numbers. Of
the calls that compute an update, only three places do arithmetic that can leave the range: `first_version + idx as u64` (`tree.rs:165` and
`tree.rs:481`) and `self.next_version += 1` (`tree_cache.rs:322`). (`next_version - 1`, `tree_cache.rs:176`, is done only when the version is
not zero.) What happens then depends on how the program was built.
-/

set_option autoImplicit false

namespace Verif.Jmt
variable {D : Type}

/-- Number of values of a `u64`. -/
def u64Size : Nat := 2 ^ 64

/-- How the program was built: with overflow checks (the default of debug builds) or without (the default of release builds). -/
inductive Build where
  | checked
  | wrapping
deriving DecidableEq

/-- The sum `x` of two `u64`. -/
def Build.sum (b : Build) (x : Nat) : Res Nat :=
  if x < u64Size then .ok x
  else match b with
    | .checked => .error (.panic "attempt to add with overflow")
    | .wrapping => .ok (x % u64Size)

/-- `tree_cache.rs:258-325` `freeze`, whose last action is `self.next_version += 1`. -/
def TreeCache.freeze64 (b : Build) (H : Hasher D) (c : TreeCache D) : Res (TreeCache D) := do
  let c ← c.freeze H
  let next ← b.sum c.nextVersion
  .ok { c with nextVersion := next }

namespace Tree

/-- `tree.rs:480-499` the outer loop of `put_value_sets`, from the set with index `idx` on. -/
def putSets64 (b : Build) (H : Hasher D) (migration : Bool) (firstVersion : Version) : Nat → List ValueSet → TreeCache D → Res (TreeCache D)
  | _, [], c => .ok c
  | idx, s :: t, c => do
    let version ← b.sum (firstVersion + idx)
    let c ← putSet H migration version s c
    let c ← c.freeze64 b H
    putSets64 b H migration firstVersion (idx + 1) t c

/-- `tree.rs:474-502` `put_value_sets`. -/
def putValueSets64 (b : Build) (H : Hasher D) (migration : Bool) (reader : Reader D) (sets : List ValueSet) (firstVersion : Version) :
    Res (List D × TreeUpdateBatch D) := do
  let c ← putSets64 b H migration firstVersion 0 sets (TreeCache.new reader firstVersion)
  pure c.into

/-- `tree.rs:158-189` one round of the loop of `batch_put_value_sets`, for the set with index `idx`. -/
def batchPutSet64 (b : Build) (H : Hasher D) (migration : Bool) (hc : Option (HashCache D)) (firstVersion : Version) (idx : Nat)
    (set : List (Key × Value)) (c : TreeCache D) : Res (TreeCache D) := do
  assert (!set.isEmpty) "Transactions that output empty write set should not be included."
  let version ← b.sum (firstVersion + idx)
  let kvs := sortDedup set
  let c := kvs.foldl (fun c e => c.putValue version e.1 (some e.2)) c
  let (c, (nk, _)) ← batchInsertAt H migration hc version rootNibbleHeight c.rootNodeKey
    (kvs.map (fun e => (e.1, H.value e.2))) c
  (c.setRootNodeKey nk).freeze64 b H

/-- The loop of `batch_put_value_sets`, from the set with index `idx` on. -/
def batchPutSets64 (b : Build) (H : Hasher D) (migration : Bool) (firstVersion : Version) :
    Nat → List (List (Key × Value) × Option (HashCache D)) → TreeCache D → Res (TreeCache D)
  | _, [], c => .ok c
  | idx, (s, hc) :: t, c => do
    let c ← batchPutSet64 b H migration hc firstVersion idx s c
    batchPutSets64 b H migration firstVersion (idx + 1) t c

/-- `tree.rs:145-192` `batch_put_value_sets` (see `batchPutValueSets` for `zip_eq`). -/
def batchPutValueSets64 (b : Build) (H : Hasher D) (migration : Bool) (reader : Reader D) (sets : List (List (Key × Value)))
    (hashes : Option (List (HashCache D))) (firstVersion : Version) : Res (List D × TreeUpdateBatch D) := do
  let hcs : List (Option (HashCache D)) := match hashes with
    | some l => l.map some
    | none => sets.map (fun _ => none)
  let c ← batchPutSets64 b H migration firstVersion 0 (sets.zip hcs) (TreeCache.new reader firstVersion)
  assert (decide (sets.length = hcs.length)) "itertools: .zip_eq() reached end of one iterator before the other"
  pure c.into

end Tree

/-- One operation of a user of the library (`Op.run`), with the calls as the machine does them. -/
def Op.run64 (b : Build) (H : Hasher D) (st : Store D × Version) : Op → Res (Store D × Version)
  | .update m sets => do
    let (_, u) ← Tree.putValueSets64 b H m st.1.reader sets st.2
    let s ← st.1.writeTreeUpdateBatch u
    .ok (s, st.2 + sets.length)
  | .batch m sets => do
    let (_, u) ← Tree.batchPutValueSets64 b H m st.1.reader sets none st.2
    let s ← st.1.writeTreeUpdateBatch u
    .ok (s, st.2 + sets.length)
  | .purge v => do
    let s ← st.1.purgeStaleNodes v
    .ok (s, st.2)

/-- A list of operations, with the calls as the machine does them. -/
def runOps64 (b : Build) (H : Hasher D) : List Op → Store D × Version → Res (Store D × Version)
  | [], st => .ok st
  | op :: ops, st => do
    let st ← op.run64 b H st
    runOps64 b H ops st

end Verif.Jmt
