import Verif.Jmt.Restore
/-!
A restore into a store that cannot be written at times: `write_node_batch` returns an `Err` and writes nothing. `add_chunk` has then
already taken the pairs of the chunk, and keeps them together with the nodes it has not been able to write.
-/

set_option autoImplicit false

namespace Verif.Jmt
variable {D : Type}

/-- One call of `add_chunk`; `up` says whether the store can be written during the call. -/
structure Attempt (D : Type) where
  chunk : List (Key × Value)
  proof : SparseMerkleRangeProof D
  up : Bool

namespace Restore

/-- The error of a store that cannot be written. (Any other text would do; the code passes it on.) -/
def downError : String := "The store cannot be written."

/-- `restore.rs:333-340`, the end of `add_chunk_impl`: the `?` after `write_node_batch` returns before `frozen_nodes.clear()`. -/
def finishChunkOn (H : Hasher D) [DecidableEq D] (up : Bool) (r : Restore D) (proof : SparseMerkleRangeProof D) : Res (Restore D × Option String) :=
  match r.verify H proof with
  | .error (.panic m) => .error (.panic m)
  | .error (.err m) => .ok (r, some m)
  | .ok () =>
    if up then
      match r.store.writeNodeBatch r.frozenNodes with
      | .error (.panic m) => .error (.panic m)
      | .error (.err m) => .ok (r, some m)
      | .ok s => .ok ({ r with store := s, frozenNodes := .empty }, none)
    else .ok (r, some downError)

/-- `restore.rs:311-341` `add_chunk_impl`. -/
def addChunkOn (H : Hasher D) [DecidableEq D] (r : Restore D) (a : Attempt D) : Res (Restore D × Option String) :=
  if a.chunk.isEmpty then .ok (r, some "Should not add empty chunks.")
  else
    match r.addPairs H a.chunk with
    | .error e => .error e
    | .ok (r, some m) => .ok (r, some m)
    | .ok (r, none) => r.finishChunkOn H a.up a.proof

/-- Not in the code: a caller that adds chunk after chunk, going on after an `Err`; the outcome of each call. -/
def addChunksOn (H : Hasher D) [DecidableEq D] : Restore D → List (Attempt D) → Res (Restore D × List (Option String))
  | r, [] => .ok (r, [])
  | r, a :: t => do
    let (r, out) ← r.addChunkOn H a
    let (r, outs) ← addChunksOn H r t
    pure (r, out :: outs)

/-- `restore.rs:672-699` `finish_impl`; it takes the restore, so that nothing of it is left after an `Err`. -/
def finishOn (H : Hasher D) (up : Bool) (r : Restore D) : Res (Store D) :=
  if up then r.finish H
  else
    match r.rootInfos with
    | [.leaf _] => do
      assert r.frozenNodes.isEmpty "assertion failed: self.frozen_nodes.is_empty()"
      .error (.err downError)
    | _ => do
      let _ ← r.freeze H 0
      .error (.err downError)

end Restore

end Verif.Jmt
