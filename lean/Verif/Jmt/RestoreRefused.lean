import Verif.Jmt.Restore
import Verif.Jmt.Interrupt
/-!
`add_chunk` with what is left of a write that the store refuses. `Restore.finishChunk` gives back the store as it was before; here it is what
`write_node_batch` of the mock (`/repo/jmt/src/mock.rs:133-150`) has made of it when it returns: all nodes and the values before the one that is refused.
-/

set_option autoImplicit false

namespace Verif.Jmt
variable {D : Type}

/-- The changes that `write_node_batch` makes, in the order in which it makes them (`mock.rs:135-148`). -/
def NodeBatch.writes (b : NodeBatch D) : List (Write D) :=
  b.nodes.entries.map (fun e => .node e.1 e.2) ++ b.values.entries.map (fun e => .value e.1.1 e.1.2 e.2)

namespace Restore

/-- `restore.rs:333-340`, the end of `add_chunk_impl`. The `?` after `write_node_batch` returns before `frozen_nodes.clear()`; the store keeps what has
been written. -/
def finishChunkLeft (H : Hasher D) [DecidableEq D] (r : Restore D) (proof : SparseMerkleRangeProof D) : Res (Restore D × Option String) :=
  match r.verify H proof with
  | .error (.panic m) => .error (.panic m)
  | .error (.err m) => .ok (r, some m)
  | .ok () =>
    match r.store.writeNodeBatch r.frozenNodes with
    | .error (.panic m) => .error (.panic m)
    | .error (.err m) => .ok ({ r with store := r.store.attempt r.frozenNodes.writes }, some m)
    | .ok s => .ok ({ r with store := s, frozenNodes := .empty }, none)

/-- `restore.rs:311-341` `add_chunk_impl`. -/
def addChunkLeft (H : Hasher D) [DecidableEq D] (r : Restore D) (chunk : List (Key × Value)) (proof : SparseMerkleRangeProof D) :
    Res (Restore D × Option String) :=
  if chunk.isEmpty then .ok (r, some "Should not add empty chunks.")
  else
    match r.addPairs H chunk with
    | .error e => .error e
    | .ok (r, some m) => .ok (r, some m)
    | .ok (r, none) => r.finishChunkLeft H proof

/-- Not in the code: a caller that adds chunk after chunk, going on after an `Err`; the outcome of each call. -/
def addChunksLeft (H : Hasher D) [DecidableEq D] : Restore D → List (List (Key × Value) × SparseMerkleRangeProof D) →
    Res (Restore D × List (Option String))
  | r, [] => .ok (r, [])
  | r, c :: t => do
    let (r, out) ← r.addChunkLeft H c.1 c.2
    let (r, outs) ← addChunksLeft H r t
    pure (r, out :: outs)

end Restore

end Verif.Jmt
