import Verif.Jmt.Restore
/-!
Restores that break off in the middle of `write_node_batch`. `TreeWriter` (`/repo/jmt/src/writer.rs:18-21`) does not ask that a batch be written as a
whole, though a comment on `NodeBatch` (23) says that it will be, and the store of `/repo/jmt/src/mock.rs` (133-150) writes node after node and then value after value; the process may end in between.
-/

set_option autoImplicit false

namespace Verif.Jmt
variable {D : Type}

/-- What of a batch gets written before the process ends. The mock writes all nodes before the first value (`mock.rs:135-148`); here any nodes and
any values may be missing. -/
structure Cut where
  nodes : NodeKey → Bool
  values : Version × Key → Bool

/-- The part of the batch that gets written. -/
def NodeBatch.cut (b : NodeBatch D) (c : Cut) : NodeBatch D :=
  ⟨⟨b.nodes.entries.filter (fun e => c.nodes e.1)⟩, ⟨b.values.entries.filter (fun e => c.values e.1)⟩⟩

namespace Restore

/-- `restore.rs:311-341` `add_chunk_impl`, ended inside `write_node_batch` (if it comes to that): the store left. -/
def chunkCut (H : Hasher D) [DecidableEq D] (r : Restore D) (chunk : List (Key × Value)) (proof : SparseMerkleRangeProof D) (c : Cut) :
    Res (Store D) :=
  if chunk.isEmpty then .ok r.store
  else
    match r.addPairs H chunk with
    | .error e => .error e
    | .ok (r, some _) => .ok r.store
    | .ok (r, none) =>
      match r.verify H proof with
      | .error (.panic m) => .error (.panic m)
      | .error (.err _) => .ok r.store
      | .ok () => r.store.writeNodeBatch (r.frozenNodes.cut c)

/-- `restore.rs:672-699` `finish_impl`, ended inside `write_node_batch`: the store left. -/
def finishCut (H : Hasher D) (r : Restore D) (c : Cut) : Res (Store D) :=
  match r.rootInfos with
  | [.leaf node] => do
    assert r.frozenNodes.isEmpty "assertion failed: self.frozen_nodes.is_empty()"
    r.store.writeNodeBatch ((r.frozenNodes.insertNode (.newEmptyPath r.version) (.leaf node)).cut c)
  | _ => do
    let r ← r.freeze H 0
    r.store.writeNodeBatch (r.frozenNodes.cut c)

end Restore

/-- Not in the code: a restore started by `new_overwrite` that ends inside a write. `last` is the call it ends in, `none` for `finish`. -/
structure Torn (D : Type) where
  root : D
  migration : Bool
  calls : List (List (Key × Value) × SparseMerkleRangeProof D)
  last : Option (List (Key × Value) × SparseMerkleRangeProof D)
  cut : Cut

/-- The store a torn restore of version `w` leaves. -/
def Torn.run (H : Hasher D) [DecidableEq D] (w : Version) (s : Store D) (t : Torn D) : Res (Store D) := do
  let (r, _) ← (Restore.newOverwrite s w t.root t.migration).addChunks H t.calls
  match t.last with
  | some c => r.chunkCut H c.1 c.2 t.cut
  | none => r.finishCut H t.cut

/-- The store after torn restores of version `w`, one after the other. -/
def tornAll (H : Hasher D) [DecidableEq D] (w : Version) : Store D → List (Torn D) → Res (Store D)
  | s, [] => .ok s
  | s, t :: ts => do
    let s ← t.run H w s
    tornAll H w s ts

end Verif.Jmt
