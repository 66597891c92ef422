import Verif.Proofs.Borsh
import Verif.Jmt.TreeCache
/-! What a batch must satisfy for its bytes: numbers fit into their types, lists have fewer than 2^32 elements, and maps and sets have no entry twice. -/

set_option autoImplicit false

namespace Verif.Spec
open Verif.Jmt

/-- The numbers and lengths of a batch fit into their Rust types. -/
structure BatchFits (b : TreeUpdateBatch Key) : Prop where
  nodes : b.nodeBatch.nodes.entries.length < 2 ^ 32 ∧
    ∀ e ∈ b.nodeBatch.nodes.entries, e.1.version < 2 ^ 64 ∧ e.1.path.length ≤ 64 ∧ NodeFits e.2
  once : b.nodeBatch.nodes.NodupKeys
  values : b.nodeBatch.values.entries.length < 2 ^ 32 ∧
    ∀ e ∈ b.nodeBatch.values.entries, e.1.1 < 2 ^ 64 ∧ ∀ x, e.2 = some x → x.length < 2 ^ 32
  ordered : b.nodeBatch.values.entries.Pairwise (fun x y => valueKeyLt x.1 y.1 = true)
  marked : b.staleNodeIndexBatch.elems.Nodup
  stale : b.staleNodeIndexBatch.elems.length < 2 ^ 32 ∧
    ∀ i ∈ b.staleNodeIndexBatch.elems, i.staleSinceVersion < 2 ^ 64 ∧ i.nodeKey.version < 2 ^ 64 ∧ i.nodeKey.path.length ≤ 64
  stats : b.nodeStats.length < 2 ^ 32 ∧
    ∀ s ∈ b.nodeStats, s.newNodes < 2 ^ 64 ∧ s.newLeaves < 2 ^ 64 ∧ s.staleNodes < 2 ^ 64 ∧ s.staleLeaves < 2 ^ 64

end Verif.Spec
