import Verif.Jmt.History
/-!
Model of the remaining functions of `/repo/jmt/src/writer.rs` on node batches, of `put_leaf` and of the preimages of
`/repo/jmt/src/mock.rs`, and of a caller that collects several updates in one batch before writing.
-/

set_option autoImplicit false

namespace Verif.Jmt
variable {D : Type}

namespace NodeBatch
/-- `writer.rs:73-75` `merge`. -/
def merge (b rhs : NodeBatch D) : NodeBatch D := b.extend rhs.nodes.entries rhs.values.entries
/-- `writer.rs:32-35` `clear`. -/
def clear (_ : NodeBatch D) : NodeBatch D := ⟨.empty, .empty⟩
/-- `writer.rs:38-40` `get_node`. -/
def getNode (b : NodeBatch D) (nk : NodeKey) : Option (Node D) := b.nodes.get nk
end NodeBatch

namespace Store
/-- `mock.rs:190-201` `put_leaf`. The store is returned beside the result: when the value is refused, the leaf has been inserted. -/
def putLeaf (s : Store D) (nk : NodeKey) (leaf : LeafNode D) (value : Value) : Store D × Res Unit :=
  match s.nodes.get nk with
  | some _ => (s, .error (.err "Key exists."))
  | none =>
    let s1 := { s with nodes := s.nodes.set nk (.leaf leaf) }
    match putValueHistory s1.valueHistory nk.version leaf.keyHash (some value) with
    | .ok vh => ({ s1 with valueHistory := vh }, .ok ())
    | .error e => (s1, .error e)
end Store

/-- `mock.rs:37` the field `preimages`, and `reader.rs:47` `Preimage`. -/
abbrev Preimages := FMap Key (List UInt8)

namespace Preimages
/-- `mock.rs:203-209` `put_key_preimage`; `hash` is the `SimpleHasher` it is called with (`lib.rs:221-227` `KeyHash::with`). -/
def put (m : Preimages) (hash : List UInt8 → Key) (p : List UInt8) : Preimages := m.set (hash p) p
/-- `mock.rs:126-130` `preimage`. -/
def preimage (m : Preimages) (k : Key) : Option (List UInt8) := m.get k
end Preimages

/-! A caller of the library, not library code. -/

/-- Two update batches put together: `NodeBatch::merge`, and `extend` of the set and the list in the other fields (`writer.rs:110-114`). -/
def TreeUpdateBatch.merge (b rhs : TreeUpdateBatch D) : TreeUpdateBatch D :=
  ⟨b.nodeBatch.merge rhs.nodeBatch, rhs.staleNodeIndexBatch.elems.foldl FSet.insert b.staleNodeIndexBatch, b.nodeStats ++ rhs.nodeStats⟩

/-- A reader that looks for nodes in a batch first and in the store then; values are whatever the caller answers. -/
def TreeUpdateBatch.reader (b : TreeUpdateBatch D) (s : Store D) (vals : Version → Key → Option Value) : Reader D :=
  ⟨fun nk => match b.nodeBatch.getNode nk with | some n => some n | none => s.nodes.get nk, vals⟩

/-- Compute the updates of a list of operations without writing any: each is computed on the store with the batch collected so far in
front of it, and merged into that batch. Prunings are left out. -/
def collect (H : Hasher D) (s : Store D) (vals : Version → Key → Option Value) : List Op → TreeUpdateBatch D × Version →
    Res (TreeUpdateBatch D × Version)
  | [], st => .ok st
  | .update m sets :: ops, st => do
    let (_, b) ← Tree.putValueSets H m (st.1.reader s vals) sets st.2
    collect H s vals ops (st.1.merge b, st.2 + sets.length)
  | .batch m sets :: ops, st => do
    let (_, b) ← Tree.batchPutValueSets H m (st.1.reader s vals) sets none st.2
    collect H s vals ops (st.1.merge b, st.2 + sets.length)
  | .purge _ :: ops, st => collect H s vals ops st

end Verif.Jmt
