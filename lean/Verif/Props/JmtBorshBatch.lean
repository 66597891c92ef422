import Verif.Props.JmtBorsh
import Verif.Props.JmtStore
import Verif.Props.JmtLocal
import Mathlib.Data.List.Perm.Subperm
import Verif.Proofs.BorshBatch
import Verif.Spec.BatchFits
import Mathlib.Data.List.Nodup
/-! Property C76: serialised update batches are read back. -/

set_option autoImplicit false

namespace Verif.Props
open Verif Verif.Jmt Verif.Spec

/-- The key under which the Rust map holds a node: version and packed path. -/
private def wireKey (nk : NodeKey) : Version × NibblePath := (nk.version, packed nk.path)

private theorem wireKey_inj (a b : NodeKey) (h : wireKey a = wireKey b) : a = b := by
  obtain ⟨v, p⟩ := a
  obtain ⟨w, q⟩ := b
  simp only [wireKey, Prod.mk.injEq] at h
  rw [h.1, packed_inj.1 h.2]

private def wireStale (i : StaleNodeIndex) : Version × Version × NibblePath := (i.staleSinceVersion, wireKey i.nodeKey)

private theorem wireStale_inj (a b : StaleNodeIndex) (h : wireStale a = wireStale b) : a = b := by
  obtain ⟨v, p⟩ := a
  obtain ⟨w, q⟩ := b
  simp only [wireStale, Prod.mk.injEq] at h
  rw [h.1, wireKey_inj _ _ h.2]

private theorem wire_ok (b : TreeUpdateBatch Key) (h : BatchFits b) :
    b.wire = .ok ⟨OMap.empty.extend nodeKeyLt (b.nodeBatch.nodes.entries.map (fun e => (wireKey e.1, e.2))), b.nodeBatch.values,
      OMap.empty.extend staleLt (b.staleNodeIndexBatch.elems.map (fun i => (wireStale i, ()))), b.nodeStats⟩ := by
  have e1 := packNodes_ok b.nodeBatch.nodes.entries (fun e he => (h.nodes.2 e he).2.1)
  have e2 := packStale_ok b.staleNodeIndexBatch.elems (fun i hi => (h.stale.2 i hi).2.2)
  simp only [TreeUpdateBatch.wire, e1, e2, Res.ok_bind]
  rfl

private theorem nodes_get (b : TreeUpdateBatch Key) (h : BatchFits b) (x : Version × NibblePath) :
    (OMap.empty.extend nodeKeyLt (b.nodeBatch.nodes.entries.map (fun e => (wireKey e.1, e.2)))).get x =
      FMap.lookupL (b.nodeBatch.nodes.entries.map (fun e => (wireKey e.1, e.2))) x := by
  have hn : ((b.nodeBatch.nodes.entries.map (fun e => (wireKey e.1, e.2))).map Prod.fst).Nodup := by
    have := List.Nodup.map (f := wireKey) (fun a b he => wireKey_inj a b he) h.once
    simpa [List.map_map, Function.comp_def] using this
  rw [OMap.get_extend nodeKeyLt_strict _ _ (by simp [OMap.empty, OMap.Sorted]) hn]
  cases FMap.lookupL (b.nodeBatch.nodes.entries.map (fun e => (wireKey e.1, e.2))) x <;> rfl

private theorem stale_get (b : TreeUpdateBatch Key) (h : BatchFits b) (x : Version × Version × NibblePath) :
    (OMap.empty.extend staleLt (b.staleNodeIndexBatch.elems.map (fun i => (wireStale i, ())))).get x =
      FMap.lookupL (b.staleNodeIndexBatch.elems.map (fun i => (wireStale i, ()))) x := by
  have hn : ((b.staleNodeIndexBatch.elems.map (fun i => (wireStale i, ()))).map Prod.fst).Nodup := by
    have := List.Nodup.map (f := wireStale) (fun a b he => wireStale_inj a b he) h.marked
    simpa [List.map_map, Function.comp_def] using this
  rw [OMap.get_extend staleLt_strict _ _ (by simp [OMap.empty, OMap.Sorted]) hn]
  cases FMap.lookupL (b.staleNodeIndexBatch.elems.map (fun i => (wireStale i, ()))) x <;> rfl

private theorem stale_mem (l : List StaleNodeIndex) (i : StaleNodeIndex) :
    (FMap.lookupL (l.map (fun i => (wireStale i, ()))) (wireStale i)).isSome = true ↔ i ∈ l := by
  induction l with
  | nil => simp [FMap.lookupL]
  | cons a t ih =>
    simp only [List.map_cons, FMap.lookupL, List.mem_cons]
    by_cases hc : a = i
    · simp [hc]
    · rw [if_neg (fun he => hc (wireStale_inj _ _ he)), ih]
      constructor
      · exact .inr
      · rintro (rfl | h)
        · exact absurd rfl hc
        · exact h

private theorem wire_fits (b : TreeUpdateBatch Key) (h : BatchFits b) :
    WireFits ⟨OMap.empty.extend nodeKeyLt (b.nodeBatch.nodes.entries.map (fun e => (wireKey e.1, e.2))), b.nodeBatch.values,
      OMap.empty.extend staleLt (b.staleNodeIndexBatch.elems.map (fun i => (wireStale i, ()))), b.nodeStats⟩ := by
  refine ⟨⟨?_, ?_, ?_⟩, ⟨h.values.1, h.values.2, h.ordered⟩, ⟨?_, ?_, ?_⟩, h.stats⟩
  · have := extend_length (lt := nodeKeyLt) (b.nodeBatch.nodes.entries.map (fun e => (wireKey e.1, e.2))) .empty
    have h1 := h.nodes.1
    simp only [OMap.empty, List.length_map, List.length_nil] at this ⊢
    omega
  · intro e he
    rcases insertL_mem he with he | he
    · cases he
    · obtain ⟨e', h1, rfl⟩ := List.mem_map.1 he
      obtain ⟨g1, g2, g3⟩ := h.nodes.2 e' h1
      exact ⟨⟨g1, packed_fits g2⟩, g3⟩
  · exact OMap.sorted_extend nodeKeyLt_strict _ _ (by simp [OMap.empty, OMap.Sorted])
  · have := extend_length (lt := staleLt) (b.staleNodeIndexBatch.elems.map (fun i => (wireStale i, ()))) .empty
    have h1 := h.stale.1
    simp only [OMap.empty, List.length_map, List.length_nil] at this ⊢
    omega
  · intro e he
    rcases insertL_mem he with he | he
    · cases he
    · obtain ⟨i, h1, rfl⟩ := List.mem_map.1 he
      obtain ⟨g1, g2, g3⟩ := h.stale.2 i h1
      exact ⟨g1, g2, packed_fits g3⟩
  · exact OMap.sorted_extend staleLt_strict _ _ (by simp [OMap.empty, OMap.Sorted])

/-- **C76.** The bytes of an update batch are read back as a batch that holds the same: under every node key the node the batch holds, every value,
exactly the stale indices of the batch, and the statistics in order. Nothing is added. -/
theorem C76_batch_read_back (b : TreeUpdateBatch Key) (h : BatchFits b) :
    ∃ w, b.wire = .ok w ∧ updateBatchCodec.tryFromSlice (updateBatchCodec.enc w) = some w ∧
      (∀ nk p, NibblePath.fromIter nk.path = .ok p → nk.path.length ≤ 64 → w.nodes.get (nk.version, p) = b.nodeBatch.nodes.get nk) ∧
      (∀ v p n, w.nodes.get (v, p) = some n → ∃ nk, nk.version = v ∧ NibblePath.fromIter nk.path = .ok p ∧ b.nodeBatch.nodes.get nk = some n) ∧
      (∀ k, w.values.get k = b.nodeBatch.values.get k) ∧
      (∀ i p, NibblePath.fromIter i.nodeKey.path = .ok p → i.nodeKey.path.length ≤ 64 →
        ((w.stale.get (i.staleSinceVersion, i.nodeKey.version, p)).isSome = true ↔ i ∈ b.staleNodeIndexBatch)) ∧
      (∀ v u p, (w.stale.get (v, u, p)).isSome = true → ∃ i ∈ b.staleNodeIndexBatch.elems, i.staleSinceVersion = v ∧ i.nodeKey.version = u ∧
        NibblePath.fromIter i.nodeKey.path = .ok p) ∧
      w.stats = b.nodeStats := by
  refine ⟨_, wire_ok b h, tryFromSlice_back updateBatchCodec_back _ (wire_fits b h), ?_, ?_, fun _ => rfl, ?_, ?_, rfl⟩
  · intro nk p hp hl
    rw [fromIter_packed _ hl] at hp
    cases hp
    rw [nodes_get b h]
    exact lookupL_map_inj wireKey wireKey_inj _ nk
  · intro v p n hg
    rw [nodes_get b h] at hg
    obtain ⟨⟨nk, n'⟩, h1, h2⟩ := List.mem_map.1 (FMap.mem_of_get (m := ⟨_⟩) hg)
    cases h2
    exact ⟨nk, rfl, fromIter_packed _ (h.nodes.2 _ h1).2.1, FMap.get_of_mem h.once h1⟩
  · intro i p hp hl
    rw [fromIter_packed _ hl] at hp
    cases hp
    rw [stale_get b h]
    exact stale_mem _ i
  · intro v u p hg
    rw [stale_get b h] at hg
    obtain ⟨_, hg⟩ := Option.isSome_iff_exists.1 hg
    obtain ⟨i, h1, h2⟩ := List.mem_map.1 (FMap.mem_of_get (m := ⟨_⟩) hg)
    cases h2
    exact ⟨i, h1, rfl, rfl, fromIter_packed _ (h.stale.2 _ h1).2.2⟩

/-- **C76**, injectivity: two batches with the same bytes hold the same nodes, values, stale indices and statistics. -/
theorem C76_batch_bytes_injective (b b' : TreeUpdateBatch Key) (h : BatchFits b) (h' : BatchFits b') (w w' : WireBatch) (hw : b.wire = .ok w)
    (hw' : b'.wire = .ok w') (he : updateBatchCodec.enc w = updateBatchCodec.enc w') :
    (∀ nk, b.nodeBatch.nodes.get nk = b'.nodeBatch.nodes.get nk) ∧ b.nodeBatch.values = b'.nodeBatch.values ∧
      (∀ i, i ∈ b.staleNodeIndexBatch ↔ i ∈ b'.staleNodeIndexBatch) ∧ b.nodeStats = b'.nodeStats := by
  have e1 := tryFromSlice_back updateBatchCodec_back _ (wire_fits b h)
  have e2 := tryFromSlice_back updateBatchCodec_back _ (wire_fits b' h')
  rw [wire_ok b h] at hw
  rw [wire_ok b' h'] at hw'
  cases hw
  cases hw'
  rw [he, e2, Option.some.injEq, WireBatch.mk.injEq] at e1
  obtain ⟨g1, g2, g3, g4⟩ := e1
  refine ⟨fun nk => ?_, g2.symm, fun i => ?_, g4.symm⟩
  · have a1 := nodes_get b h (wireKey nk)
    have a2 := nodes_get b' h' (wireKey nk)
    rw [lookupL_map_inj wireKey wireKey_inj] at a1 a2
    rw [← g1] at a1
    exact a1.symm.trans a2
  · have a1 := stale_get b h (wireStale i)
    have a2 := stale_get b' h' (wireStale i)
    rw [← g3] at a1
    have := a1.symm.trans a2
    show i ∈ b.staleNodeIndexBatch.elems ↔ i ∈ b'.staleNodeIndexBatch.elems
    rw [← stale_mem, ← stale_mem, this]

private theorem lastOf_mem {α : Type} {s : List (Key × α)} {k : Key} {x : α} (h : lastOf s k = some x) : (k, x) ∈ s := by
  induction s with
  | nil => cases h
  | cons e t ih =>
    rw [lastOf] at h
    cases hl : lastOf t k with
    | some y =>
      rw [hl] at h
      cases h
      exact List.mem_cons_of_mem _ (ih hl)
    | none =>
      rw [hl] at h
      simp only [Option.none_or] at h
      split at h
      · rename_i hk
        cases h
        rw [← hk]; simp
      · cases h

/-- Number of updates of a call. -/
def Call.updates (c : Call) : Nat := (c.op.commits.map (fun cm => cm.updates.length)).sum

private theorem values_bound (cs : List Commit) (n : Version) (m : OMap (Version × Key) (Option Value)) (h1 : OMap.Sorted valueKeyLt m.entries)
    (h2 : ∀ v k x, m.get (v, k) = some x → n ≤ v ∧ ∃ cm, cs[v - n]? = some cm ∧ (k, x) ∈ cm.updates) :
    m.entries.length ≤ (cs.map (fun cm => cm.updates.length)).sum := by
  have hs : ∀ x ∈ m.entries.map Prod.fst, x ∈ (cs.zipIdx n).flatMap (fun c => c.1.updates.map (fun e => (c.2, e.1))) := by
    intro x hx
    obtain ⟨⟨⟨v, k⟩, y⟩, he, rfl⟩ := List.mem_map.1 hx
    obtain ⟨g1, cm, g2, g3⟩ := h2 v k y ((OMap.mem_iff_lookup valueKeyLt_strict h1).1 he)
    refine List.mem_flatMap.2 ⟨(cm, v), ?_, List.mem_map.2 ⟨(k, y), g3, rfl⟩⟩
    exact List.mk_mem_zipIdx_iff_le_and_getElem?_sub.2 ⟨g1, g2⟩
  have := (List.subperm_of_subset (OMap.sorted_nodup valueKeyLt_strict h1) hs).length_le
  rw [List.length_map, List.length_flatMap] at this
  refine Nat.le_trans this (Nat.le_of_eq ?_)
  congr 1
  have : (cs.zipIdx n).map (fun a => (a.1.updates.map (fun e => (a.2, e.1))).length) = ((cs.zipIdx n).map Prod.fst).map (fun cm => cm.updates.length) := by
    rw [List.map_map]
    apply List.map_congr_left
    intro a _
    simp
  rw [this, List.zipIdx_map_fst]

/-- **C76**, computed batches: the batch of every update of a store satisfies the hypothesis of `C76_batch_read_back`, as long as versions and numbers
of keys are below 2^64, values shorter than 2^32 bytes, and 66 nodes for every update and one for every version are fewer than 2^32. -/
theorem C76_computed_fits (H : Hasher Key) (v0 next : Version) (ops : List Op) (s : Store Key) (h : Reached H v0 ops s next) (c : Call)
    (hs : Startable v0 (commitsOf ops ++ c.op.commits)) (hn : next + c.count ≤ 2 ^ 64) (hc : 66 * c.updates + c.count + 1 < 2 ^ 32)
    (hk : ∀ v, v0 ≤ v → v < next + c.count → ∃ L, Lists H (contentsAt v0 (ops ++ [c.op]) v) L ∧ L.length < 2 ^ 64)
    (hx : ∀ cm ∈ c.op.commits, ∀ e ∈ cm.updates, ∀ x, e.2 = some x → x.length < 2 ^ 32) :
    ∃ roots b, c.compute H s next = .ok (roots, b) ∧ BatchFits b := by
  obtain ⟨rfl, hi⟩ := h.inv
  obtain ⟨roots, b, e1, e2⟩ := c.spec hi hs
  refine ⟨roots, b, e1, ?_⟩
  obtain ⟨n1, n3⟩ : b.nodeBatch.nodes.entries.length < 2 ^ 32 ∧ b.staleNodeIndexBatch.elems.length < 2 ^ 32 := by
    cases c with
    | put m sets =>
      obtain ⟨_, _, g1, g2⟩ := C70_update_local H m s.reader sets _ roots b e1
      have : Call.updates (.put m sets) = (sets.map List.length).sum := by
        simp [Call.updates, Call.op, Op.commits, Commit.updates, Function.comp_def]
      rw [this] at hc
      simp only [Call.count] at hc
      exact ⟨Nat.lt_of_le_of_lt g1 hc, Nat.lt_of_le_of_lt g2 (by omega)⟩
    | batch m sets =>
      obtain ⟨_, _, g1, g2⟩ := C70_batch_local H m s.reader sets none _ roots b e1
      have : Call.updates (.batch m sets) = (sets.map List.length).sum := by
        simp [Call.updates, Call.op, Op.commits, Commit.updates, Function.comp_def]
      rw [this] at hc
      simp only [Call.count] at hc
      exact ⟨Nat.lt_of_le_of_lt g1 hc, Nat.lt_of_le_of_lt g2 (by omega)⟩
  have hval : ∀ v k x, b.nodeBatch.values.get (v, k) = some x → v0 + (commitsOf ops).length ≤ v ∧
      ∃ cm, c.op.commits[v - (v0 + (commitsOf ops).length)]? = some cm ∧ (k, x) ∈ cm.updates := by
    intro v k x hg
    rw [e2.vget v k] at hg
    split at hg
    · rename_i hv
      cases hcm : c.op.commits[v - (v0 + (commitsOf ops).length)]? with
      | none => rw [hcm] at hg; cases hg
      | some cm =>
        rw [hcm] at hg
        exact ⟨hv, cm, rfl, lastOf_mem hg⟩
    · cases hg
  have n2 : b.nodeBatch.values.entries.length < 2 ^ 32 :=
    Nat.lt_of_le_of_lt (values_bound c.op.commits _ _ e2.vsorted hval) (by change c.updates < _; omega)
  have hlen : v0 + (commitsOf ops ++ c.op.commits).length = v0 + (commitsOf ops).length + c.count := by
    rw [List.length_append, Call.length]; omega
  have hnode : ∀ v q n, ((b.nodeBatch.nodes.get ⟨v, q⟩).or (s.nodes.get ⟨v, q⟩)) = some n → v < 2 ^ 64 ∧ q.length ≤ 64 ∧ NodeFits n := by
    intro v q n hg
    obtain ⟨d1, d2, d3⟩ := e2.inv.dom v q n hg
    obtain ⟨t1, t2, _⟩ := e2.inv.tree v d1 d2
    rw [hlen] at d2
    obtain ⟨L, hL, hll⟩ := hk v d1 d2
    have hh := (holding_treeAt H v0 (commitsOf ops ++ c.op.commits) v).lists
    rw [List.map_take] at hh
    have hcm : commitsOf (ops ++ [c.op]) = commitsOf ops ++ c.op.commits := by simp [commitsOf]
    rw [← hcm] at hh
    change Lists H (contentsAt v0 (ops ++ [c.op]) v) _ at hh
    have hlen' := (lists_perm hh hL).length_eq
    rw [hcm] at hlen'
    by_cases hemp : treeAt H v0 (commitsOf ops ++ c.op.commits) v = .empty
    · rw [hemp] at d3
      simp only [VTree.stored] at d3
      split at d3
      · rename_i hq
        cases d3
        exact ⟨by omega, by simp [hq.2], trivial⟩
      · cases d3
    · rw [stored_of_ne H hemp] at d3
      refine ⟨by omega, ?_, at?_fits H v (by omega) _ t2 (by omega) v q n d3⟩
      simpa using at?_path H _ [] t1 v q n d3
  refine ⟨⟨n1, ?_⟩, e2.nodup, ⟨n2, ?_⟩, e2.vsorted, e2.snodup, ⟨n3, ?_⟩, ?_, ?_⟩
  · rintro ⟨⟨v, q⟩, n⟩ he
    exact hnode v q n (by rw [FMap.get_of_mem e2.nodup he]; rfl)
  · rintro ⟨⟨v, k⟩, x⟩ he
    obtain ⟨g1, cm, g2, g3⟩ := hval v k x ((OMap.mem_iff_lookup valueKeyLt_strict e2.vsorted).1 he)
    have h1 := (List.getElem?_eq_some_iff.1 g2).1
    rw [Call.length] at h1
    exact ⟨by simp only; omega, fun y hy => hx cm (List.mem_of_getElem? g2) _ g3 y hy⟩
  · rintro ⟨u, ⟨v, q⟩⟩ hm
    obtain ⟨d1, d2, _, d4, _⟩ := e2.inv.stale u v q (.inr hm)
    obtain ⟨n, d4⟩ := Option.isSome_iff_exists.1 d4
    obtain ⟨g1, g2, _⟩ := hnode v q n d4
    rw [hlen] at d2
    exact ⟨by simp only; omega, g1, g2⟩
  · rw [e2.stats, List.length_map, List.length_range, Call.length]; omega
  · intro st hst
    rw [e2.stats] at hst
    obtain ⟨i, _, rfl⟩ := List.mem_map.1 hst
    have b1 := fun p => List.countP_le_length (l := b.nodeBatch.nodes.entries) (p := p)
    have b2 := fun p => List.countP_le_length (l := b.staleNodeIndexBatch.elems) (p := p)
    exact ⟨Nat.lt_of_le_of_lt (b1 _) (by omega), Nat.lt_of_le_of_lt (b1 _) (by omega), Nat.lt_of_le_of_lt (b2 _) (by omega),
      Nat.lt_of_le_of_lt (b2 _) (by omega)⟩

/-! Reading does not check that the entries come in order, nor that they are different. -/

private def exWire : WireBatch := ⟨.empty, ⟨[((1, key 1 1), some [7]), ((2, key 1 1), none)]⟩, .empty, []⟩

private def swapped : WireBatch := ⟨.empty, ⟨[((2, key 1 1), none), ((1, key 1 1), some [7])]⟩, .empty, []⟩

private def repeated : WireBatch := ⟨.empty, ⟨[((1, key 1 1), none), ((2, key 1 1), none), ((1, key 1 1), some [7])]⟩, .empty, []⟩

set_option maxRecDepth 20000 in
/-- **C76**, limit: other bytes than the ones written are read as the same batch: with two entries exchanged, or with a first entry that is
overwritten by a later one. (For nodes, node keys and proofs there are no such bytes: C61.) -/
theorem C76_other_bytes_false :
    ∃ w b b', updateBatchCodec.tryFromSlice (updateBatchCodec.enc w) = some w ∧ updateBatchCodec.tryFromSlice b = some w ∧
      updateBatchCodec.tryFromSlice b' = some w ∧ b ≠ updateBatchCodec.enc w ∧ b'.length ≠ b.length :=
  ⟨exWire, updateBatchCodec.enc swapped, updateBatchCodec.enc repeated, by rfl, by rfl, by rfl, by decide +kernel, by decide +kernel⟩

/-- A hash function into 32 bytes. -/
private def exHasher : Hasher Key := ⟨key 0 0, fun k _ => k, fun a _ => a, fun _ => key 7 7⟩

private def exBatchOps : List Op := [.update false [[(key 1 1, some [1]), (key 0xF0 0, some [3])]]]

private def exBatchCall : Call := .put false [[(key 1 1, none)], [(key 2 2, some [5, 6]), (key 1 2, some [])]]

/-- The batch of two versions, on a store that holds one, is computed and read back. -/
example : ∃ s roots b w, Reached exHasher 0 exBatchOps s 1 ∧ exBatchCall.compute exHasher s 1 = .ok (roots, b) ∧
    b.wire = .ok w ∧ updateBatchCodec.tryFromSlice (updateBatchCodec.enc w) = some w := by
  obtain ⟨s, hs⟩ := Reached.exists exHasher (ops := exBatchOps) (v0 := 0) ⟨.inl rfl, by simp [exBatchOps, commitsOf, Op.commits]⟩
  have hs : Reached exHasher 0 exBatchOps s 1 := hs
  obtain ⟨roots, b, e1, e2⟩ := C76_computed_fits exHasher 0 1 exBatchOps s hs exBatchCall
    ⟨.inl rfl, by simp [exBatchOps, exBatchCall, Call.op, commitsOf, Op.commits]⟩ (by decide) (by decide) (by
      intro v _ hv
      have hh := (holding_treeAt exHasher 0 (commitsOf (exBatchOps ++ [exBatchCall.op])) v).lists
      rw [List.map_take] at hh
      refine ⟨_, hh, ?_⟩
      have hv : v < 3 := hv
      have hc : v = 0 ∨ v = 1 ∨ v = 2 := by omega
      rcases hc with rfl | rfl | rfl <;> decide +kernel) (by
      intro cm hcm e he x hx
      simp [exBatchCall, Call.op, Op.commits] at hcm
      rcases hcm with rfl | rfl <;> simp [Commit.updates] at he
      · subst he; cases hx
      · rcases he with rfl | rfl <;> cases hx <;> decide)
  obtain ⟨w, g1, g2, _⟩ := C76_batch_read_back b e2
  exact ⟨s, roots, b, w, hs, e1, g1, g2⟩

private def exPlain : TreeUpdateBatch Key :=
  ⟨⟨⟨[(⟨3, []⟩, .leaf ⟨key 1 1, key 2 2⟩), (⟨3, [1]⟩, .null)]⟩, ⟨[((3, key 1 1), some [7])]⟩⟩, ⟨[⟨3, ⟨2, [1, 2]⟩⟩]⟩, [⟨2, 1, 1, 0⟩]⟩

/-- A batch written out in full. -/
example : BatchFits exPlain ∧ ∃ w, exPlain.wire = .ok w ∧ updateBatchCodec.tryFromSlice (updateBatchCodec.enc w) = some w ∧
    w.nodes.get (3, ⟨1, [0x10]⟩) = some .null := by
  have h : BatchFits exPlain := by
    refine ⟨⟨by decide, ?_⟩, by unfold FMap.NodupKeys; decide, ⟨by decide, ?_⟩, by simp [exPlain], by decide, ⟨by decide, by decide⟩, ⟨by decide, by decide⟩⟩
    · intro e he
      simp [exPlain] at he
      rcases he with rfl | rfl <;> exact ⟨by decide, by decide, trivial⟩
    · intro e he
      simp [exPlain] at he
      subst he
      exact ⟨by decide, fun x hx => by cases hx; decide⟩
  obtain ⟨w, h1, h2, h3, _⟩ := C76_batch_read_back exPlain h
  exact ⟨h, w, h1, h2, h3 ⟨3, [1]⟩ _ rfl (by decide)⟩

end Verif.Props
