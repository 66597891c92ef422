import Verif.Proofs.TouchSets
import Verif.Spec.Locality
import Verif.Props.JmtBatch
/-! Property C70: an update writes and gives up only nodes beside the paths of the updated keys, and few of them. -/

set_option autoImplicit false

namespace Verif.Props
open Verif Verif.Jmt Verif.Spec
variable {D : Type}

/-- **C70.** Whatever store `put_value_sets` works on: when it succeeds, every node of the update batch is a root node, or has the version
of one of the sets and lies on (or is one step off) the path of a key of this set; every stale index carries the version of one of the sets
and names a node on (or one step off) the path of a key of this set; and there are at most 66 new and 66 stale nodes per update, besides
one root node for each version and one more. -/
theorem C70_update_local (H : Hasher D) (m : Bool) (reader : Reader D) (sets : List Tree.ValueSet) (v : Version) (roots : List D)
    (batch : TreeUpdateBatch D) (h : Tree.putValueSets H m reader sets v = .ok (roots, batch)) :
    (∀ nk, (batch.nodeBatch.nodes.get nk).isSome →
      nk.path = [] ∨ ∃ i s e, sets[i]? = some s ∧ e ∈ s ∧ nk.version = v + i ∧ Beside nk.path e.1) ∧
    (∀ x, x ∈ batch.staleNodeIndexBatch → ∃ i s e, sets[i]? = some s ∧ e ∈ s ∧ x.staleSinceVersion = v + i ∧ Beside x.nodeKey.path e.1) ∧
    batch.nodeBatch.nodes.size ≤ 66 * (sets.map List.length).sum + sets.length + 1 ∧
    batch.staleNodeIndexBatch.size ≤ 66 * (sets.map List.length).sum := by
  unfold Tree.putValueSets at h
  obtain ⟨c, h1, h⟩ := bind_ok h
  cases h
  obtain ⟨N, hN⟩ : ∃ N : NodeKey → Prop, ∀ nk, N nk ↔
      (nk.path = [] ∨ ∃ i s e, sets[i]? = some s ∧ e ∈ s ∧ nk.version = v + i ∧ Beside nk.path e.1) := ⟨_, fun _ => Iff.rfl⟩
  obtain ⟨S, hS⟩ : ∃ S : StaleNodeIndex → Prop, ∀ x, S x ↔
      (∃ i s e, sets[i]? = some s ∧ e ∈ s ∧ x.staleSinceVersion = v + i ∧ Beside x.nodeKey.path e.1) := ⟨_, fun _ => Iff.rfl⟩
  have h0 : ∀ nk : NodeKey, nk.path = [] → N nk := fun nk hp => (hN nk).2 (.inl hp)
  obtain ⟨ver', g⟩ := putSets_settled (N := N) (S := S) h0 sets v 1 0 _ c (Settled.new reader v h0)
    (fun i s e hi he nk hv hb => by exact (hN nk).2 (.inr ⟨i, s, e, hi, he, hv, hb⟩))
    (fun i s e hi he nk hb => by exact (hS _).2 ⟨i, s, e, hi, he, rfl, hb⟩) h1
  refine ⟨fun nk hk => (hN nk).1 (g.frozen nk hk), fun x hx => (hS x).1 (g.stale x hx), ?_, ?_⟩
  · have := g.size
    show c.frozen.nodeCache.nodes.size ≤ _
    omega
  · have := g.staleSize
    show c.frozen.staleNodeIndexCache.size ≤ _
    omega

/-- **C70**, for `batch_put_value_sets`: the same with at most 66 new and 65 stale nodes per update. -/
theorem C70_batch_local (H : Hasher D) (m : Bool) (reader : Reader D) (sets : List (List (Key × Value)))
    (hashes : Option (List (Tree.HashCache D))) (v : Version) (roots : List D) (batch : TreeUpdateBatch D)
    (h : Tree.batchPutValueSets H m reader sets hashes v = .ok (roots, batch)) :
    (∀ nk, (batch.nodeBatch.nodes.get nk).isSome →
      nk.path = [] ∨ ∃ i s e, sets[i]? = some s ∧ e ∈ s ∧ nk.version = v + i ∧ Beside nk.path e.1) ∧
    (∀ x, x ∈ batch.staleNodeIndexBatch → ∃ i s e, sets[i]? = some s ∧ e ∈ s ∧ x.staleSinceVersion = v + i ∧ Beside x.nodeKey.path e.1) ∧
    batch.nodeBatch.nodes.size ≤ 66 * (sets.map List.length).sum + sets.length + 1 ∧
    batch.staleNodeIndexBatch.size ≤ 65 * (sets.map List.length).sum := by
  obtain ⟨hcs, c, h1, h2, h⟩ : ∃ (hcs : List (Option (Tree.HashCache D))) (c : TreeCache D),
      Tree.batchPutSets H m v (sets.zip hcs) (TreeCache.new reader v) = .ok c ∧
      assert (decide (sets.length = hcs.length)) "itertools: .zip_eq() reached end of one iterator before the other" = .ok () ∧
      c.into = (roots, batch) := by
    unfold Tree.batchPutValueSets at h
    obtain ⟨c, h1, h⟩ := bind_ok h
    obtain ⟨_, h2, h⟩ := bind_ok h
    exact ⟨_, c, h1, h2, Except.ok.inj h⟩
  cases h
  have hl : sets.length = hcs.length := by
    by_contra hc
    rw [decide_eq_false hc] at h2
    cases h2
  have hz : (sets.zip hcs).map Prod.fst = sets := by
    rw [List.map_fst_zip]
    omega
  have hz2 : (sets.zip hcs).length = sets.length := by
    rw [List.length_zip]
    omega
  obtain ⟨N, hN⟩ : ∃ N : NodeKey → Prop, ∀ nk, N nk ↔
      (nk.path = [] ∨ ∃ i s e, sets[i]? = some s ∧ e ∈ s ∧ nk.version = v + i ∧ Beside nk.path e.1) := ⟨_, fun _ => Iff.rfl⟩
  obtain ⟨S, hS⟩ : ∃ S : StaleNodeIndex → Prop, ∀ x, S x ↔
      (∃ i s e, sets[i]? = some s ∧ e ∈ s ∧ x.staleSinceVersion = v + i ∧ Beside x.nodeKey.path e.1) := ⟨_, fun _ => Iff.rfl⟩
  have h0 : ∀ nk : NodeKey, nk.path = [] → N nk := fun nk hp => (hN nk).2 (.inl hp)
  obtain ⟨ver', g⟩ := batchPutSets_settled (N := N) (S := S) h0 (sets.zip hcs) v 1 0 _ c (Settled.new reader v h0)
    (fun i s e hi he nk hv hb => by rw [hz] at hi; exact (hN nk).2 (.inr ⟨i, s, e, hi, he, hv, hb⟩))
    (fun i s e hi he nk hb => by rw [hz] at hi; exact (hS _).2 ⟨i, s, e, hi, he, rfl, hb⟩) h1
  rw [hz, hz2] at g
  refine ⟨fun nk hk => (hN nk).1 (g.frozen nk hk), fun x hx => (hS x).1 (g.stale x hx), ?_, ?_⟩
  · have := g.size
    show c.frozen.nodeCache.nodes.size ≤ _
    omega
  · have := g.staleSize
    show c.frozen.staleNodeIndexCache.size ≤ _
    omega

/-- The bounds are reached: beside a key with 63 common nibbles, inserting a key writes 66 nodes. -/
example : (match Tree.putValueSets termHasher true (Store.empty : Store Term).reader [[(key 1 1, some [7])], [(key 1 2, some [8])]] 0 with
    | .ok (_, b) => (b.nodeBatch.nodes.size, b.staleNodeIndexBatch.size)
    | .error _ => (0, 0)) = (67, 1) := by decide +kernel

/-- The hypotheses of `C70_batch_local` are met: the sets of `exBatch` are put on a store with a key. -/
example : ∃ s roots b, Reached termHasher 0 [.update true [[(key 1 3, some [8])]]] s 1 ∧
    Tree.batchPutValueSets termHasher true s.reader exBatch none 1 = .ok (roots, b) ∧ b.staleNodeIndexBatch.size ≤ 455 := by
  obtain ⟨s, h⟩ := Reached.exists (v0 := 0) (ops := [.update true [[(key 1 3, some [8])]]]) termHasher
    ⟨.inl rfl, by simp [commitsOf, Op.commits]⟩
  have h : Reached termHasher 0 [.update true [[(key 1 3, some [8])]]] s 1 := h
  have hs : Startable 0 (commitsOf [.update true [[(key 1 3, some [8])]]] ++ exBatch.map (.batch true)) := by
    simpa [commitsOf, Op.commits] using exBatch_startable
  obtain ⟨roots, b, _, e, _⟩ := C10_batch_roots_partial termHasher 0 1 _ s h true true exBatch hs
  exact ⟨s, roots, b, h, e, Nat.le_trans (C70_batch_local _ _ _ _ _ _ _ _ e).2.2.2 (by decide)⟩

end Verif.Props
