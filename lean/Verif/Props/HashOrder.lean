import Verif.Proofs.JmtOrder
import Verif.Props.JmtRestoreBeside
/-! Property C85: the order in which hash maps give their entries. -/

set_option autoImplicit false

namespace Verif.Props
open Verif Verif.Spec

/-! ### The Patricia trie -/

/-- What can be asked of a system, without changing it. -/
structure SameAnswers (a b : Pmt.Sys) : Prop where
  roots : a.roots = b.roots
  tries : a.tries.length = b.tries.length
  hash : a.tries.map Pmt.Trie.rootHash = b.tries.map Pmt.Trie.rootHash
  get : ∀ (i : Nat) (t u : Pmt.Trie), a.tries[i]? = some t → b.tries[i]? = some u → ∀ key, t.get a.db key = u.get b.db key
  contains : ∀ (i : Nat) (t u : Pmt.Trie), a.tries[i]? = some t → b.tries[i]? = some u → ∀ key, t.contains a.db key = u.contains b.db key
  values : ∀ (i : Nat) (t u : Pmt.Trie), a.tries[i]? = some t → b.tries[i]? = some u → ∀ fuel, t.values fuel a.db = u.values fuel b.db
  stored : ∀ h, a.db.get h = b.db.get h
  size : a.db.len = b.db.len

/-- **C85**, for the Patricia trie. A program in which each `commit` meets the entries of its cache and the keys to be removed in any order
of its own returns what the program returns when they are met in the order of their insertion (the model used in the other
properties), fails if that one fails, and leaves systems with the same answers. -/
theorem C85_trie (K : Pmt.Keccak) (light : Bool) (ops : List (Pmt.Order × Pmt.Op)) (ho : ∀ x ∈ ops, x.1.Ok) :
    (∀ e, (Pmt.Sys.new light).run K (ops.map Prod.snd) = .error e → (Pmt.Sys.new light).runIn K ops = .error e) ∧
    ∀ b rets, (Pmt.Sys.new light).run K (ops.map Prod.snd) = .ok (b, rets) →
      ∃ a, (Pmt.Sys.new light).runIn K ops = .ok (a, rets) ∧ SameAnswers a b := by
  have h0 : Pmt.Sys.Alike (Pmt.Sys.new light) (Pmt.Sys.new light) := ⟨Pmt.Db.Alike.new light, rfl, rfl⟩
  have h := h0.runIn K ops ho
  generalize (Pmt.Sys.new light).runIn K ops = x at h ⊢
  generalize (Pmt.Sys.new light).run K (ops.map Prod.snd) = y at h ⊢
  unfold Pmt.Sys.SameOut at h
  split at h
  · obtain ⟨h, rfl⟩ := h
    rename_i a r b
    refine ⟨fun _ he => (by cases he), ?_⟩
    rintro b' rets he
    cases he
    have ht : ∀ (i : Nat) (t u : Pmt.Trie), a.tries[i]? = some t → b.tries[i]? = some u → t = u := by
      intro i t u h1 h2
      rw [h.tries, h2] at h1
      exact (Option.some.inj h1).symm
    refine ⟨a, rfl, h.roots, by rw [h.tries], by rw [h.tries], ?_, ?_, ?_, h.db.get, h.db.len⟩
    · intro i t u h1 h2 key
      obtain rfl := ht i t u h1 h2
      exact h.db.trieGet t key
    · intro i t u h1 h2 key
      obtain rfl := ht i t u h1 h2
      exact h.db.trieContains t key
    · intro i t u h1 h2 fuel
      obtain rfl := ht i t u h1 h2
      exact h.db.collect fuel fuel _
  · obtain rfl := h
    exact ⟨fun _ he => he, fun _ _ he => by cases he⟩
  · exact h.elim

/-- Both maps are met from the end. -/
def backwards : Pmt.Order := ⟨fun m => m.entries.reverse, List.reverse⟩

theorem backwards_ok : backwards.Ok := ⟨fun _ => List.reverse_perm _, fun _ _ => List.mem_reverse⟩

-- C85: a program with two tries, and orders that are not the one of the model
example : ∀ x ∈ [Pmt.Op.new, .insert 0 [1] [2], .insert 0 [1, 2] [3], .commit 0, .openAt 0, .remove 1 [1], .commit 1].map (fun op => (backwards, op)),
    x.1.Ok := by
  intro x hx
  obtain ⟨op, _, rfl⟩ := List.mem_map.1 hx
  exact backwards_ok

/-! ### The Jellyfish Merkle tree -/

open Verif.Jmt
variable {D : Type}

/-- **C85**, for the Jellyfish Merkle tree. Updates and prunings on a store whose maps give their entries in a new order every time, with
caches whose maps do so at every step of every call, succeed as they do in the model, and the stores cannot be told apart: all calls of the tree that go through `get_node_option` and
`get_value_option` give the same (the readers are equal), and so do `len`, `is_empty` and `version`. -/
theorem C85_store_partial (H : Hasher D) (v0 next : Version) (ops : List (Shuffle D × Op)) (hf : ∀ x ∈ ops, x.1.Ok) (t : Store D)
    (h : Reached H v0 (ops.map Prod.snd) t next) :
    ∃ s, runOpsIn H ops (Store.empty, v0) = .ok (s, next) ∧ s.reader = t.reader ∧ (∀ i, i ∈ s.staleNodes ↔ i ∈ t.staleNodes) ∧
      s.len = t.len ∧ s.isEmpty = t.isEmpty ∧ s.version = t.version := by
  have h0 : Store.Alike (Store.empty : Store D) Store.empty :=
    ⟨fun _ => rfl, fun _ => rfl, fun _ => Iff.rfl, rfl, FMap.nodupKeys_empty, FMap.nodupKeys_empty, List.nodup_nil⟩
  obtain ⟨s', t', e1, e2, e3⟩ := runOpsIn_alike ops hf h0 (StoreInv.init H v0) h.startable.resumable
  have e1 : runOpsIn H ops (Store.empty, v0) = .ok (s', v0 + (commitsOf (ops.map Prod.snd)).length) := by simpa using e1
  have e2 : runOps H (ops.map Prod.snd) (Store.empty, v0) = .ok (t', v0 + (commitsOf (ops.map Prod.snd)).length) := by simpa using e2
  rw [h.run] at e2
  obtain ⟨rfl, rfl⟩ := Prod.mk.inj (Except.ok.inj e2)
  obtain ⟨_, hi⟩ := h.inv
  obtain ⟨l1, l2⟩ := e3.len_version hi.vnodup
  exact ⟨s', e1, e3.reader, e3.stale, l1, by unfold Store.isEmpty; rw [l1], l2⟩

/-- Two results of a call that cannot be told apart: the same error, or the same root hashes and batches with the same nodes and stale node
indices, each of them once, the same statistics, and the same values in the same order. -/
inductive SameResult : Res (List D × TreeUpdateBatch D) → Res (List D × TreeUpdateBatch D) → Prop
  | ok {roots : List D} {b b' : TreeUpdateBatch D} (nodes : b'.nodeBatch.nodes.entries.Perm b.nodeBatch.nodes.entries)
      (once : (b.nodeBatch.nodes.entries.map Prod.fst).Nodup) (values : b'.nodeBatch.values = b.nodeBatch.values)
      (stale : b'.staleNodeIndexBatch.elems.Perm b.staleNodeIndexBatch.elems) (sonce : b.staleNodeIndexBatch.elems.Nodup)
      (stats : b'.nodeStats = b.nodeStats) : SameResult (.ok (roots, b)) (.ok (roots, b'))
  | error (e : Err) : SameResult (.error e) (.error e)

/-- **C85**, for one call. On every reader, whatever it gives, and for all updates, from every first version, `put_value_sets` and
`batch_put_value_sets` give the same when the maps of the cache are put in another order before every update and before every
`freeze`. -/
theorem C85_calls (H : Hasher D) (m : Bool) (o : CacheOrders D) (ho : ∀ v i, (o v i).Ok) (r : Reader D) (v : Version) :
    (∀ sets, SameResult (Tree.putValueSets H m r sets v) (Tree.putValueSetsIn H m o r sets v)) ∧
    ∀ sets hashes, SameResult (Tree.batchPutValueSets H m r sets hashes v) (Tree.batchPutValueSetsIn H m o r sets hashes v) := by
  have hs : ∀ {x y : Res (List D × TreeUpdateBatch D)}, ResRel SameOut x y → SameResult x y := by
    intro x y h
    cases h with
    | error e => exact .error e
    | @ok a b h =>
      obtain ⟨a1, a2⟩ := a
      obtain ⟨b1, b2⟩ := b
      obtain ⟨h1, h2⟩ := h
      obtain rfl : b1 = a1 := h1
      exact .ok h2.nodes h2.nodup h2.values h2.stale h2.snodup h2.stats
  exact ⟨fun sets => hs (putValueSetsIn_same H m o ho r sets v), fun sets hashes => hs (batchPutValueSetsIn_same H m o ho r sets hashes v)⟩

/-- **C85**, for `freeze`. The caches of a version are hash maps that are emptied in any order: the batch has the same nodes, stale node
indices, root hashes and statistics, and the same values in the same order. -/
theorem C85_freeze (c : TreeCache D) (nodes : List (NodeKey × Node D)) (values : List ((Version × Key) × Option Value)) (stale : List NodeKey)
    (hn : nodes.Perm c.nodeCache.entries) (hv : values.Perm c.valueCache.entries) (hs : stale.Perm c.staleNodeIndexCache.elems)
    (h1 : c.nodeCache.NodupKeys) (h2 : c.valueCache.NodupKeys)
    (h3 : c.frozen.nodeCache.values.entries.Pairwise (fun a b => valueKeyLt a.1 b.1 = true)) :
    let f := c.freezeMove.frozen
    let g := ({ c with nodeCache := ⟨nodes⟩, valueCache := ⟨values⟩, staleNodeIndexCache := ⟨stale⟩ } : TreeCache D).freezeMove.frozen
    (∀ nk, g.nodeCache.nodes.get nk = f.nodeCache.nodes.get nk) ∧ g.nodeCache.values = f.nodeCache.values ∧
      (∀ i, i ∈ g.staleNodeIndexCache ↔ i ∈ f.staleNodeIndexCache) ∧ g.nodeStats = f.nodeStats ∧ g.rootHashes = f.rootHashes :=
  freezeMove_any c nodes values stale hn hv hs h1 h2 h3

/-- `get_rightmost_leaf` does not depend on the order either, if no two stored leaves have the same key. -/
theorem C85_rightmost_partial (s : Store D) (hn : s.nodes.NodupKeys) (f : Shuffle D) (hf : f.Ok)
    (h1 : ∀ nk nk' l l', s.nodes.get nk = some (.leaf l) → s.nodes.get nk' = some (.leaf l') → l.keyHash = l'.keyHash → nk = nk') :
    (f.store s).getRightmostLeaf = s.getRightmostLeaf := by
  have hp := hf.nodes s.nodes.entries
  rw [getRightmostLeaf_eq, getRightmostLeaf_eq]
  show (f.nodes s.nodes.entries).foldl rightStep none = s.nodes.entries.foldl rightStep none
  obtain ⟨a1, _, a3, a4⟩ := foldl_rightStep_some (f.nodes s.nodes.entries) none
  obtain ⟨b1, _, b3, b4⟩ := foldl_rightStep_some s.nodes.entries none
  cases ha : (f.nodes s.nodes.entries).foldl rightStep none with
  | none =>
    cases hb : s.nodes.entries.foldl rightStep none with
    | none => rfl
    | some b =>
      obtain ⟨a, h⟩ := a3 ⟨b.1, b.2, hp.mem_iff.2 ((b1 b hb).resolve_left (by simp))⟩
      rw [ha] at h
      cases h
  | some a =>
    have ma := hp.mem_iff.1 ((a1 a ha).resolve_left (by simp))
    obtain ⟨b, hb⟩ := b3 ⟨a.1, a.2, ma⟩
    have mb := (b1 b hb).resolve_left (by simp)
    have hk : a.2.keyHash = b.2.keyHash := by
      rcases Key.lt_tri a.2.keyHash b.2.keyHash with h | h | h
      · exact absurd h ((a4 a ha).2 b.1 b.2 (hp.mem_iff.2 mb))
      · exact h
      · exact absurd h ((b4 b hb).2 a.1 a.2 ma)
    have g1 := (FMap.mem_iff_get hn).1 ma
    have g2 := (FMap.mem_iff_get hn).1 mb
    have he := h1 _ _ _ _ g1 g2 hk
    rw [← he, g1] at g2
    have hl : a.2 = b.2 := by simpa using g2
    rw [hb, Prod.ext he hl]

/-! ### Examples -/

/-- Every map of a cache gives its entries from the end. -/
def turnedCache : CacheOrder D := ⟨List.reverse, List.reverse, List.reverse, List.reverse, List.reverse⟩

theorem turnedCache_ok : (turnedCache : CacheOrder D).Ok :=
  ⟨fun _ => List.reverse_perm _, fun _ => List.reverse_perm _, fun _ => List.reverse_perm _, fun _ => List.reverse_perm _, fun _ => List.reverse_perm _⟩

/-- Every map gives its entries from the end. -/
def turned : Shuffle D := ⟨List.reverse, List.reverse, List.reverse, List.reverse, List.reverse, fun _ _ => turnedCache⟩

theorem turned_ok : (turned : Shuffle D).Ok :=
  ⟨fun _ => List.reverse_perm _, fun _ => List.reverse_perm _, fun _ => List.reverse_perm _, fun _ => List.reverse_perm _, fun _ => List.reverse_perm _,
    fun _ _ => turnedCache_ok⟩

/-- The keys of the nodes of a batch, as they come. -/
def nodeKeysOf (x : Res (List Term × TreeUpdateBatch Term)) : List NodeKey :=
  match x with
  | .ok (_, b) => b.nodeBatch.nodes.entries.map Prod.fst
  | .error _ => []

-- C85: a call of two versions whose batch comes in another order, with seven nodes, and a call that fails
example : (∀ v i, ((fun _ _ => turnedCache : CacheOrders Term) v i).Ok) ∧
    (let sets : List Tree.ValueSet := [[(key 1 1, some [1]), (key 2 1, some [2])], [(key 1 1, some [3])]]
     let x := Tree.putValueSets termHasher false Store.empty.reader sets 0
     let y := Tree.putValueSetsIn termHasher false (fun _ _ => turnedCache) Store.empty.reader sets 0
     (nodeKeysOf x).length = 7 ∧ nodeKeysOf x ≠ nodeKeysOf y) ∧
    ∃ e, Tree.batchPutValueSetsIn termHasher false (fun _ _ => turnedCache) (Store.empty : Store Term).reader [[]] none 3 = .error e := by
  refine ⟨fun _ _ => turnedCache_ok, by decide +kernel, _, rfl⟩

-- C85: three versions with pruning, each on maps that were turned
example : ∃ s t, runOpsIn termHasher (exOps.map (fun op => (turned, op))) (Store.empty, 0) = .ok (s, 3) ∧ Reached termHasher 0 exOps t 3 ∧
    s.reader = t.reader := by
  obtain ⟨t, ht⟩ := exOps_reached
  have he : (exOps.map (fun op => ((turned : Shuffle Term), op))).map Prod.snd = exOps := by rw [List.map_map]; exact List.map_id _
  obtain ⟨s, h1, h2, _⟩ := C85_store_partial termHasher 0 3 (exOps.map (fun op => (turned, op)))
    (by intro x hx; obtain ⟨_, _, rfl⟩ := List.mem_map.1 hx; exact turned_ok) t (by rw [he]; exact ht)
  exact ⟨s, t, h1, ht, h2⟩

-- C85: a cache with two nodes, two values and a stale node, emptied from the end
example : ∃ c : TreeCache Term, c.nodeCache.entries.length = 2 ∧ c.valueCache.entries.length = 2 ∧ c.nodeCache.NodupKeys ∧ c.valueCache.NodupKeys ∧
    c.frozen.nodeCache.values.entries.Pairwise (fun a b => valueKeyLt a.1 b.1 = true) := by
  refine ⟨⟨⟨1, []⟩, 1, ⟨[(⟨1, []⟩, .null), (⟨1, [2]⟩, .null)]⟩, ⟨[((1, key 1 1), none), ((1, key 1 2), some [1])]⟩, 0, ⟨[⟨0, []⟩]⟩, 0, FrozenTreeCache.new, Store.empty.reader⟩,
    rfl, rfl, ?_, ?_, ?_⟩
  · show List.Nodup _; decide +kernel
  · show List.Nodup _; decide +kernel
  · exact List.Pairwise.nil

-- C85: two leaves with different keys beside an inner node
example : ∃ s : Store Term, s.nodes.entries.length = 3 ∧ s.nodes.NodupKeys ∧
    ∀ nk nk' l l', s.nodes.get nk = some (.leaf l) → s.nodes.get nk' = some (.leaf l') → l.keyHash = l'.keyHash → nk = nk' := by
  refine ⟨⟨⟨[(⟨1, [1]⟩, .leaf ⟨key 1 1, .placeholder⟩), (⟨0, [2]⟩, .leaf ⟨key 2 1, .placeholder⟩), (⟨1, []⟩, .null)]⟩, .empty, .empty, false⟩, rfl, ?_, ?_⟩
  · show List.Nodup _; decide +kernel
  · intro nk nk' l l' h1 h2 h
    have h1 := FMap.mem_of_get h1
    have h2 := FMap.mem_of_get h2
    have hne : key 1 1 ≠ key 2 1 := by decide +kernel
    simp only [List.mem_cons, Prod.mk.injEq, Node.leaf.injEq, reduceCtorEq, and_false, List.not_mem_nil, or_false] at h1 h2
    rcases h1 with ⟨rfl, rfl⟩ | ⟨rfl, rfl⟩ <;> rcases h2 with ⟨rfl, rfl⟩ | ⟨rfl, rfl⟩
    · rfl
    · exact absurd h hne
    · exact absurd h.symm hne
    · rfl

/-- How a call failed, if it did. -/
def failure {R : Type} : Res R → Option Err
  | .ok _ => none
  | .error e => some e

theorem failure_some {R : Type} {x : Res R} {e : Err} (h : failure x = some e) : x = .error e := by
  cases x with
  | ok _ => cases h
  | error _ => cases h; rfl

theorem failure_none {R : Type} {x : Res R} (h : failure x = none) : ∃ r, x = .ok r := by
  cases x with
  | ok r => exact ⟨r, rfl⟩
  | error _ => cases h

/-- A store of three versions of which the first was pruned: the greatest key has leaves in versions 0 and 2. -/
def exTwoLeaves : List Op :=
  [.update false [[(key 1 1, some [1]), (key 0xF0 0, some [3])], [(key 1 1, some [2])]], .purge 1, .update false [[(key 0xF0 0, some [4])]]]

/-- **C85**, false of `Restore.new`. `get_rightmost_leaf` takes, of the stored leaves with the greatest key, the one the hash map gives
first. Whether a restore can be started with `new` depends on it: in one order it panics, in the other it succeeds. -/
theorem C85_new_false : ∃ (s : Store Term) (f : Shuffle Term), Reached termHasher 0 exTwoLeaves s 3 ∧ f.Ok ∧ (f.store s).reader = s.reader ∧
    Restore.new termHasher s 7 .placeholder false = .error (.panic "Current node key is root.") ∧
    ∃ r, Restore.new termHasher (f.store s) 7 .placeholder false = .ok r := by
  obtain ⟨s, h⟩ := Reached.exists (v0 := 0) (ops := exTwoLeaves) termHasher ⟨.inl rfl, by simp [exTwoLeaves, commitsOf, Op.commits]⟩
  have hd : ((runOps termHasher exTwoLeaves (Store.empty, 0)).map (fun q =>
      (failure (Restore.new termHasher q.1 7 .placeholder false),
        failure (Restore.new termHasher ((turned : Shuffle Term).store q.1) 7 .placeholder false)))).toOption =
      some (some (.panic "Current node key is root."), none) := by decide +kernel
  rw [h.run] at hd
  obtain ⟨h1, h2⟩ := Prod.mk.inj (Option.some.inj hd)
  obtain ⟨_, hi⟩ := h.inv
  have ha : Store.Alike s s := ⟨fun _ => rfl, fun _ => rfl, fun _ => Iff.rfl, rfl, hi.nodup, hi.vnodup, hi.snodup⟩
  exact ⟨s, turned, h, turned_ok, (ha.shuffle turned_ok).reader, failure_some h1, failure_none h2⟩

end Verif.Props
