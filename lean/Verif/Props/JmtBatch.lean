import Verif.Props.Examples
import Verif.Proofs.HashCache
/-! Property C10 and C51: batch insertion agrees with one-by-one insertion. -/

set_option autoImplicit false

namespace Verif.Props
open Verif Verif.Jmt Verif.Spec
variable {D : Type}

/-- The value set for `put_value_sets` that inserts the same pairs. -/
def asInserts (s : List (Key × Value)) : Tree.ValueSet := s.map (fun e => (e.1, some e.2))

theorem startable_seq {v0 : Version} {hist : List Commit} {m m' : Bool} {sets : List (List (Key × Value))}
    (h : Startable v0 (hist ++ sets.map (.batch m))) : Startable v0 (hist ++ (sets.map asInserts).map (.seq m')) := by
  refine ⟨?_, ?_⟩
  · rcases h.first with h0 | h0
    · exact .inl h0
    · right
      intro c hc
      cases hist with
      | cons a l => exact h0 c (by simpa using hc)
      | nil =>
        cases sets with
        | nil => simp at hc
        | cons x l => exact absurd rfl ((h0 (.batch m x) (by simp)).1 m x)
  · intro m'' x hx
    rw [List.mem_append] at hx
    rcases hx with hx | hx
    · exact h.batches m'' x (by simp [hx])
    · simp at hx

/-- **C10.** On every reachable store `batch_put_value_sets` succeeds on every list of non-empty insert-only sets and returns the root
hashes `put_value_sets` returns for the same insertions in the same order (so a later duplicate of a key wins). The two trees may even
have different migration flags. Partial: a first version above 0 is left out (`Startable`), of which this is false (`C10_missing_root_false`). -/
theorem C10_batch_roots_partial (H : Hasher D) (v0 next : Version) (ops : List Op) (s : Store D) (h : Reached H v0 ops s next) (m m' : Bool)
    (sets : List (List (Key × Value))) (hs : Startable v0 (commitsOf ops ++ sets.map (.batch m))) :
    ∃ roots b b', Tree.batchPutValueSets H m s.reader sets none next = .ok (roots, b) ∧
      Tree.putValueSets H m' s.reader (sets.map asInserts) next = .ok (roots, b') := by
  obtain ⟨rfl, hi⟩ := h.inv
  obtain ⟨roots, b, e1, e2, _⟩ := batchPutValueSets_spec hi m sets hs
  obtain ⟨roots', b', f1, f2⟩ := putValueSets_spec hi m' (sets.map asInserts) (startable_seq hs)
  refine ⟨roots, b, b', e1, ?_⟩
  rw [f1, e2.roots, f2.roots]
  congr 2
  simp only [List.length_map]
  apply List.map_congr_left
  intro i _
  have g1 := holding_treeAt H v0 (commitsOf ops ++ sets.map (.batch m)) (v0 + (commitsOf ops).length + i)
  have g2 := holding_treeAt H v0 (commitsOf ops ++ (sets.map asInserts).map (.seq m')) (v0 + (commitsOf ops).length + i)
  have e : ((commitsOf ops ++ (sets.map asInserts).map (Commit.seq m')).take (v0 + (commitsOf ops).length + i + 1 - v0)).map Commit.updates =
      ((commitsOf ops ++ sets.map (Commit.batch m)).take (v0 + (commitsOf ops).length + i + 1 - v0)).map Commit.updates := by
    rw [List.map_take, List.map_take, List.map_append, List.map_append, List.map_map, List.map_map, List.map_map]
    rfl
  rw [e] at g2
  rw [VTree.hash_eq_smt H g1.1, VTree.hash_eq_smt H g2.1]
  exact smt_perm H 256 (lists_perm g2.lists g1.lists)

/-- **C10**, reads: after committing the batch the store answers every read of every readable version as if the same pairs had been
inserted one by one. Partial as `C10_batch_roots_partial`. -/
theorem C10_batch_reads_partial (H : Hasher D) (v0 : Version) (ops : List Op) (m m' : Bool) (sets : List (List (Key × Value)))
    (hs : Startable v0 (commitsOf (ops ++ [.batch m sets]))) :
    ∃ s s' next, Reached H v0 (ops ++ [.batch m sets]) s next ∧ Reached H v0 (ops ++ [.update m' (sets.map asInserts)]) s' next ∧
      ∀ v, Readable v0 (ops ++ [.batch m sets]) v → Tree.getRootHash H s.reader v = Tree.getRootHash H s'.reader v ∧
        Tree.getLeafCount true s.reader v = Tree.getLeafCount true s'.reader v ∧
        ∀ k, Tree.getWithProof H s.reader k v = Tree.getWithProof H s'.reader k v ∧ Tree.get s.reader k v = Tree.get s'.reader k v := by
  have c1 : commitsOf (ops ++ [.batch m sets]) = commitsOf ops ++ sets.map (.batch m) := by simp [commitsOf, Op.commits]
  have c2 : commitsOf (ops ++ [.update m' (sets.map asInserts)]) = commitsOf ops ++ (sets.map asInserts).map (.seq m') := by
    simp [commitsOf, Op.commits]
  obtain ⟨s, h⟩ := Reached.exists H hs
  obtain ⟨s', h'⟩ := Reached.exists (ops := ops ++ [.update m' (sets.map asInserts)]) (v0 := v0) H (by
    rw [c2]; rw [c1] at hs; exact startable_seq hs)
  have hl : (commitsOf (ops ++ [.batch m sets])).length = (commitsOf (ops ++ [.update m' (sets.map asInserts)])).length := by
    rw [c1, c2]; simp
  refine ⟨s, s', _, h, by rw [hl]; exact h', ?_⟩
  intro v hv
  have hv' : Readable v0 (ops ++ [.update m' (sets.map asInserts)]) v := by
    refine ⟨hv.ge, by rw [← hl]; exact hv.lt, ?_⟩
    rcases hv.kept with hk | hk
    · left
      intro m'' hm
      apply hk
      simpa using hm
    · right; rw [← hl]; exact hk
  have e : contentsAt v0 (ops ++ [.update m' (sets.map asInserts)]) v = contentsAt v0 (ops ++ [.batch m sets]) v := by
    unfold contentsAt
    rw [c1, c2, List.map_append, List.map_append, List.map_map, List.map_map, List.map_map]
    rfl
  have f := h.facts hv
  have f' := h'.facts hv'
  rw [e] at f'
  refine ⟨?_, ?_, ?_⟩
  · rw [f.getRootHash, f'.getRootHash, f'.hash f.hold.lists, f.hash f.hold.lists]
  · rw [f.getLeafCount f.hold.lists, f'.getLeafCount f.hold.lists]
  · intro k
    rw [f.getWithProof, f'.getWithProof, f'.path f.hold.lists k, Tree.get, Tree.get, f.value, f'.value]
    exact ⟨rfl, rfl⟩

/-- Hashes that are right for the new nodes of a batch: for each round, the hash of every node that the round writes below the root. -/
def SuppliedHashes (H : Hasher D) (b : TreeUpdateBatch D) (first : Version) (hashes : List (Tree.HashCache D)) : Prop :=
  ∀ i hc, hashes[i]? = some hc → ∀ nk n, b.nodeBatch.nodes.get nk = some n → nk.version = first + i → nk.path ≠ [] →
    hc.get nk.path = some (n.hash H)

/-- **C51.** Supplying precomputed node hashes that are right changes nothing: root hashes and batch are those computed without. -/
theorem C51_supplied_hashes (H : Hasher D) (v0 next : Version) (ops : List Op) (s : Store D) (h : Reached H v0 ops s next) (m : Bool)
    (sets : List (List (Key × Value))) (hs : Startable v0 (commitsOf ops ++ sets.map (.batch m))) (roots : List D) (b : TreeUpdateBatch D)
    (hb : Tree.batchPutValueSets H m s.reader sets none next = .ok (roots, b)) (hashes : List (Tree.HashCache D))
    (hl : hashes.length = sets.length) (hr : SuppliedHashes H b next hashes) :
    Tree.batchPutValueSets H m s.reader sets (some hashes) next = .ok (roots, b) := by
  obtain ⟨rfl, hi⟩ := h.inv
  obtain ⟨roots', b', e1, e2, e3⟩ := batchPutValueSets_spec hi m sets hs
  rw [e1] at hb
  cases hb
  exact e3 hashes hl hr

/-- Finding J9: on an empty store, at a first version above 0, the claim of C10 is false: `put_value_sets` treats the missing root as
the empty tree, `batch_put_value_sets` reports an error. -/
theorem C10_missing_root_false :
    (Tree.putValueSets termHasher true (Store.empty : Store Term).reader [asInserts [(key 1 1, [1])]] 1).isOk = true ∧
    (Tree.batchPutValueSets termHasher true (Store.empty : Store Term).reader [[(key 1 1, [1])]] none 1).isOk = false := by
  decide +kernel

/-- The empty value set violates an assertion. -/
theorem C10_empty_set_panics (H : Hasher D) (m : Bool) (r : Reader D) (v : Version) (sets : List (List (Key × Value))) :
    ∃ msg, Tree.batchPutValueSets H m r ([] :: sets) none v = .error (.panic msg) := ⟨_, rfl⟩

/-- One update, then a batch of two rounds: a split of a leaf, a repeated key, an overwrite and new subtrees. -/
def exBatch : List (List (Key × Value)) :=
  [[(key 1 1, [1]), (key 1 2, [2]), (key 0xF0 0, [3]), (key 1 1, [9])], [(key 0xF0 1, [4]), (key 1 2, [5]), (key 0x80 0, [6])]]

theorem exBatch_startable : Startable 0 (commitsOf ([.update true [[(key 1 3, some [8])]]] ++ [.batch true exBatch])) :=
  ⟨.inl rfl, by simp [commitsOf, Op.commits, exBatch]⟩

example : ∃ s s' next, Reached termHasher 0 ([.update true [[(key 1 3, some [8])]]] ++ [.batch true exBatch]) s next ∧
    Reached termHasher 0 ([.update true [[(key 1 3, some [8])]]] ++ [.update false (exBatch.map asInserts)]) s' next ∧
    Tree.getRootHash termHasher s.reader 2 = Tree.getRootHash termHasher s'.reader 2 := by
  obtain ⟨s, s', next, h, h', e⟩ := C10_batch_reads_partial termHasher 0 [.update true [[(key 1 3, some [8])]]] true false exBatch exBatch_startable
  exact ⟨s, s', next, h, h', (e 2 ⟨by decide, by decide, .inr rfl⟩).1⟩

/-- The node hashes of a batch, by round. -/
def hashesOf (H : Hasher D) (b : TreeUpdateBatch D) (first : Version) (n : Nat) : List (Tree.HashCache D) :=
  (List.range n).map (fun i => ⟨b.nodeBatch.nodes.entries.filterMap (fun e =>
    if e.1.version = first + i then some (e.1.path, e.2.hash H) else none)⟩)

theorem suppliedHashes_hashesOf (H : Hasher D) (b : TreeUpdateBatch D) (first : Version) (n : Nat) :
    SuppliedHashes H b first (hashesOf H b first n) := by
  intro i hc hi nk nd hn hv _
  rw [hashesOf, List.getElem?_map] at hi
  rcases hr : (List.range n)[i]? with _ | j
  · rw [hr] at hi; simp at hi
  · rw [hr] at hi
    obtain ⟨_, hj⟩ := List.getElem?_eq_some_iff.mp hr
    simp only [List.getElem_range] at hj
    subst hj
    simp only [Option.map_some, Option.some.injEq] at hi
    subst hi
    simp only [FMap.get] at hn ⊢
    revert hn
    generalize b.nodeBatch.nodes.entries = l
    intro hn
    induction l with
    | nil => simp [FMap.lookupL] at hn
    | cons e t ih =>
      obtain ⟨a, v⟩ := e
      simp only [FMap.lookupL] at hn
      by_cases ha : a = nk
      · subst ha
        simp only [if_true, Option.some.injEq] at hn
        subst hn
        simp [hv, FMap.lookupL]
      · rw [if_neg ha] at hn
        by_cases hav : a.version = first + i
        · have hp : a.path ≠ nk.path := by
            intro hp
            apply ha
            cases a; cases nk
            simp_all
          simp [hav, FMap.lookupL, hp, ih hn]
        · simp [hav, ih hn]

/-- The hypotheses of C51 can be met for every batch: by the hashes of its nodes. -/
example (H : Hasher D) (v0 next : Version) (ops : List Op) (s : Store D) (h : Reached H v0 ops s next) (m : Bool)
    (sets : List (List (Key × Value))) (hs : Startable v0 (commitsOf ops ++ sets.map (.batch m))) :
    ∃ roots b, Tree.batchPutValueSets H m s.reader sets (some (hashesOf H b next sets.length)) next = .ok (roots, b) ∧
      Tree.batchPutValueSets H m s.reader sets none next = .ok (roots, b) := by
  obtain ⟨roots, b, _, hb, _⟩ := C10_batch_roots_partial H v0 next ops s h m m sets hs
  exact ⟨roots, b, C51_supplied_hashes H v0 next ops s h m sets hs roots b hb _ (by simp [hashesOf])
    (suppliedHashes_hashesOf H b next _), hb⟩

/-- Supplied hashes that are right, though some may be missing: no node of a round has another hash than the one supplied for its path. -/
def SomeHashes (H : Hasher D) (b : TreeUpdateBatch D) (first : Version) (hashes : List (Tree.HashCache D)) : Prop :=
  ∀ i hc, hashes[i]? = some hc → ∀ nk n d, b.nodeBatch.nodes.get nk = some n → nk.version = first + i → nk.path ≠ [] →
    hc.get nk.path = some d → d = n.hash H

/-- **C51.** If some of the hashes are missing, the result is the same or the call panics; it is never another one. -/
theorem C51_some_hashes (H : Hasher D) (v0 next : Version) (ops : List Op) (s : Store D) (h : Reached H v0 ops s next) (m : Bool)
    (sets : List (List (Key × Value))) (hs : Startable v0 (commitsOf ops ++ sets.map (.batch m))) (roots : List D) (b : TreeUpdateBatch D)
    (hb : Tree.batchPutValueSets H m s.reader sets none next = .ok (roots, b)) (hashes : List (Tree.HashCache D))
    (hl : hashes.length = sets.length) (hr : SomeHashes H b next hashes) :
    Tree.batchPutValueSets H m s.reader sets (some hashes) next = .ok (roots, b) ∨
      Tree.batchPutValueSets H m s.reader sets (some hashes) next = .error (.panic "can not be found in hash cache") := by
  obtain ⟨rfl, hi⟩ := h.inv
  exact (batchPutValueSets_partly hi m sets hs.resumable hb hl hr).1

/-- **C51.** It does panic if, in a round after which there are two keys or more, the hash is missing of a child of the root with a changed key
below it. -/
theorem C51_missing_hash (H : Hasher D) (v0 next : Version) (ops : List Op) (s : Store D) (h : Reached H v0 ops s next) (m : Bool)
    (sets : List (List (Key × Value))) (hs : Startable v0 (commitsOf ops ++ sets.map (.batch m))) (roots : List D) (b : TreeUpdateBatch D)
    (hb : Tree.batchPutValueSets H m s.reader sets none next = .ok (roots, b)) (hashes : List (Tree.HashCache D))
    (hl : hashes.length = sets.length) (hr : SomeHashes H b next hashes) (i : Nat) (hc : Tree.HashCache D) (hi : hashes[i]? = some hc)
    (st : List (Key × Value)) (hst : sets[i]? = some st) (k : Key) (x : Value) (hk : (k, x) ∈ st) (hmiss : hc.get [k.nibble 0] = none)
    (a a' : Key) (hne : a ≠ a') (ha : (contentsAt v0 (ops ++ [.batch m sets]) (next + i) a).isSome = true)
    (ha' : (contentsAt v0 (ops ++ [.batch m sets]) (next + i) a').isSome = true) :
    Tree.batchPutValueSets H m s.reader sets (some hashes) next = .error (.panic "can not be found in hash cache") := by
  obtain ⟨rfl, hinv⟩ := h.inv
  obtain ⟨h1, h2⟩ := batchPutValueSets_partly hinv m sets hs.resumable hb hl hr
  rcases h1 with h1 | h1
  · exfalso
    rcases h2 _ h1 i hc st hi hst with h3 | h3
    · have hh := (holding_treeAt H v0 (commitsOf ops ++ sets.map (.batch m)) (v0 + (commitsOf ops).length + i)).lists
      have hcon : contents (((commitsOf ops ++ sets.map (Commit.batch m)).take (v0 + (commitsOf ops).length + i + 1 - v0)).map Commit.updates) =
          contentsAt v0 (ops ++ [.batch m sets]) (v0 + (commitsOf ops).length + i) := by
        rw [contentsAt, List.map_take]
        simp [commitsOf, Op.commits]
      rw [hcon] at hh
      obtain ⟨y, hy⟩ := Option.isSome_iff_exists.1 ha
      obtain ⟨y', hy'⟩ := Option.isSome_iff_exists.1 ha'
      have m1 := (hh.2 a (H.value y)).2 (by rw [hy]; rfl)
      have m2 := (hh.2 a' (H.value y')).2 (by rw [hy']; rfl)
      generalize treeAt H v0 (commitsOf ops ++ sets.map (.batch m)) (v0 + (commitsOf ops).length + i) = t at h3 m1 m2
      cases t with
      | empty => cases h3
      | node => cases h3
      | leaf v k' d =>
        simp only [VTree.entries, List.mem_singleton, Prod.mk.injEq] at m1 m2
        exact hne (m1.1.trans m2.1.symm)
    · have := h3 _ hk
      rw [hmiss] at this
      cases this
  · exact h1

/-- Two keys in different subtrees of the root, and hashes for these subtrees. -/
def exHashed : List (List (Key × Value)) := [[(key 1 1, [1]), (key 0xF0 0, [2])]]

/-- The hash of the empty tree for both subtrees. -/
def wrongHashes : List (Tree.HashCache Term) := [⟨[([0], .placeholder), ([15], .placeholder)]⟩]

example : Tree.batchPutValueSets termHasher true (Store.empty : Store Term).reader exHashed (some [⟨[]⟩]) 0 =
    .error (.panic "can not be found in hash cache") := by
  obtain ⟨roots, b, _, hb, _⟩ := C10_batch_roots_partial termHasher 0 0 [] Store.empty ⟨⟨.inl rfl, by simp [commitsOf]⟩, rfl⟩ true true exHashed
    ⟨.inl rfl, by simp [commitsOf, exHashed]⟩
  refine C51_missing_hash termHasher 0 0 [] Store.empty ⟨⟨.inl rfl, by simp [commitsOf]⟩, rfl⟩ true exHashed ⟨.inl rfl, by simp [commitsOf, exHashed]⟩ roots b hb [⟨[]⟩] rfl ?_ 0
    ⟨[]⟩ rfl _ rfl (key 1 1) [1] (by simp) rfl (key 1 1) (key 0xF0 0) (by decide) (by decide +kernel) (by decide +kernel)
  intro i hc hi nk n d _ _ _ hd
  match i, hi with
  | 0, hi => cases hi; cases hd

/-- Supplied hashes are not checked: with a wrong hash the call succeeds and returns a wrong root hash. -/
theorem C51_wrong_hash_false :
    ∃ (s : Store Term) (sets : List (List (Key × Value))) (hashes : List (Tree.HashCache Term)) (r r' : List Term) (b b' : TreeUpdateBatch Term),
      Reached termHasher 0 [] s 0 ∧ Tree.batchPutValueSets termHasher true s.reader sets none 0 = .ok (r, b) ∧
      Tree.batchPutValueSets termHasher true s.reader sets (some hashes) 0 = .ok (r', b') ∧ r ≠ r' := by
  have h1 : (Tree.batchPutValueSets termHasher true (Store.empty : Store Term).reader exHashed none 0).toOption.map Prod.fst ≠
      (Tree.batchPutValueSets termHasher true (Store.empty : Store Term).reader exHashed (some wrongHashes) 0).toOption.map Prod.fst := by
    decide +kernel
  have h2 : (Tree.batchPutValueSets termHasher true (Store.empty : Store Term).reader exHashed none 0).isOk = true := by decide +kernel
  have h3 : (Tree.batchPutValueSets termHasher true (Store.empty : Store Term).reader exHashed (some wrongHashes) 0).isOk = true := by decide +kernel
  cases e : Tree.batchPutValueSets termHasher true (Store.empty : Store Term).reader exHashed none 0 with
  | error => rw [e] at h2; cases h2
  | ok x =>
    cases e' : Tree.batchPutValueSets termHasher true (Store.empty : Store Term).reader exHashed (some wrongHashes) 0 with
    | error => rw [e'] at h3; cases h3
    | ok y =>
      rw [e, e'] at h1
      exact ⟨_, exHashed, wrongHashes, x.1, y.1, x.2, y.2, ⟨⟨.inl rfl, by simp [commitsOf]⟩, rfl⟩, e, e', fun h => h1 (by simp [Except.toOption, h])⟩

end Verif.Props
