import Verif.Props.Examples
/-! Properties C01, C02, C03, C04, C07, C08, C15, C18, C34: the versioned tree as an authenticated map. -/

set_option autoImplicit false

namespace Verif.Props
open Verif Verif.Jmt Verif.Spec
variable {D : Type}

/-! ### C08 -/

/-- **C08.** Every sequence of updates (any value sets, any grouping into batches) and prunings succeeds: no error, no
failed assertion, in computing the updates as well as in writing them. -/
theorem C08_updates_succeed (H : Hasher D) (v0 : Version) (ops : List Op) (hs : Startable v0 (commitsOf ops)) :
    ∃ s, runOps H ops (Store.empty, v0) = .ok (s, v0 + (commitsOf ops).length) := by
  obtain ⟨s, h⟩ := Reached.exists H hs
  exact ⟨s, h.run⟩

/-- **C08**, one step: on a store reached by any run the next call of `put_value_sets` succeeds and so does writing its batch. -/
theorem C08_next_update (H : Hasher D) (v0 next : Version) (ops : List Op) (s : Store D) (h : Reached H v0 ops s next) (m : Bool)
    (sets : List Tree.ValueSet) (hs : Startable v0 (commitsOf ops ++ sets.map (.seq m))) :
    ∃ roots b s', Tree.putValueSets H m s.reader sets next = .ok (roots, b) ∧ s.writeTreeUpdateBatch b = .ok s' := by
  obtain ⟨rfl, hi⟩ := h.inv
  obtain ⟨roots, b, e1, e2⟩ := putValueSets_spec hi m sets hs
  obtain ⟨s', e3, _⟩ := hi.write e2
  exact ⟨roots, b, s', e1, e3⟩

example : ∃ s, runOps termHasher exOps (Store.empty, 0) = .ok (s, 3) := C08_updates_succeed termHasher 0 exOps exOps_startable

/-! ### C01 -/

/-- **C01.** The root hash of every readable version is the sparse Merkle root of the contents of that version. -/
theorem C01_root_hash (H : Hasher D) (v0 next : Version) (ops : List Op) (s : Store D) (h : Reached H v0 ops s next) (v : Version)
    (hv : Readable v0 ops v) (L : List (Key × D)) (hL : Lists H (contentsAt v0 ops v) L) :
    Tree.getRootHash H s.reader v = .ok (smtRoot H L) := by
  have hf := h.facts hv
  rw [hf.getRootHash, hf.hash hL]

/-- **C01**, `get_root_hash_option`: the same hash for a readable version, and `None` exactly where `get_root_hash` is an error; in particular
for every version that was not written. -/
theorem C01_root_hash_option (H : Hasher D) (v0 next : Version) (ops : List Op) (s : Store D) (h : Reached H v0 ops s next) (v : Version) :
    (Readable v0 ops v → ∀ L, Lists H (contentsAt v0 ops v) L → Tree.getRootHashOption H s.reader v = some (smtRoot H L)) ∧
    (v < v0 ∨ next ≤ v → Tree.getRootHashOption H s.reader v = none) ∧
    (Tree.getRootHashOption H s.reader v = none ↔ ∃ m, Tree.getRootHash H s.reader v = .error (.err m)) ∧
    ∀ d, Tree.getRootHashOption H s.reader v = some d ↔ Tree.getRootHash H s.reader v = .ok d := by
  have hs : ∀ d, Tree.getRootHashOption H s.reader v = some d ↔ Tree.getRootHash H s.reader v = .ok d := by
    intro d
    unfold Tree.getRootHashOption Tree.getRootHash Tree.getRootNode
    cases s.reader.getNodeOption (.newEmptyPath v) with
    | none => exact ⟨fun e => (by cases e), fun e => (by cases e)⟩
    | some n => exact ⟨fun e => (by cases e; rfl), fun e => (by cases e; rfl)⟩
  refine ⟨fun hv L hL => (hs _).2 (C01_root_hash H v0 next ops s h v hv L hL), fun hv => ?_, ?_, hs⟩
  · obtain ⟨rfl, hi⟩ := h.inv
    unfold Tree.getRootHashOption
    cases hh : s.reader.getNodeOption (.newEmptyPath v) with
    | none => rfl
    | some n =>
      have := hi.inv.dom _ _ _ hh
      omega
  · unfold Tree.getRootHashOption Tree.getRootHash Tree.getRootNode
    cases s.reader.getNodeOption (.newEmptyPath v) with
    | none => exact ⟨fun _ => ⟨_, rfl⟩, fun _ => rfl⟩
    | some n => exact ⟨fun e => (by cases e), fun ⟨_, e⟩ => (by cases e)⟩

example : ∃ s, Reached termHasher 0 exOps s 3 ∧ Tree.getRootHashOption termHasher s.reader 3 = none ∧
    ∃ d, Tree.getRootHashOption termHasher s.reader 1 = some d := by
  obtain ⟨s, h⟩ := exOps_reached
  refine ⟨s, h, (C01_root_hash_option _ _ _ _ _ h 3).2.1 (.inr (by decide)), ?_⟩
  exact ⟨_, ((C01_root_hash_option _ _ _ _ _ h 1).2.2.2 _).2 (h.facts exOps_readable1).getRootHash⟩

/-- **C01**, returned hashes: `put_value_sets` returns one root hash per value set, each the sparse Merkle root of the
contents after that set. -/
theorem C01_returned_roots (H : Hasher D) (v0 next : Version) (ops : List Op) (s : Store D) (h : Reached H v0 ops s next) (m : Bool)
    (sets : List Tree.ValueSet) (hs : Startable v0 (commitsOf ops ++ sets.map (.seq m))) (roots : List D) (b : TreeUpdateBatch D)
    (hr : Tree.putValueSets H m s.reader sets next = .ok (roots, b)) :
    roots.length = sets.length ∧
    ∀ i, i < sets.length → ∀ L, Lists H (contents ((commitsOf ops).map Commit.updates ++ sets.take (i + 1))) L →
      roots[i]? = some (smtRoot H L) := by
  obtain ⟨rfl, hi⟩ := h.inv
  obtain ⟨roots', b', e1, e2⟩ := putValueSets_spec hi m sets hs
  rw [e1] at hr
  cases hr
  refine ⟨by rw [e2.roots]; simp, ?_⟩
  intro i hi L hL
  rw [e2.roots, List.getElem?_map, List.getElem?_range (by simpa using hi)]
  have hh := holding_treeAt H v0 (commitsOf ops ++ sets.map (.seq m)) (v0 + (commitsOf ops).length + i)
  have : ((commitsOf ops ++ sets.map (Commit.seq m)).take (v0 + (commitsOf ops).length + i + 1 - v0)).map Commit.updates =
      (commitsOf ops).map Commit.updates ++ sets.take (i + 1) := by
    rw [show v0 + (commitsOf ops).length + i + 1 - v0 = (commitsOf ops).length + (i + 1) by omega, List.take_length_add_append,
      List.map_append, ← List.map_take, List.map_map]
    congr 1
    exact List.map_id _
  rw [this] at hh
  simp only [Option.map_some]
  rw [VTree.hash_eq_smt H hh.1]
  exact congrArg some (smt_perm H 256 (lists_perm hh.lists hL))

/-- **C01**, `put_value_set`. -/
theorem C01_returned_root (H : Hasher D) (v0 next : Version) (ops : List Op) (s : Store D) (h : Reached H v0 ops s next) (m : Bool)
    (set : Tree.ValueSet) (hs : Startable v0 (commitsOf ops ++ [.seq m set])) (L : List (Key × D))
    (hL : Lists H (applyUpdates (contents ((commitsOf ops).map Commit.updates)) set) L) :
    ∃ b, Tree.putValueSet H m s.reader set next = .ok (smtRoot H L, b) := by
  obtain ⟨rfl, hi⟩ := h.inv
  obtain ⟨roots, b, e1, e2⟩ := putValueSets_spec hi m [set] hs
  obtain ⟨h1, h2⟩ := C01_returned_roots H v0 _ ops s h m [set] hs roots b e1
  have h3 := h2 0 (by simp) L (by rw [List.take_of_length_le (by simp), contents_snoc]; exact hL)
  refine ⟨b, ?_⟩
  match roots, h1, h3 with
  | [r], _, h3 =>
    simp only [List.getElem?_cons_zero, Option.some.injEq] at h3
    subst h3
    unfold Tree.putValueSet
    rw [e1]; rfl

/-- The hypothesis `Lists` of C01 can always be met. -/
theorem C01_lists_exist (H : Hasher D) (v0 : Version) (ops : List Op) (v : Version) : ∃ L, Lists H (contentsAt v0 ops v) L :=
  lists_exists H _

example : ∃ s L, Reached termHasher 0 exOps s 3 ∧ Lists termHasher (contentsAt 0 exOps 1) L ∧
    Tree.getRootHash termHasher s.reader 1 = .ok (smtRoot termHasher L) := by
  obtain ⟨s, h⟩ := exOps_reached
  obtain ⟨L, hL⟩ := C01_lists_exist termHasher 0 exOps 1
  exact ⟨s, L, h, hL, C01_root_hash _ _ _ _ _ h _ exOps_readable1 _ hL⟩

/-! ### C02 -/

/-- **C02.** Two runs, however different, that lead to the same map at versions `v` and `v'` have the same root hash there. -/
theorem C02_history_independent (H : Hasher D) (v0 v0' next next' : Version) (ops ops' : List Op) (s s' : Store D)
    (h : Reached H v0 ops s next) (h' : Reached H v0' ops' s' next') (v v' : Version) (hv : Readable v0 ops v) (hv' : Readable v0' ops' v')
    (heq : ∀ k, contentsAt v0 ops v k = contentsAt v0' ops' v' k) :
    ∃ r, Tree.getRootHash H s.reader v = .ok r ∧ Tree.getRootHash H s'.reader v' = .ok r := by
  obtain ⟨L, hL⟩ := C01_lists_exist H v0 ops v
  refine ⟨_, C01_root_hash H v0 next ops s h v hv L hL, C01_root_hash H v0' next' ops' s' h' v' hv' L ?_⟩
  rw [← funext heq]; exact hL

/-- Another run with the contents of version 1 of `exOps`. -/
def exOps' : List Op :=
  [.update false [[(key 0x80 0, some [5])]], .update true [[(key 1 2, some [7]), (key 0xF0 0, some [3])]]]

example : ∃ s s' r, Reached termHasher 0 exOps s 3 ∧ Reached termHasher 5 exOps' s' 7 ∧
    Tree.getRootHash termHasher s.reader 1 = .ok r ∧ Tree.getRootHash termHasher s'.reader 6 = .ok r := by
  obtain ⟨s, h⟩ := exOps_reached
  obtain ⟨s', h'⟩ := Reached.exists termHasher (v0 := 5) (ops := exOps') ⟨.inr (by
    intro c hc
    cases hc
    exact ⟨by simp, key 0x80 0, [5], by decide +kernel⟩), by simp [exOps', commitsOf, Op.commits]⟩
  obtain ⟨r, e⟩ := C02_history_independent _ _ _ _ _ _ _ _ _ h h' 1 6 exOps_readable1 ⟨by decide, by decide, .inr rfl⟩ (by
    intro k
    have e1 : contentsAt 0 exOps 1 = fun k => if k = key 0x80 0 then some [5] else if k = key 0x80 0 then some [4] else
        if k = key 1 2 then some [7] else if k = key 1 1 then none else if k = key 0xF0 0 then some [3] else
        if k = key 1 2 then some [2] else if k = key 1 1 then some [1] else none := rfl
    have e2 : contentsAt 5 exOps' 6 = fun k => if k = key 0xF0 0 then some [3] else if k = key 1 2 then some [7] else
        if k = key 0x80 0 then some [5] else none := rfl
    rw [e1, e2]
    simp only
    by_cases h1 : k = key 0xF0 0
    · subst h1; decide +kernel
    by_cases h2 : k = key 1 2
    · subst h2; decide +kernel
    by_cases h3 : k = key 0x80 0
    · subst h3; decide +kernel
    simp [h1, h2, h3])
  exact ⟨s, s', r, h, h', e⟩

/-! ### C03, C18 -/

/-- **C03.** Every readable version gives, for every key, exactly the value the map had after that version, no matter what
was committed or pruned afterwards. -/
theorem C03_versions_readable (H : Hasher D) (v0 next : Version) (ops : List Op) (s : Store D) (h : Reached H v0 ops s next) (v : Version)
    (hv : Readable v0 ops v) (k : Key) :
    ∃ proof, Tree.getWithProof H s.reader k v = .ok (contentsAt v0 ops v k, proof) :=
  ⟨_, (h.facts hv).getWithProof k⟩

/-- **C03**, immutability: more operations do not change what a version that stays readable returns (value and proof). -/
theorem C03_versions_immutable (H : Hasher D) (v0 next next' : Version) (ops more : List Op) (s s' : Store D)
    (h : Reached H v0 ops s next) (h' : Reached H v0 (ops ++ more) s' next') (v : Version)
    (hv : Readable v0 ops v) (hv' : Readable v0 (ops ++ more) v) (k : Key) :
    Tree.getWithProof H s'.reader k v = Tree.getWithProof H s.reader k v ∧
    Tree.getRootHash H s'.reader v = Tree.getRootHash H s.reader v := by
  have e : contentsAt v0 (ops ++ more) v = contentsAt v0 ops v := by
    unfold contentsAt
    have : commitsOf (ops ++ more) = commitsOf ops ++ commitsOf more := by simp [commitsOf]
    rw [this, List.map_append, List.take_append_of_le_length]
    simp only [List.length_map]
    have := hv.lt
    omega
  have f := h.facts hv
  have f' := h'.facts hv'
  rw [e] at f'
  rw [f.getWithProof, f'.getWithProof, f.getRootHash, f'.getRootHash, f'.path f.hold.lists k, f'.hash f.hold.lists,
    f.hash f.hold.lists]
  exact ⟨rfl, rfl⟩

/-- **C18.** Reading the value history directly agrees with the proved read. -/
theorem C18_get_agrees (H : Hasher D) (v0 next : Version) (ops : List Op) (s : Store D) (h : Reached H v0 ops s next) (v : Version)
    (hv : Readable v0 ops v) (k : Key) :
    ∃ proof, Tree.getWithProof H s.reader k v = .ok (Tree.get s.reader k v, proof) := by
  have hf := h.facts hv
  rw [Tree.get, hf.value k]
  exact ⟨_, hf.getWithProof k⟩

example : ∃ s proof, Reached termHasher 0 exOps s 3 ∧ Tree.getWithProof termHasher s.reader (key 0x80 0) 1 = .ok (some [5], proof) ∧
    Tree.get s.reader (key 0x80 0) 1 = some [5] := by
  obtain ⟨s, h⟩ := exOps_reached
  obtain ⟨p, e⟩ := C03_versions_readable _ _ _ _ _ h _ exOps_readable1 (key 0x80 0)
  obtain ⟨p', e'⟩ := C18_get_agrees _ _ _ _ _ h _ exOps_readable1 (key 0x80 0)
  have hc : contentsAt 0 exOps 1 (key 0x80 0) = some [5] := by decide +kernel
  rw [hc] at e
  refine ⟨s, p, h, e, ?_⟩
  rw [e] at e'
  simp only [Except.ok.injEq, Prod.mk.injEq] at e'
  exact e'.1.symm

/-! ### C04 -/

/-- **C04.** The proof returned with a value verifies against the root hash of the version: as inclusion proof of the value,
or as non-inclusion proof when there is none. -/
theorem C04_proofs_verify (H : Hasher D) [DecidableEq D] (v0 next : Version) (ops : List Op) (s : Store D) (h : Reached H v0 ops s next)
    (v : Version) (hv : Readable v0 ops v) (k : Key) :
    ∃ value proof root, Tree.getWithProof H s.reader k v = .ok (value, proof) ∧ Tree.getRootHash H s.reader v = .ok root ∧
      proof.verify H root k value = .ok () := by
  have hf := h.facts hv
  refine ⟨_, _, _, hf.getWithProof k, hf.getRootHash, ?_⟩
  exact proofOf_verify H hf.hold k

example : ∃ s value proof root, Reached termHasher 0 exOps s 3 ∧ Tree.getWithProof termHasher s.reader (key 1 1) 1 = .ok (value, proof) ∧
    Tree.getRootHash termHasher s.reader 1 = .ok root ∧ proof.verify termHasher root (key 1 1) value = .ok () := by
  obtain ⟨s, h⟩ := exOps_reached
  obtain ⟨a, b, c, e⟩ := C04_proofs_verify _ _ _ _ _ h _ exOps_readable1 (key 1 1)
  exact ⟨s, a, b, c, h, e⟩

/-- **C04**, `root_hash` of a proof: the returned inclusion proofs compute the root hash of the version themselves. For any proof, an
inclusion is verified exactly when the leaf is the one of the key and the value and `root_hash` is the expected root. -/
theorem C04_root_hash (H : Hasher D) [DecidableEq D] (p : SparseMerkleProof D) (root : D) (k : Key) (value : Value) :
    p.verify H root k (some value) = .ok () ↔ p.leaf = some ⟨k, H.value value⟩ ∧ p.rootHash H = .ok root := by
  obtain ⟨leaf, sibs⟩ := p
  unfold SparseMerkleProof.verify SparseMerkleProof.checkLeaf SparseMerkleProof.rootHash
  cases leaf with
  | none =>
    by_cases h : sibs.length ≤ 256 <;> simp [h, ensure, bind, Except.bind]
  | some l =>
    obtain ⟨lk, lv⟩ := l
    by_cases h : sibs.length ≤ 256
    · by_cases h1 : k = lk
      · by_cases h2 : H.value value = lv
        · subst h1; subst h2
          have he : ∀ (P : Prop) [Decidable P] (m : String), ensure (decide P) m = .ok () ↔ P := by
            intro P _ m
            by_cases hP : P <;> simp [ensure, hP]
          simp only [h, decide_true, ensure_true, Res.ok_bind, SparseMerkleProof.startHash, if_true, true_and, Except.ok.injEq]
          exact he _ _
        · simp [h, h1, h2, ensure, bind, Except.bind, Ne.symm h2]
      · simp [h, h1, ensure, bind, Except.bind, Ne.symm h1]
    · simp [h, ensure, bind, Except.bind]

/-- **C04**, `root_hash` on what the tree returns: the root hash of the version when the key is present. -/
theorem C04_returned_root_hash (H : Hasher D) [DecidableEq D] (v0 next : Version) (ops : List Op) (s : Store D) (h : Reached H v0 ops s next)
    (v : Version) (hv : Readable v0 ops v) (k : Key) (value : Value) (hk : contentsAt v0 ops v k = some value) :
    ∃ proof root, Tree.getWithProof H s.reader k v = .ok (some value, proof) ∧ Tree.getRootHash H s.reader v = .ok root ∧
      proof.rootHash H = .ok root := by
  have hf := h.facts hv
  have h1 := hf.getWithProof k
  have h2 := proofOf_verify H hf.hold k
  rw [hk] at h1 h2
  exact ⟨_, _, h1, hf.getRootHash, ((C04_root_hash H _ _ k value).1 h2).2⟩

example : ∃ s proof root, Reached termHasher 0 exOps s 3 ∧ Tree.getWithProof termHasher s.reader (key 1 2) 1 = .ok (some [7], proof) ∧
    Tree.getRootHash termHasher s.reader 1 = .ok root ∧ proof.rootHash termHasher = .ok root := by
  obtain ⟨s, h⟩ := exOps_reached
  obtain ⟨b, c, e⟩ := C04_returned_root_hash _ _ _ _ _ h _ exOps_readable1 (key 1 2) [7] (by decide +kernel)
  exact ⟨s, b, c, h, e⟩

/-- **C04**: without a leaf `root_hash` panics, so it cannot be asked of the proof of absence from an empty subtree. -/
theorem C04_root_hash_panics (H : Hasher D) (p : SparseMerkleProof D) (hp : p.leaf = none) : ∃ m, p.rootHash H = .error (.panic m) := by
  unfold SparseMerkleProof.rootHash
  rw [hp]
  exact ⟨_, rfl⟩

/-! ### C15 -/

/-- **C15.** The leaf count of every readable version is the number of keys it holds. -/
theorem C15_leaf_count (H : Hasher D) (v0 next : Version) (ops : List Op) (s : Store D) (h : Reached H v0 ops s next) (v : Version)
    (hv : Readable v0 ops v) (keys : List Key) (hn : keys.Nodup) (hk : ∀ k, k ∈ keys ↔ (contentsAt v0 ops v k).isSome = true) :
    Tree.getLeafCount true s.reader v = .ok (some keys.length) := by
  have hf := h.facts hv
  have hL := hf.hold.lists
  have hp : (((VTree.entries (treeAt H v0 (commitsOf ops) v)).map Prod.fst)).Perm keys := by
    rw [List.perm_ext_iff_of_nodup hL.1 hn]
    intro k
    rw [hk, List.mem_map]
    constructor
    · rintro ⟨⟨k', d⟩, hm, rfl⟩
      have := (hL.2 k' d).1 hm
      simp only
      cases hc : contentsAt v0 ops v k' with
      | none => rw [hc] at this; cases this
      | some x => rfl
    · intro hs
      obtain ⟨x, hx⟩ := Option.isSome_iff_exists.1 hs
      exact ⟨(k, H.value x), (hL.2 k _).2 (by rw [hx]; rfl), rfl⟩
  rw [hf.getLeafCount hL, ← hp.length_eq, List.length_map]

example : ∃ s, Reached termHasher 0 exOps s 3 ∧ Tree.getLeafCount true s.reader 1 = .ok (some 3) := by
  obtain ⟨s, h⟩ := exOps_reached
  refine ⟨s, h, C15_leaf_count _ _ _ _ _ h _ exOps_readable1 [key 0x80 0, key 1 2, key 0xF0 0] (by decide +kernel) ?_⟩
  intro k
  have e1 : contentsAt 0 exOps 1 = fun k => if k = key 0x80 0 then some [5] else if k = key 0x80 0 then some [4] else
      if k = key 1 2 then some [7] else if k = key 1 1 then none else if k = key 0xF0 0 then some [3] else
      if k = key 1 2 then some [2] else if k = key 1 1 then some [1] else none := rfl
  rw [e1]
  simp only [List.mem_cons, List.not_mem_nil, or_false]
  by_cases h1 : k = key 0xF0 0
  · subst h1; decide +kernel
  by_cases h2 : k = key 1 2
  · subst h2; decide +kernel
  by_cases h3 : k = key 0x80 0
  · subst h3; decide +kernel
  by_cases h4 : k = key 1 1
  · subst h4; decide +kernel
  simp [h1, h2, h3, h4]

/-! ### C34 -/

/-- **C34.** Committing a value set that changes nothing gives a readable version with the same root hash, values and proofs as
the version before. Partial: a first version above 0 is left out, of which this is false (`C34_first_version_false`). -/
theorem C34_noop_update_partial (H : Hasher D) (v0 next : Version) (ops : List Op) (s : Store D) (h : Reached H v0 ops s next) (m : Bool)
    (set : Tree.ValueSet) (hne : v0 < next)
    (hnoop : ∀ k, applyUpdates (contents ((commitsOf ops).map Commit.updates)) set k = contents ((commitsOf ops).map Commit.updates) k) :
    ∃ s', runOps H [.update m [set]] (s, next) = .ok (s', next + 1) ∧
      (∃ r, Tree.getRootHash H s'.reader next = .ok r ∧ Tree.getRootHash H s'.reader (next - 1) = .ok r) ∧
      ∀ k, (∃ x, Tree.getWithProof H s'.reader k next = .ok x) ∧
        Tree.getWithProof H s'.reader k next = Tree.getWithProof H s'.reader k (next - 1) := by
  obtain ⟨rfl, hi⟩ := h.inv
  have hlen : (commitsOf ops).length ≠ 0 := by omega
  obtain ⟨s', e1, e2⟩ := runOps_spec [.update m [set]] hi (by
    refine ⟨?_, fun m' s' hm => h.startable.batches m' s' (by simpa [commitsOf, Op.commits] using hm)⟩
    rcases h.startable.first with h0 | h0
    · exact .inl h0
    · right
      intro c hc
      apply h0
      cases hco : commitsOf ops with
      | nil => simp [hco] at hlen
      | cons a l => rw [hco] at hc; exact hc)
  have hlo := hi.inv.loLt
  have hcm : commitsOf [Op.update m [set]] = [.seq m set] := rfl
  rw [hcm] at e1 e2
  have f1 := e2.facts (v := v0 + (commitsOf ops).length - 1) (by simp only [floorOf]; omega) (by simp; omega)
  have f2 := e2.facts (v := v0 + (commitsOf ops).length) (by simp only [floorOf]; omega) (by simp)
  rw [List.take_append_of_le_length (by omega), List.take_of_length_le (by omega)] at f1
  rw [List.take_of_length_le (by simp; omega), List.map_append, List.map_singleton, contents_snoc] at f2
  have : applyUpdates (contents ((commitsOf ops).map Commit.updates)) (Commit.seq m set).updates =
      contents ((commitsOf ops).map Commit.updates) := funext hnoop
  rw [this] at f2
  refine ⟨s', by rw [e1]; simp; omega, ⟨_, f2.getRootHash, ?_⟩, ?_⟩
  · rw [f1.getRootHash, f2.hash f1.hold.lists, f1.hash f1.hold.lists]
  · intro k
    refine ⟨⟨_, f2.getWithProof k⟩, ?_⟩
    rw [f2.getWithProof, f1.getWithProof, f2.path f1.hold.lists k]

/-- **C34**, the very first version when it is version 0: it is readable and empty. -/
theorem C34_noop_first (H : Hasher D) (m : Bool) (set : Tree.ValueSet) (hnoop : ∀ k, applyUpdates (fun _ => none) set k = none) :
    ∃ s', runOps H [.update m [set]] (Store.empty, 0) = .ok (s', 1) ∧
      Tree.getRootHash H s'.reader 0 = .ok H.placeholder ∧
      ∀ k, Tree.getWithProof H s'.reader k 0 = .ok (none, ⟨none, []⟩) := by
  obtain ⟨s', h⟩ := Reached.exists H (v0 := 0) (ops := [.update m [set]]) ⟨.inl rfl, by simp [commitsOf, Op.commits]⟩
  have hf := h.facts (v := 0) ⟨by omega, Nat.zero_lt_one, .inr rfl⟩
  have e : contentsAt 0 [.update m [set]] 0 = fun _ => none := funext hnoop
  rw [e] at hf
  have hL : Lists H (fun _ => none) ([] : List (Key × D)) := by
    refine ⟨by simp, ?_⟩
    intro k h; simp
  refine ⟨s', h.run, ?_, ?_⟩
  · rw [hf.getRootHash, hf.hash hL]; rfl
  · intro k
    rw [hf.getWithProof, hf.path hL]; rfl

/-- Finding J3: for a first version above 0 the claim of C34 is false. The empty set committed at version 1 of an empty store
reports success, yet version 1 has no root: reading it is an error. -/
theorem C34_first_version_false :
    ∃ s', runOps termHasher [.update true [[]]] (Store.empty, 1) = .ok (s', 2) ∧
      (Tree.getRootHash termHasher s'.reader 1).isOk = false ∧
      (Tree.getWithProof termHasher s'.reader (key 0 0) 1).isOk = false := by
  have : ((runOps termHasher [.update true [[]]] (Store.empty, 1)).map (fun x =>
      (x.2, (Tree.getRootHash termHasher x.1.reader 1).isOk, (Tree.getWithProof termHasher x.1.reader (key 0 0) 1).isOk))) =
      .ok (2, false, false) := by decide +kernel
  cases hr : runOps termHasher [.update true [[]]] (Store.empty, 1) with
  | error e => rw [hr] at this; cases this
  | ok x =>
    rw [hr] at this
    obtain ⟨s, n⟩ := x
    simp only [Except.map, Except.ok.injEq, Prod.mk.injEq] at this
    obtain ⟨rfl, h1, h2⟩ := this
    exact ⟨s, rfl, h1, h2⟩

example : ∃ s, Reached termHasher 0 exOps s 3 ∧
    ∀ k, applyUpdates (contents ((commitsOf exOps).map Commit.updates)) [(key 7 7, none)] k = contents ((commitsOf exOps).map Commit.updates) k := by
  obtain ⟨s, h⟩ := exOps_reached
  refine ⟨s, h, ?_⟩
  intro k
  by_cases hk : k = key 7 7
  · subst hk; decide +kernel
  · have : ∀ m : Key → Option Value, applyUpdates m [(key 7 7, none)] k = m k := by
      intro m
      show (if k = key 7 7 then none else m k) = m k
      rw [if_neg hk]
    exact this _

end Verif.Props
