import Verif.Props.JmtMap
import Verif.Props.Examples
import Verif.Proofs.Borsh
import Verif.Proofs.NibblePath
import Mathlib.Data.List.Flatten
/-! Property C61: the serialised form of node keys, nodes and proofs. -/

set_option autoImplicit false

namespace Verif.Props
open Verif Verif.Jmt Verif.Spec

/-- **C61**, nodes: the bytes of a node are read back as the node, and no other bytes are. -/
theorem C61_node (n : Node Key) (h : NodeFits n) (b : List UInt8) : nodeCodec.tryFromSlice b = some n ↔ b = nodeCodec.enc n := by
  rw [Codec.tryFromSlice_some nodeCodec_law]
  simp [h]

/-- Whatever is read has numbers within their types, so that the hypothesis of `C61_node` excludes nothing. -/
theorem C61_node_fits (b : List UInt8) (n : Node Key) (h : nodeCodec.tryFromSlice b = some n) : NodeFits n :=
  ((Codec.tryFromSlice_some nodeCodec_law b n).1 h).1

/-- **C61**, stale node indices. -/
theorem C61_stale (v w : Version) (p : NibblePath) (hv : v < 2 ^ 64) (hw : w < 2 ^ 64) (hp : PathFits p) (b : List UInt8) :
    staleCodec.tryFromSlice b = some (v, w, p) ↔ b = staleCodec.enc (v, w, p) := by
  rw [Codec.tryFromSlice_some staleCodec_law]
  simp only [hv, hw, hp, true_and]

/-- **C61**, proofs: a proof read from bytes is the one that was written; so it verifies exactly when that one does. -/
theorem C61_proof (p : SparseMerkleProof Key) (h : p.siblings.length < 2 ^ 32) (b : List UInt8) :
    proofCodec.tryFromSlice b = some p ↔ b = proofCodec.enc p := by
  rw [Codec.tryFromSlice_some proofCodec_law]
  simp [h]

/-- **C61**, range proofs. -/
theorem C61_range_proof (p : SparseMerkleRangeProof Key) (h : p.rightSiblings.length < 2 ^ 32) (b : List UInt8) :
    rangeProofCodec.tryFromSlice b = some p ↔ b = rangeProofCodec.enc p := by
  rw [Codec.tryFromSlice_some rangeProofCodec_law]
  simp [h]

/-- The bytes of a node key: its version and its path, packed by pushing the nibbles. -/
def keyBytes (nk : NodeKey) : Res (List UInt8) := do
  let p ← NibblePath.fromIter nk.path
  pure (nodeKeyCodec.enc (nk.version, p))

theorem packed_fits {l : List Nibble} (h : l.length ≤ 64) : PathFits (packed l) := by
  refine ⟨?_, ?_⟩
  · show l.length < _; omega
  · show (pack l).length < _; rw [pack_length]; omega

/-- **C61**, node keys: every node key has bytes, and different node keys have different bytes. -/
theorem C61_node_key (nk nk' : NodeKey) (h : nk.path.length ≤ 64) (h' : nk'.path.length ≤ 64) (hv : nk.version < 2 ^ 64)
    (hv' : nk'.version < 2 ^ 64) :
    ∃ b b', keyBytes nk = .ok b ∧ keyBytes nk' = .ok b' ∧ (b = b' ↔ nk = nk') ∧
      ∃ p, nodeKeyCodec.tryFromSlice b = some (nk.version, p) ∧ NibblePath.fromIter nk.path = .ok p := by
  refine ⟨nodeKeyCodec.enc (nk.version, packed nk.path), nodeKeyCodec.enc (nk'.version, packed nk'.path), ?_, ?_, ?_, packed nk.path, ?_,
    fromIter_packed _ h⟩
  · simp only [keyBytes, fromIter_packed _ h, Res.ok_bind]; rfl
  · simp only [keyBytes, fromIter_packed _ h', Res.ok_bind]; rfl
  · constructor
    · intro he
      have e1 := (Codec.tryFromSlice_some nodeKeyCodec_law _ (nk.version, packed nk.path)).2 ⟨⟨hv, packed_fits h⟩, rfl⟩
      have e2 := (Codec.tryFromSlice_some nodeKeyCodec_law _ (nk'.version, packed nk'.path)).2 ⟨⟨hv', packed_fits h'⟩, rfl⟩
      rw [he, e2] at e1
      simp only [Option.some.injEq, Prod.mk.injEq, packed_inj] at e1
      cases nk; cases nk'
      simp_all
    · rintro rfl; rfl
  · exact (Codec.tryFromSlice_some nodeKeyCodec_law _ _).2 ⟨⟨hv, packed_fits h⟩, rfl⟩

/-! A database that keeps bytes. -/

/-- The nodes of a store, as a table of bytes. -/
def byteTable : List (NodeKey × Node Key) → Res (FMap (List UInt8) (List UInt8))
  | [] => .ok .empty
  | (nk, n) :: t => do
    let b ← keyBytes nk
    let m ← byteTable t
    pure (m.set b (nodeCodec.enc n))

/-- Reading a node from such a table. -/
def byteGet (m : FMap (List UInt8) (List UInt8)) (nk : NodeKey) : Res (Option (Node Key)) := do
  let b ← keyBytes nk
  pure ((m.get b).bind nodeCodec.tryFromSlice)

theorem keyBytes_ok (nk : NodeKey) (h : nk.path.length ≤ 64) : keyBytes nk = .ok (nodeKeyCodec.enc (nk.version, packed nk.path)) := by
  simp only [keyBytes, fromIter_packed _ h, Res.ok_bind]; rfl

theorem keyBytes_inj {nk nk' : NodeKey} (h : nk.path.length ≤ 64) (h' : nk'.path.length ≤ 64) (hv : nk.version < 2 ^ 64)
    (hv' : nk'.version < 2 ^ 64) (he : nodeKeyCodec.enc (nk.version, packed nk.path) = nodeKeyCodec.enc (nk'.version, packed nk'.path)) :
    nk = nk' := by
  obtain ⟨b, b', h1, h2, h3, _⟩ := C61_node_key nk nk' h h' hv hv'
  rw [keyBytes_ok nk h] at h1
  rw [keyBytes_ok nk' h'] at h2
  cases h1; cases h2
  exact h3.1 he

theorem byteTable_spec (l : List (NodeKey × Node Key)) (hl : ∀ e ∈ l, e.1.path.length ≤ 64 ∧ e.1.version < 2 ^ 64 ∧ NodeFits e.2) :
    ∃ m, byteTable l = .ok m ∧ ∀ nk : NodeKey, nk.path.length ≤ 64 → nk.version < 2 ^ 64 →
      (m.get (nodeKeyCodec.enc (nk.version, packed nk.path))).bind nodeCodec.tryFromSlice = FMap.lookupL l nk := by
  induction l with
  | nil => exact ⟨.empty, rfl, fun nk _ _ => by simp [FMap.lookupL]⟩
  | cons e t ih =>
    obtain ⟨nk, n⟩ := e
    obtain ⟨h1, h2, h3⟩ := hl (nk, n) (by simp)
    obtain ⟨m, hm, hs⟩ := ih (fun e he => hl e (by simp [he]))
    refine ⟨m.set (nodeKeyCodec.enc (nk.version, packed nk.path)) (nodeCodec.enc n), ?_, ?_⟩
    · simp only [byteTable, keyBytes_ok nk h1, hm, Res.ok_bind]; rfl
    · intro nk' g1 g2
      rw [FMap.get_set, FMap.lookupL]
      by_cases he : nk = nk'
      · subst he
        rw [if_pos rfl, if_pos rfl]
        exact (C61_node n h3 _).2 rfl
      · rw [if_neg he, if_neg (fun hb => he (keyBytes_inj g1 h1 g2 h2 hb).symm)]
        exact hs nk' g1 g2

theorem at?_fits (H : Hasher Key) (w : Version) (hw : w < 2 ^ 64) (t : VTree Key) (hl : VTree.VerLe w t) (he : t.entries.length < 2 ^ 64)
    (v : Version) (q : List Nibble) (n : Node Key) (h : t.at? H v q = some n) : NodeFits n := by
  induction t generalizing q with
  | empty => simp [VTree.at?] at h
  | leaf v' k x =>
    simp only [VTree.at?] at h
    split at h
    · cases h; trivial
    · cases h
  | node v' m ch ih =>
    have hle : ∀ i, (ch i).entries.length ≤ (VTree.node v' m ch).entries.length := by
      intro i
      have hs := (List.singleton_sublist (a := i) (l := List.finRange 16)).2 (List.mem_finRange i)
      have := (hs.flatMap (fun i => (ch i).entries)).length_le
      simpa [VTree.entries] using this
    cases q with
    | cons i q => exact ih i (hl.2 i) (Nat.lt_of_le_of_lt (hle i) he) q h
    | nil =>
      simp only [VTree.at?] at h
      split at h
      · cases h
        refine ⟨?_, ?_, ?_⟩
        · intro i c hc
          have hc : (ch i).child H = some c := hc
          have hlc := (child_leafCount H (ch i) c hc).1
          have hv := hl.2 i
          refine ⟨?_, ?_⟩
          · cases hi : ch i with
            | empty => rw [hi] at hc; cases hc
            | leaf a b d => rw [hi] at hc hv; cases hc; exact Nat.lt_of_le_of_lt hv hw
            | node a b d => rw [hi] at hc hv; cases hc; exact Nat.lt_of_le_of_lt hv.1 hw
          · intro k hk
            simp only [Child.leafCount, hk, Option.some.injEq] at hlc
            rw [hlc]
            exact Nat.lt_of_le_of_lt (hle i) he
        · show ((List.finRange 16).filterMap _).length < _
          have := List.length_filterMap_le (fun i => (ch i).child H) (List.finRange 16)
          simp only [List.length_finRange] at this
          omega
        · intro k hk
          have := toNode_leafCount H (.node v' m ch)
          rw [VTree.toNode] at this
          simp only [Node.leafCount] at this
          rw [hk] at this
          cases this
          exact he
      · cases h

theorem at?_path (H : Hasher Key) (t : VTree Key) (p : List Nibble) (hwf : VTree.WF p t) (v : Version) (q : List Nibble) (n : Node Key)
    (h : t.at? H v q = some n) : (p ++ q).length ≤ 64 := by
  induction t generalizing p q with
  | empty => simp [VTree.at?] at h
  | leaf v' k x =>
    simp only [VTree.at?] at h
    split at h
    · rename_i hq
      rw [hq.2, List.append_nil]
      exact VTree.wf_length hwf (by simp)
    · cases h
  | node v' m ch ih =>
    cases q with
    | nil => rw [List.append_nil]; exact VTree.wf_length hwf (by simp)
    | cons i q =>
      have := ih i (p ++ [i]) (hwf.1 i) q h
      simpa using this

/-- Keys and nodes of a reached store are within the types of Rust. -/
theorem reached_fits {H : Hasher Key} {v0 next : Version} {ops : List Op} {s : Store Key} (h : Reached H v0 ops s next) (hn : next ≤ 2 ^ 64)
    (hk : ∀ v, v0 ≤ v → v < next → ∃ L, Lists H (contentsAt v0 ops v) L ∧ L.length < 2 ^ 64) :
    ∀ e ∈ s.nodes.entries, e.1.path.length ≤ 64 ∧ e.1.version < 2 ^ 64 ∧ NodeFits e.2 := by
  obtain ⟨e1, e2⟩ := h.inv
  rintro ⟨⟨v, q⟩, n⟩ he
  have hg : s.nodes.get ⟨v, q⟩ = some n := FMap.get_of_mem e2.nodup he
  obtain ⟨d1, d2, d3⟩ := e2.inv.dom v q n hg
  obtain ⟨t1, t2, _⟩ := e2.inv.tree v d1 d2
  have hvn : v < next := by omega
  obtain ⟨L, hL, hlen⟩ := hk v d1 hvn
  have hh := (holding_treeAt H v0 (commitsOf ops) v).lists
  rw [List.map_take] at hh
  change Lists H (contentsAt v0 ops v) _ at hh
  have hlen' : (treeAt H v0 (commitsOf ops) v).entries.length < 2 ^ 64 := by
    rw [(lists_perm hh hL).length_eq]; exact hlen
  by_cases hemp : treeAt H v0 (commitsOf ops) v = .empty
  · rw [hemp] at d3
    simp only [VTree.stored] at d3
    split at d3
    · rename_i hq
      cases d3
      exact ⟨by simp [hq.2], by simp only; omega, trivial⟩
    · cases d3
  · rw [stored_of_ne H hemp] at d3
    refine ⟨?_, by simp only; omega, at?_fits H v (by omega) _ t2 hlen' v q n d3⟩
    simpa using at?_path H _ [] t1 v q n d3

/-- **C61**, stores: a store of fewer than 2^64 versions and, at every version, fewer than 2^64 keys can be kept as a table from bytes to
bytes: writing it succeeds, and reading any node key from the table gives what the store holds under it. -/
theorem C61_store (H : Hasher Key) (v0 next : Version) (ops : List Op) (s : Store Key) (h : Reached H v0 ops s next) (hn : next ≤ 2 ^ 64)
    (hk : ∀ v, v0 ≤ v → v < next → ∃ L, Lists H (contentsAt v0 ops v) L ∧ L.length < 2 ^ 64) :
    ∃ m, byteTable s.nodes.entries = .ok m ∧
      ∀ nk : NodeKey, nk.path.length ≤ 64 → nk.version < 2 ^ 64 → byteGet m nk = .ok (s.nodes.get nk) := by
  obtain ⟨m, hm, hs⟩ := byteTable_spec s.nodes.entries (reached_fits h hn hk)
  refine ⟨m, hm, ?_⟩
  intro nk h1 h2
  simp only [byteGet, keyBytes_ok nk h1, Res.ok_bind, hs nk h1 h2]
  rfl

/-! Reading checks the shape of the bytes only, not what the constructors of the types require. -/

/-- **C61**, limit: bytes that are read as a node key whose path claims a nibble it has no byte for; looking at the nibble panics. -/
theorem C61_node_key_unchecked_false :
    ∃ b v p, nodeKeyCodec.tryFromSlice b = some (v, p) ∧ (p.getNibble 0).toOption = none ∧ 0 < p.numNibbles :=
  ⟨[0, 0, 0, 0, 0, 0, 0, 0, 1, 0, 0, 0, 0, 0, 0, 0, 0, 0, 0, 0], 0, ⟨1, []⟩, by decide +kernel, by decide +kernel, by decide +kernel⟩

/-- **C61**, limit: bytes that are read as an internal node which says that it has five children and has none. -/
theorem C61_node_unchecked_false :
    ∃ b n, nodeCodec.tryFromSlice b = some (.internal n) ∧ n.children.numChildren = 5 ∧ ∀ i, n.children.get i = none := by
  refine ⟨nodeCodec.enc (.internal ⟨⟨fun _ => none, 5⟩, none, false⟩), ⟨⟨fun _ => none, 5⟩, none, false⟩, ?_, rfl, fun _ => rfl⟩
  refine (C61_node _ ?_ _).2 rfl
  exact ⟨fun i c h => by simp at h, by show 5 < 2 ^ 64; decide, fun k hk => by simp at hk⟩

/-- A hash function into 32 bytes. -/
private def exHasher : Hasher Key := ⟨key 0 0, fun k _ => k, fun a _ => a, fun _ => key 7 7⟩

private def exBorshOps : List Op := [.update false [[(key 1 1, some [1]), (key 0xF0 0, some [3])], [(key 1 1, none)]]]

/-- The hypotheses of `C61_store` hold of two versions, with two keys and with one. -/
example : ∃ s m, Reached exHasher 0 exBorshOps s 2 ∧ byteTable s.nodes.entries = .ok m ∧
    byteGet m ⟨1, []⟩ = .ok (s.nodes.get ⟨1, []⟩) ∧ byteGet m ⟨7, [1, 2]⟩ = .ok (s.nodes.get ⟨7, [1, 2]⟩) := by
  obtain ⟨s, hs⟩ := Reached.exists exHasher (ops := exBorshOps) (v0 := 0) ⟨.inl rfl, by simp [exBorshOps, commitsOf, Op.commits]⟩
  have hs : Reached exHasher 0 exBorshOps s 2 := hs
  obtain ⟨m, h1, h2⟩ := C61_store exHasher 0 2 exBorshOps s hs (by decide) (by
    intro v _ hv
    have hh := (holding_treeAt exHasher 0 (commitsOf exBorshOps) v).lists
    rw [List.map_take] at hh
    refine ⟨_, hh, ?_⟩
    have hc : v = 0 ∨ v = 1 := by omega
    rcases hc with rfl | rfl <;> decide +kernel)
  exact ⟨s, m, hs, h1, h2 ⟨1, []⟩ (by decide) (by decide), h2 ⟨7, [1, 2]⟩ (by decide) (by decide)⟩

/-- A leaf of a store, a stale index and a proof, written and read. -/
example : nodeCodec.tryFromSlice (nodeCodec.enc (.leaf ⟨key 1 2, key 3 4⟩)) = some (.leaf ⟨key 1 2, key 3 4⟩) ∧
    (nodeCodec.enc (.leaf ⟨key 1 2, key 3 4⟩)).length = 65 ∧
    nodeCodec.tryFromSlice (nodeCodec.enc (.leaf ⟨key 1 2, key 3 4⟩) ++ [0]) = none := by
  refine ⟨(C61_node (.leaf ⟨key 1 2, key 3 4⟩) trivial _).2 rfl, by decide +kernel, ?_⟩
  cases h : nodeCodec.tryFromSlice (nodeCodec.enc (.leaf ⟨key 1 2, key 3 4⟩) ++ [0]) with
  | none => rfl
  | some n =>
    exfalso
    have h' := h
    rw [Codec.tryFromSlice_some nodeCodec_law] at h
    revert h'
    unfold Codec.tryFromSlice
    rw [nodeCodec_law.back (.leaf ⟨key 1 2, key 3 4⟩) [0] trivial]
    simp

example : staleCodec.tryFromSlice (staleCodec.enc (5, 3, ⟨3, [0x12, 0x30]⟩)) = some (5, 3, ⟨3, [0x12, 0x30]⟩) ∧
    proofCodec.tryFromSlice (proofCodec.enc ⟨some ⟨key 1 2, key 3 4⟩, [key 0 1, key 0 2]⟩) =
      some ⟨some ⟨key 1 2, key 3 4⟩, [key 0 1, key 0 2]⟩ :=
  ⟨(C61_stale 5 3 _ (by decide) (by decide) ⟨by decide, by decide⟩ _).2 rfl, (C61_proof _ (by decide) _).2 rfl⟩

end Verif.Props
