import Verif.Props.JmtBorsh
import Verif.Proofs.JmtSerde
import Verif.Proofs.JmtDoc
/-! Property C88: node keys, nodes and proofs as JSON documents. -/

set_option autoImplicit false

namespace Verif.Props
open Verif Verif.Jmt Verif.Spec

/-- **C88**, nodes: the document of a node is read as the node. -/
theorem C88_node (n : Node Key) (h : NodeFits n) : readNode (writeNode n) = .ok n := readNode_writeNode h

/-- Whatever is read has numbers within their types, so that the hypothesis of `C88_node` excludes nothing. -/
theorem C88_node_fits (d : Serde.Value) (n : Node Key) (h : readNode d = .ok n) : NodeFits n := readNode_fits h

/-- **C88**, node keys with packed paths. -/
theorem C88_node_key (v : Version) (p : NibblePath) (hv : v < 2 ^ 64) (hp : p.numNibbles < 2 ^ 64) :
    readNodeKey (writeNodeKey (v, p)) = .ok (v, p) := readNodeKey_writeNodeKey hv hp

/-- **C88**, hashes, proofs and range proofs. -/
theorem C88_proof (k : Key) (p : SparseMerkleProof Key) (r : SparseMerkleRangeProof Key) :
    readHash (writeHash k) = .ok k ∧ readProof (writeProof p) = .ok p ∧ readRangeProof (writeRangeProof r) = .ok r :=
  ⟨readHash_writeHash k, readProof_writeProof p, readRangeProof_writeRangeProof r⟩

/-- **C88**: different values have different documents. -/
theorem C88_distinct (n m : Node Key) (hn : NodeFits n) (hm : NodeFits m) (p q : SparseMerkleProof Key) (r s : SparseMerkleRangeProof Key) :
    (writeNode n = writeNode m ↔ n = m) ∧ (writeProof p = writeProof q ↔ p = q) ∧ (writeRangeProof r = writeRangeProof s ↔ r = s) := by
  refine ⟨⟨fun h => ?_, fun h => h ▸ rfl⟩, ⟨fun h => ?_, fun h => h ▸ rfl⟩, ⟨fun h => ?_, fun h => h ▸ rfl⟩⟩
  · have := readNode_writeNode hn
    rw [h, readNode_writeNode hm] at this
    exact (Except.ok.inj this).symm
  · have := readProof_writeProof p
    rw [h, readProof_writeProof] at this
    exact (Except.ok.inj this).symm
  · have := readRangeProof_writeRangeProof r
    rw [h, readRangeProof_writeRangeProof] at this
    exact (Except.ok.inj this).symm

/-- **C88**: no document makes reading panic. -/
theorem C88_no_panic (d : Serde.Value) (m : String) :
    readNode d ≠ .error (.panic m) ∧ readNodeKey d ≠ .error (.panic m) ∧ readProof d ≠ .error (.panic m) ∧
      readRangeProof d ≠ .error (.panic m) ∧ readHash d ≠ .error (.panic m) ∧ readNibble d ≠ .error (.panic m) :=
  ⟨readNode_noPanic d m, readNodeKey_noPanic d m, readProof_noPanic d m, readRangeProof_noPanic d m, readHash_noPanic d m,
    Serde.readByte_noPanic d m⟩

theorem readFields_perm' (names : List (String × Bool)) {fs gs : List (String × Serde.Value)} (h : fs.Perm gs) :
    Serde.readFields names (.obj fs) = Serde.readFields names (.obj gs) :=
  Serde.readFields_perm fun _ _ => h.filter _

theorem readFields_other {names : List (String × Bool)} {name : String} (h : ∀ n ∈ names, name ≠ n.1) {x : Serde.Value}
    {fs : List (String × Serde.Value)} : Serde.readFields names (.obj ((name, x) :: fs)) = Serde.readFields names (.obj fs) := by
  refine Serde.readFields_perm fun n hn => ?_
  simp [Serde.named, h n hn]

/-- **C88**: the order of the fields of a proof does not matter, and fields of other names are ignored: unlike bytes, a document is not
determined by the value. -/
theorem C88_proof_fields (fs gs : List (String × Serde.Value)) (h : fs.Perm gs) (name : String) (x : Serde.Value)
    (hx : name ≠ "leaf" ∧ name ≠ "siblings" ∧ name ≠ "phantom_hasher") :
    readProof (.obj fs) = readProof (.obj gs) ∧ readProof (.obj ((name, x) :: fs)) = readProof (.obj fs) := by
  constructor
  · simp only [readProof, readFields_perm' _ h]
  · simp only [readProof]
    rw [readFields_other]
    simp [hx]

/-- **C88**, the same of the contents of an internal node and of a leaf. -/
theorem C88_node_fields (fs gs : List (String × Serde.Value)) (h : fs.Perm gs) (name : String) (x : Serde.Value) :
    readNode (.obj [("Internal", .obj fs)]) = readNode (.obj [("Internal", .obj gs)]) ∧
      readNode (.obj [("Leaf", .obj fs)]) = readNode (.obj [("Leaf", .obj gs)]) ∧
      (name ≠ "children" → name ≠ "leaf_count" → name ≠ "leaf_count_migration" →
        readNode (.obj [("Internal", .obj ((name, x) :: fs))]) = readNode (.obj [("Internal", .obj fs)])) ∧
      (name ≠ "key_hash" → name ≠ "value_hash" →
        readNode (.obj [("Leaf", .obj ((name, x) :: fs))]) = readNode (.obj [("Leaf", .obj fs)])) := by
  refine ⟨?_, ?_, fun h1 h2 h3 => ?_, fun h1 h2 => ?_⟩
  · show (readInternalNode (.obj fs) >>= _) = (readInternalNode (.obj gs) >>= _)
    simp only [readInternalNode, readFields_perm' _ h]
  · show (readLeafNode (.obj fs) >>= _) = (readLeafNode (.obj gs) >>= _)
    simp only [readLeafNode, readFields_perm' _ h]
  · simp only [readNode, readInternalNode]
    rw [readFields_other (names := [("children", false), ("leaf_count", true), ("leaf_count_migration", false)]) (by simp [h1, h2, h3])]
    rfl
  · simp only [readNode, readLeafNode]
    rw [readFields_other (names := [("key_hash", false), ("value_hash", false)]) (by simp [h1, h2])]
    rfl

/-- **C88**: fields that may be absent. The document of a proof without the field `leaf` is not refused: it is read as the proof with the same
siblings and no leaf, which is a proof of non-inclusion. A node without the field `leaf_count` is read as one whose count is unknown. -/
theorem C88_absent (p : SparseMerkleProof Key) (n : InternalNode Key) (h : InternalFits n) :
    readProof (.obj [("siblings", .seq (p.siblings.map writeHash)), ("phantom_hasher", .null)]) = .ok ⟨none, p.siblings⟩ ∧
      readNode (.obj [("Internal", .obj [("children", writeChildren n.children), ("leaf_count_migration", .bool n.leafCountMigration)])]) =
        .ok (.internal ⟨n.children, none, n.leafCountMigration⟩) := by
  constructor
  · simp [readProof, Serde.readFields, Serde.field, Serde.optField, Serde.field?, readVec_hashes, Serde.readUnit, Serde.readOption]
  · simp [readNode, readInternalNode, Serde.readFields, Serde.field, Serde.optField, Serde.field?, readChildren_writeChildren h.1 h.2.1,
      Serde.readOption, Serde.readBool]

/-- **C88**, all documents. A document is read as a hash, a node key, a node, a proof or a range proof if and only if it is one of those that
`Spec/JmtDoc` describes, and what is read is what it describes. Nothing is checked besides. -/
theorem C88_documents (d : Serde.Value) :
    (∀ k, readHash d = .ok k ↔ Jmt.Spec.HashDoc d k) ∧ (∀ v p, readNodeKey d = .ok (v, p) ↔ Jmt.Spec.NodeKeyDoc d v p) ∧
      (∀ n, readNode d = .ok n ↔ Jmt.Spec.NodeDoc d n) ∧ (∀ p, readProof d = .ok p ↔ Jmt.Spec.ProofDoc d p) ∧
      ∀ r, readRangeProof d = .ok r ↔ Jmt.Spec.RangeProofDoc d r :=
  ⟨fun _ => readHash_iff, fun _ _ => readNodeKey_iff, fun _ => readNode_iff, fun _ => readProof_iff, fun _ => readRangeProof_iff⟩

/-- **C88**, what is written is one of these documents, and stands for nothing else. -/
theorem C88_written (n : Node Key) (hn : NodeFits n) (p : SparseMerkleProof Key) (r : SparseMerkleRangeProof Key) (v : Version) (q : NibblePath)
    (hv : v < 2 ^ 64) (hq : q.numNibbles < 2 ^ 64) :
    (∀ m, Jmt.Spec.NodeDoc (writeNode n) m ↔ m = n) ∧ (∀ o, Jmt.Spec.ProofDoc (writeProof p) o ↔ o = p) ∧
      (∀ o, Jmt.Spec.RangeProofDoc (writeRangeProof r) o ↔ o = r) ∧ ∀ w o, Jmt.Spec.NodeKeyDoc (writeNodeKey (v, q)) w o ↔ w = v ∧ o = q := by
  refine ⟨fun m => ?_, fun o => ?_, fun o => ?_, fun w o => ?_⟩
  · rw [← readNode_iff, readNode_writeNode hn]
    exact ⟨fun h => (Except.ok.inj h).symm, fun h => h ▸ rfl⟩
  · rw [← readProof_iff, readProof_writeProof]
    exact ⟨fun h => (Except.ok.inj h).symm, fun h => h ▸ rfl⟩
  · rw [← readRangeProof_iff, readRangeProof_writeRangeProof]
    exact ⟨fun h => (Except.ok.inj h).symm, fun h => h ▸ rfl⟩
  · rw [← readNodeKey_iff, readNodeKey_writeNodeKey hv hq]
    exact ⟨fun h => by cases h; exact ⟨rfl, rfl⟩, fun ⟨h1, h2⟩ => h1 ▸ h2 ▸ rfl⟩

/-- The document of a node key in which the fields are swapped, the path is an array and there is a field that no node key has. -/
def oddNodeKey : Serde.Value := .obj [("nibble_path", .seq [.num 3, .seq [.num 18, .num 48]]), ("colour", .bool true), ("version", .num 9)]

example : Jmt.Spec.NodeKeyDoc oddNodeKey 9 ⟨3, [0x12, 0x30]⟩ := ((C88_documents oddNodeKey).2.1 _ _).1 rfl

-- a version that is not in `u64`, a version as text and a second version are no documents of node keys
example (v : Version) (p : NibblePath) : ¬ Jmt.Spec.NodeKeyDoc (.seq [.num (2 ^ 64), .seq [.num 0, .seq []]]) v p ∧
    ¬ Jmt.Spec.NodeKeyDoc (.seq [.str "1", .seq [.num 0, .seq []]]) v p ∧
    ¬ Jmt.Spec.NodeKeyDoc (.obj [("version", .num 1), ("version", .num 1), ("nibble_path", .seq [.num 0, .seq []])]) v p := by
  simp only [← ((C88_documents _).2.1 _ _)]
  exact ⟨fun h => (nomatch h), fun h => (nomatch h), fun h => (nomatch h)⟩

/-- How many entries of an object have a name. -/
def entriesOf (fs : List (String × Serde.Value)) (name : String) : Nat := fs.countP (fun e => e.1 = name)

theorem readFields_refused {names : List (String × Bool)} {fs : List (String × Serde.Value)} {name : String} {opt : Bool} (hn : (name, opt) ∈ names)
    (h : entriesOf fs name > 1 ∨ entriesOf fs name = 0 ∧ opt = false) (l : List Serde.Value) : Serde.readFields names (.obj fs) ≠ .ok l := by
  have hone : ∀ v, (if opt then Serde.optField fs name else Serde.field fs name) ≠ .ok v := by
    intro v hv
    have hc : entriesOf fs name = (fs.filter (fun e => decide (e.1 = name))).length := List.countP_eq_length_filter
    rw [hc] at h
    have h? : Serde.field? fs name = .error (.err "duplicate field") ∨ Serde.field? fs name = .ok none ∧ opt = false := by
      unfold Serde.field?
      match hf : fs.filter (fun e => decide (e.1 = name)) with
      | [] => rw [hf] at h; simp only [hf]; exact .inr ⟨trivial, by simpa using h⟩
      | [_] => rw [hf] at h; simp at h
      | _ :: _ :: _ => simp only [hf]; exact .inl trivial
    rcases h? with h? | ⟨h?, rfl⟩
    · cases opt <;> simp [Serde.optField, Serde.field, h?, Res.error_bind] at hv
    · simp [Serde.field, h?, Res.ok_bind] at hv
  simp only [Serde.readFields]
  induction names generalizing l with
  | nil => cases hn
  | cons n ns ih =>
    intro hl
    rw [List.mapM_cons] at hl
    obtain ⟨a, ha, hl⟩ := Serde.Res.bind_ok hl
    obtain ⟨b, hb, -⟩ := Serde.Res.bind_ok hl
    rcases List.mem_cons.1 hn with rfl | hn
    · exact hone a ha
    · exact ih hn b hb

theorem refused_of {α : Type} {x : Res α} (hp : Serde.NoPanic x) (h : ∀ a, x ≠ .ok a) : ∃ m, x = .error (.err m) := by
  match x, hp, h with
  | .ok a, _, h => exact absurd rfl (h a)
  | .error (.err m), _, _ => exact ⟨m, rfl⟩
  | .error (.panic m), hp, _ => exact absurd rfl (hp m)

/-- **C88**: a field that is there twice, or a field that must be there and is not, is refused. Only the leaf of a proof and the count of an
internal node may be missing. -/
theorem C88_refused (fs : List (String × Serde.Value)) (name : String) :
    (name ∈ ["leaf", "siblings", "phantom_hasher"] → entriesOf fs name > 1 ∨ entriesOf fs name = 0 ∧ name ≠ "leaf" →
      ∃ m, readProof (.obj fs) = .error (.err m)) ∧
    (name = "right_siblings" → entriesOf fs name ≠ 1 → ∃ m, readRangeProof (.obj fs) = .error (.err m)) ∧
    (name ∈ ["key_hash", "value_hash"] → entriesOf fs name ≠ 1 → ∃ m, readNode (.obj [("Leaf", .obj fs)]) = .error (.err m)) ∧
    (name ∈ ["children", "leaf_count", "leaf_count_migration"] → entriesOf fs name > 1 ∨ entriesOf fs name = 0 ∧ name ≠ "leaf_count" →
      ∃ m, readNode (.obj [("Internal", .obj fs)]) = .error (.err m)) := by
  refine ⟨fun hn h => refused_of (readProof_noPanic _) fun p hp => ?_, fun hn h => refused_of (readRangeProof_noPanic _) fun p hp => ?_,
    fun hn h => refused_of (readNode_noPanic _) fun p hp => ?_, fun hn h => refused_of (readNode_noPanic _) fun p hp => ?_⟩
  · obtain ⟨l, hl, -⟩ := Serde.Res.bind_ok hp
    refine readFields_refused (name := name) (opt := decide (name = "leaf")) ?_ (h.imp id fun h => ⟨h.1, decide_eq_false h.2⟩) l hl
    simp only [List.mem_cons, List.not_mem_nil, or_false] at hn
    rcases hn with rfl | rfl | rfl <;> simp
  · subst hn
    obtain ⟨l, hl, -⟩ := Serde.Res.bind_ok hp
    exact readFields_refused (name := "right_siblings") (opt := false) (by simp) (by simp; omega) l hl
  · obtain ⟨l, hl, -⟩ := Serde.Res.bind_ok (show (readLeafNode (.obj fs) >>= _) = _ from hp)
    obtain ⟨l, hl, -⟩ := Serde.Res.bind_ok hl
    refine readFields_refused (name := name) (opt := false) ?_ (by simp; omega) l hl
    simp only [List.mem_cons, List.not_mem_nil, or_false] at hn
    rcases hn with rfl | rfl <;> simp
  · obtain ⟨l, hl, -⟩ := Serde.Res.bind_ok (show (readInternalNode (.obj fs) >>= _) = _ from hp)
    obtain ⟨l, hl, -⟩ := Serde.Res.bind_ok hl
    refine readFields_refused (name := name) (opt := decide (name = "leaf_count")) ?_ (h.imp id fun h => ⟨h.1, decide_eq_false h.2⟩) l hl
    simp only [List.mem_cons, List.not_mem_nil, or_false] at hn
    rcases hn with rfl | rfl | rfl <;> simp

/-- **C88**: instead of an object with the fields there may be an array of them, in the order of their declaration; then none may be missing and
there may be nothing else. -/
theorem C88_arrays (a b c : Serde.Value) (l : List Serde.Value) :
    readProof (.seq [a, b, c]) = readProof (.obj [("leaf", a), ("siblings", b), ("phantom_hasher", c)]) ∧
    readRangeProof (.seq [a]) = readRangeProof (.obj [("right_siblings", a)]) ∧
    readNode (.obj [("Leaf", .seq [a, b])]) = readNode (.obj [("Leaf", .obj [("key_hash", a), ("value_hash", b)])]) ∧
    readNode (.obj [("Internal", .seq [a, b, c])]) =
      readNode (.obj [("Internal", .obj [("children", a), ("leaf_count", b), ("leaf_count_migration", c)])]) ∧
    (l.length ≠ 3 → ∃ m, readProof (.seq l) = .error (.err m)) ∧ (l.length ≠ 1 → ∃ m, readRangeProof (.seq l) = .error (.err m)) ∧
    (l.length ≠ 2 → ∃ m, readNode (.obj [("Leaf", .seq l)]) = .error (.err m)) ∧
    (l.length ≠ 3 → ∃ m, readNode (.obj [("Internal", .seq l)]) = .error (.err m)) := by
  have e : ∀ (names : List (String × Bool)), l.length ≠ names.length → Serde.readFields names (.seq l) = .error (.err "invalid length") :=
    fun names h => if_neg h
  refine ⟨rfl, rfl, rfl, rfl, fun h => ⟨"invalid length", ?_⟩, fun h => ⟨"invalid length", ?_⟩, fun h => ⟨"invalid length", ?_⟩,
    fun h => ⟨"invalid length", ?_⟩⟩
  · unfold readProof; rw [e _ (by simpa using h)]; rfl
  · unfold readRangeProof; rw [e _ (by simpa using h)]; rfl
  · show (readLeafNode (.seq l) >>= _) = _
    unfold readLeafNode; rw [e _ (by simpa using h)]; rfl
  · show (readInternalNode (.seq l) >>= _) = _
    unfold readInternalNode; rw [e _ (by simpa using h)]; rfl

/-- **C88**, verification: the proof got with a value, sent as a document and read, verifies against the root hash of the version. -/
theorem C88_proof_verifies (H : Hasher Key) (v0 next : Version) (ops : List Op) (s : Store Key) (h : Reached H v0 ops s next)
    (v : Version) (hv : Readable v0 ops v) (k : Key) :
    ∃ value proof root, Tree.getWithProof H s.reader k v = .ok (value, proof) ∧ Tree.getRootHash H s.reader v = .ok root ∧
      ∃ received, readProof (writeProof proof) = .ok received ∧ received.verify H root k value = .ok () := by
  obtain ⟨value, proof, root, h1, h2, h3⟩ := C04_proofs_verify H v0 next ops s h v hv k
  exact ⟨value, proof, root, h1, h2, proof, readProof_writeProof proof, h3⟩

/-! A store written into documents. -/

/-- The entries of a store as documents; the path of a node key is packed by pushing the nibbles. -/
def exportNodes : List (NodeKey × Node Key) → Res (List (Serde.Value × Serde.Value))
  | [] => .ok []
  | (nk, n) :: t => do
    let p ← NibblePath.fromIter nk.path
    let r ← exportNodes t
    pure ((writeNodeKey (nk.version, p), writeNode n) :: r)

/-- Entries from documents; the path is unpacked by the iterator over its nibbles. -/
def importNodes : List (Serde.Value × Serde.Value) → Res (List (NodeKey × Node Key))
  | [] => .ok []
  | (k, d) :: t => do
    let (v, p) ← readNodeKey k
    let path ← p.nibbles.collect
    let n ← readNode d
    let r ← importNodes t
    pure ((⟨v, path⟩, n) :: r)

theorem import_export (l : List (NodeKey × Node Key)) (h : ∀ e ∈ l, e.1.path.length ≤ 64 ∧ e.1.version < 2 ^ 64 ∧ NodeFits e.2) :
    ∃ ds, exportNodes l = .ok ds ∧ importNodes ds = .ok l := by
  induction l with
  | nil => exact ⟨[], rfl, rfl⟩
  | cons e t ih =>
    obtain ⟨⟨v, q⟩, n⟩ := e
    obtain ⟨ds, h1, h2⟩ := ih fun e he => h e (List.mem_cons_of_mem _ he)
    obtain ⟨g1, g2, g3⟩ := h (⟨v, q⟩, n) List.mem_cons_self
    have hq : (packed q).nibbles.collect = .ok q := by
      have := nibbleIter_collect q 0 q.length 0 (Nat.le_refl _)
      simp only [List.drop_zero, Nat.sub_zero, List.take_length] at this
      exact this
    have hk : readNodeKey (writeNodeKey (v, packed q)) = .ok (v, packed q) :=
      readNodeKey_writeNodeKey g2 (Nat.lt_of_le_of_lt (show q.length ≤ 64 from g1) (by decide))
    refine ⟨(writeNodeKey (v, packed q), writeNode n) :: ds, ?_, ?_⟩
    · simp only [exportNodes, fromIter_packed _ g1, Res.ok_bind, h1]
      rfl
    · simp only [importNodes, hk, Res.ok_bind, hq, readNode_writeNode g3, h2]
      rfl

/-- **C88**, stores: the nodes of a store of fewer than 2^64 versions and, at every version, fewer than 2^64 keys can be written into documents,
and reading these gives the same entries. -/
theorem C88_store (H : Hasher Key) (v0 next : Version) (ops : List Op) (s : Store Key) (h : Reached H v0 ops s next) (hn : next ≤ 2 ^ 64)
    (hk : ∀ v, v0 ≤ v → v < next → ∃ L, Lists H (contentsAt v0 ops v) L ∧ L.length < 2 ^ 64) :
    ∃ ds, exportNodes s.nodes.entries = .ok ds ∧ importNodes ds = .ok s.nodes.entries :=
  import_export s.nodes.entries (reached_fits h hn hk)

/-! What the constructors check and reading does not. -/

/-- Children made with the methods of `Children`. -/
inductive Made : Children Key → Prop
  | new : Made .new
  | insert {cs : Children Key} (n : Nibble) (c : Child Key) : Made cs → Made (cs.insert n c)
  | remove {cs : Children Key} (n : Nibble) : Made cs → Made (cs.remove n)

theorem filterMap_update {α β : Type} [DecidableEq α] (l : List α) (hl : l.Nodup) (f g : α → Option β) (a : α) (ha : a ∈ l)
    (hfg : ∀ b, b ≠ a → f b = g b) :
    (l.filterMap f).length + (if (g a).isSome then 1 else 0) = (l.filterMap g).length + (if (f a).isSome then 1 else 0) := by
  induction l with
  | nil => cases ha
  | cons x t ih =>
    rw [List.nodup_cons] at hl
    have key : ∀ (f : α → Option β), ((x :: t).filterMap f).length = (t.filterMap f).length + (if (f x).isSome then 1 else 0) := by
      intro f
      rw [List.filterMap_cons]
      cases f x <;> simp
    rw [key f, key g]
    by_cases hx : x = a
    · subst hx
      have : t.filterMap f = t.filterMap g := List.filterMap_congr fun b hb => hfg b fun e => hl.1 (e ▸ hb)
      rw [this]
      omega
    · have h1 := ih hl.2 ((List.mem_cons.1 ha).resolve_left fun e => hx e.symm)
      rw [hfg x hx]
      omega

/-- The counter of children made with the methods is right. Partial: false of children read from a document (`C88_node_unchecked_false`). -/
theorem C88_made_partial (cs : Children Key) (h : Made cs) : cs.numChildren = cs.values.length := by
  induction h with
  | new => decide
  | @insert cs n c _ ih =>
    have := filterMap_update (List.finRange 16) (List.nodup_finRange 16) (cs.insert n c).children cs.children n (List.mem_finRange n)
      (fun b hb => by simp [Children.insert, hb])
    change _ + _ = cs.values.length + _ at this
    change (if (cs.children n).isNone then cs.numChildren + 1 else cs.numChildren) = ((List.finRange 16).filterMap (cs.insert n c).children).length
    have hs : ((cs.insert n c).children n).isSome = true := by simp [Children.insert]
    rw [hs] at this
    cases hc : cs.children n <;> simp [hc] at this ⊢ <;> omega
  | @remove cs n _ ih =>
    have := filterMap_update (List.finRange 16) (List.nodup_finRange 16) (cs.remove n).children cs.children n (List.mem_finRange n)
      (fun b hb => by simp [Children.remove, hb])
    change _ + _ = cs.values.length + _ at this
    change (if (cs.children n).isSome then cs.numChildren - 1 else cs.numChildren) = ((List.finRange 16).filterMap (cs.remove n).children).length
    have hs : ((cs.remove n).children n).isSome = false := by simp [Children.remove]
    rw [hs] at this
    cases hc : cs.children n <;> simp [hc] at this ⊢ <;> omega

/-- **C88**, what the constructor of internal nodes checks: there is a child, and it is not a single leaf; then the leaf count is that of the
children. -/
theorem C88_new (cs : Children Key) (h : Made cs) (m : Bool) :
    (∀ n, InternalNode.newImpl cs m = .ok n ↔ n = ⟨cs, InternalNode.sumLeafCount cs, m⟩ ∧ cs.values ≠ [] ∧ ∀ c, cs.values = [c] → c.isLeaf = false) ∧
      ∀ msg, InternalNode.newImpl cs m ≠ .error (.panic msg) := by
  have hc := C88_made_partial cs h
  unfold InternalNode.newImpl Children.isEmpty
  rw [hc]
  match cs.values with
  | [] => exact ⟨fun n => ⟨fun e => (by cases e), fun e => absurd rfl e.2.1⟩, fun msg e => (by cases e)⟩
  | [c] =>
    cases hl : c.isLeaf with
    | false =>
      refine ⟨fun n => ⟨fun e => ⟨?_, List.cons_ne_nil _ _, fun d hd => ?_⟩, fun e => ?_⟩, fun msg e => ?_⟩
      · simp [hl] at e; exact e.symm
      · cases hd; exact hl
      · simp [hl, e.1]
      · simp [hl] at e
    | true =>
      refine ⟨fun n => ⟨fun e => ?_, fun e => ?_⟩, fun msg e => ?_⟩
      · simp [hl] at e
      · rw [e.2.2 c rfl] at hl; cases hl
      · simp [hl] at e
  | c :: d :: t =>
    refine ⟨fun n => ⟨fun e => ⟨?_, List.cons_ne_nil _ _, fun x hx => (by cases hx)⟩, fun e => ?_⟩, fun msg e => ?_⟩
    · simp at e; exact e.symm
    · simp [e.1]
    · simp at e

/-- The number of leaves below children of these types, where it is known. -/
inductive CountsTo : List NodeType → Nat → Prop where
  | nil : CountsTo [] 0
  | leaf {l n} : CountsTo l n → CountsTo (.leaf :: l) (n + 1)
  | internal {l n} (k : Nat) : CountsTo l n → CountsTo (.internal k :: l) (n + k)

theorem sumLeafCount_fold {D : Type} (l : List (Child D)) (a : Option Nat) :
    (∀ k, l.foldl (fun acc c => match acc, c.leafCount with
      | some a, some n => some (a + n)
      | _, _ => none) a = some k ↔ ∃ s n, a = some s ∧ CountsTo (l.map (·.nodeType)) n ∧ k = s + n) := by
  induction l generalizing a with
  | nil =>
    intro k
    constructor
    · intro h; exact ⟨k, 0, h, .nil, rfl⟩
    · rintro ⟨s, n, hs, hn, rfl⟩; cases hn; exact hs
  | cons c l ih =>
    intro k
    rw [List.foldl_cons, ih]
    obtain ⟨ch, cv, ct⟩ := c
    cases a with
    | none => simp
    | some s =>
      cases ct with
      | leaf =>
        simp only [Child.leafCount, List.map_cons]
        constructor
        · rintro ⟨s', n, hs, hn, rfl⟩; cases hs; exact ⟨s, n + 1, rfl, .leaf hn, by omega⟩
        · rintro ⟨s', n, hs, hn, rfl⟩; cases hs; cases hn with | leaf hn => exact ⟨_, _, rfl, hn, by omega⟩
      | internalLegacy =>
        simp only [Child.leafCount, List.map_cons]
        constructor
        · rintro ⟨s', n, hs, hn, rfl⟩; cases hs
        · rintro ⟨s', n, hs, hn, rfl⟩; cases hn
      | internal m =>
        simp only [Child.leafCount, List.map_cons]
        constructor
        · rintro ⟨s', n, hs, hn, rfl⟩; cases hs; exact ⟨s, n + m, rfl, .internal m hn, by omega⟩
        · rintro ⟨s', n, hs, hn, rfl⟩; cases hs; cases hn with | internal m hn => exact ⟨_, _, rfl, hn, by omega⟩

theorem exists_countsTo (l : List NodeType) : (∃ n, CountsTo l n) ↔ .internalLegacy ∉ l := by
  induction l with
  | nil => exact ⟨fun _ => List.not_mem_nil, fun _ => ⟨0, .nil⟩⟩
  | cons t l ih =>
    cases t with
    | leaf =>
      simp only [List.mem_cons, reduceCtorEq, false_or, ← ih]
      exact ⟨fun ⟨n, h⟩ => (by cases h with | leaf h => exact ⟨_, h⟩), fun ⟨n, h⟩ => ⟨_, .leaf h⟩⟩
    | internalLegacy => exact ⟨fun ⟨n, h⟩ => (by cases h), fun h => absurd List.mem_cons_self h⟩
    | internal k =>
      simp only [List.mem_cons, reduceCtorEq, false_or, ← ih]
      exact ⟨fun ⟨n, h⟩ => (by cases h with | internal _ h => exact ⟨_, h⟩), fun ⟨n, h⟩ => ⟨_, .internal k h⟩⟩

/-- **C88**, the leaf count of a node made by the constructor: it is the sum over the children when the count of every child is known, and
unknown, as is then the type of the node, as soon as one child is of the legacy type. -/
theorem C88_leaf_count {D : Type} (cs : Children D) (m : Bool) (n : InternalNode D) (h : InternalNode.newImpl cs m = .ok n) :
    (∀ k, n.nodeType = .internal k ↔ CountsTo (cs.values.map (·.nodeType)) k) ∧
      (n.nodeType = .internalLegacy ↔ ∃ i c, cs.get i = some c ∧ c.nodeType = .internalLegacy) ∧ n.nodeType ≠ .leaf := by
  have hn : n.leafCount = InternalNode.sumLeafCount cs := by
    unfold InternalNode.newImpl at h
    cases he : cs.isEmpty with
    | true => simp [he, ensure] at h
    | false =>
      simp only [he] at h
      split at h
      · cases hv : cs.values with
        | nil => rw [hv] at h; cases h
        | cons c t =>
          rw [hv] at h
          cases hc : c.isLeaf with
          | true => simp [hc, ensure] at h
          | false => simp only [hc] at h; cases h; rfl
      · cases h; rfl
  have key : ∀ k, n.leafCount = some k ↔ CountsTo (cs.values.map (·.nodeType)) k := by
    intro k
    rw [hn]
    refine (sumLeafCount_fold cs.values (some 0) k).trans ⟨?_, fun h => ⟨0, k, rfl, h, by omega⟩⟩
    rintro ⟨s, n, hs, hn, rfl⟩
    cases hs
    rwa [Nat.zero_add]
  refine ⟨fun k => ?_, ?_, ?_⟩
  · rw [← key]; unfold InternalNode.nodeType; cases n.leafCount <;> simp
  · have h1 : n.nodeType = .internalLegacy ↔ ¬ ∃ k, CountsTo (cs.values.map (·.nodeType)) k := by
      simp only [← key]; unfold InternalNode.nodeType; cases n.leafCount <;> simp
    rw [h1, exists_countsTo, Classical.not_not]
    constructor
    · intro hm
      obtain ⟨c, hc, hct⟩ := List.mem_map.1 hm
      obtain ⟨i, _, hi⟩ := List.mem_filterMap.1 hc
      exact ⟨i, c, hi, hct⟩
    · rintro ⟨i, c, hi, hct⟩
      exact List.mem_map.2 ⟨c, List.mem_filterMap.2 ⟨i, List.mem_finRange i, hi⟩, hct⟩
  · unfold InternalNode.nodeType; cases n.leafCount <;> simp

example : ∃ n, InternalNode.newImpl ((Children.new.insert 3 ⟨key 1 2, 7, .leaf⟩).insert 5 ⟨key 1 3, 7, .internal 4⟩) true = .ok n ∧ n.nodeType = .internal 5 :=
  ⟨_, rfl, rfl⟩
/-- **C88**, limit: documents that are read as children no use of the methods makes, and as an internal node which the constructor refuses. -/
theorem C88_node_unchecked_false :
    (∃ d n, readNode d = .ok (.internal n) ∧ ¬ Made n.children) ∧
      ∃ d n, readNode d = .ok (.internal n) ∧ Made n.children ∧ ∀ m x, InternalNode.newImpl n.children m ≠ .ok x := by
  constructor
  · refine ⟨writeNode (.internal ⟨⟨fun _ => none, 5⟩, none, false⟩), ⟨⟨fun _ => none, 5⟩, none, false⟩, ?_, ?_⟩
    · refine C88_node _ ⟨fun i c h => by simp at h, by show 5 < 2 ^ 64; decide, fun k hk => by simp at hk⟩
    · intro h
      exact absurd (C88_made_partial _ h) (by decide)
  · refine ⟨writeNode (.internal ⟨Children.new.insert 3 ⟨key 1 2, 7, .leaf⟩, some 1, false⟩),
      ⟨Children.new.insert 3 ⟨key 1 2, 7, .leaf⟩, some 1, false⟩, ?_, .insert _ _ .new, ?_⟩
    · refine C88_node _ ⟨fun i c h => ?_, by decide, fun k hk => by cases hk; decide⟩
      simp only [Children.insert, Children.new] at h
      split at h
      · cases h
        exact ⟨by decide, fun n hn => by cases hn⟩
      · cases h
    · intro m x hx
      have := (((C88_new _ (.insert 3 ⟨key 1 2, 7, .leaf⟩ .new) m).1 x).1 hx).2.2 ⟨key 1 2, 7, .leaf⟩ (by rfl)
      cases this

/-- **C88**, limit: a document that is read as a node key whose path claims a nibble it has no byte for, so that looking at the nibble panics;
and one that is read as a nibble above 15, which `Nibble::from` refuses. -/
theorem C88_path_unchecked_false :
    (∃ d v p, readNodeKey d = .ok (v, p) ∧ 0 < p.numNibbles ∧ (p.getNibble 0).toOption = none) ∧ ∃ d b, readNibble d = .ok b ∧ 16 ≤ b :=
  ⟨⟨writeNodeKey (0, ⟨1, []⟩), 0, ⟨1, []⟩, C88_node_key 0 ⟨1, []⟩ (by decide) (by decide), by decide, by decide +kernel⟩,
    .num 200, 200, by rfl, by decide⟩

/-- A hash function into 32 bytes. -/
private def exHasher88 : Hasher Key := ⟨key 0 0, fun k _ => k, fun a _ => a, fun _ => key 7 7⟩

private def exSerdeOps : List Op := [.update false [[(key 1 1, some [1]), (key 0xF0 0, some [3])], [(key 1 1, none)]]]

/-- The hypotheses of `C88_store` and of `C88_proof_verifies` hold of two versions, with two keys and with one. -/
example : ∃ s ds, Reached exHasher88 0 exSerdeOps s 2 ∧ exportNodes s.nodes.entries = .ok ds ∧ importNodes ds = .ok s.nodes.entries ∧
    ∃ value proof root, Tree.getWithProof exHasher88 s.reader (key 1 1) 0 = .ok (value, proof) ∧
      Tree.getRootHash exHasher88 s.reader 0 = .ok root ∧
      ∃ received, readProof (writeProof proof) = .ok received ∧ received.verify exHasher88 root (key 1 1) value = .ok () := by
  obtain ⟨s, hs⟩ := Reached.exists exHasher88 (ops := exSerdeOps) (v0 := 0) ⟨.inl rfl, by simp [exSerdeOps, commitsOf, Op.commits]⟩
  have hs : Reached exHasher88 0 exSerdeOps s 2 := hs
  obtain ⟨ds, h1, h2⟩ := C88_store exHasher88 0 2 exSerdeOps s hs (by decide) (by
    intro v _ hv
    have hh := (holding_treeAt exHasher88 0 (commitsOf exSerdeOps) v).lists
    rw [List.map_take] at hh
    refine ⟨_, hh, ?_⟩
    have hc : v = 0 ∨ v = 1 := by omega
    rcases hc with rfl | rfl <;> decide +kernel)
  exact ⟨s, ds, hs, h1, h2, C88_proof_verifies exHasher88 0 2 exSerdeOps s hs 0
    ⟨by decide, by simp [exSerdeOps, commitsOf, Op.commits], by simp [exSerdeOps]⟩ (key 1 1)⟩

/-- A proof whose fields are in another order, with a field of another name. -/
example : readProof (.obj [("comment", .str "x"), ("phantom_hasher", .null), ("siblings", .seq ([key 0 1].map writeHash)),
      ("leaf", writeLeafNode ⟨key 1 2, key 3 4⟩)]) = .ok ⟨some ⟨key 1 2, key 3 4⟩, [key 0 1]⟩ := by
  rw [(C88_proof_fields [("phantom_hasher", .null), ("siblings", .seq ([key 0 1].map writeHash)), ("leaf", writeLeafNode ⟨key 1 2, key 3 4⟩)] _
      (List.reverse_perm _).symm "comment" (.str "x") (by decide)).2,
    (C88_proof_fields _ _ (List.reverse_perm _).symm "comment" (.str "x") (by decide)).1]
  exact (C88_proof (key 0 0) ⟨some ⟨key 1 2, key 3 4⟩, [key 0 1]⟩ ⟨[]⟩).2.1

example : ∃ m, readProof (.obj [("leaf", .null), ("phantom_hasher", .null)]) = .error (.err m) :=
  (C88_refused [("leaf", .null), ("phantom_hasher", .null)] "siblings").1 (by decide) (by decide)

end Verif.Props
