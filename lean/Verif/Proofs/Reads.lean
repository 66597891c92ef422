import Verif.Proofs.Walk
import Verif.Proofs.Run
/-! Reads on a reached store. -/

namespace Verif.Jmt
variable {D : Type}
open VTree Verif.Spec

theorem smtPath_perm (H : Hasher D) (k : Key) (n : Nat) {l l' : List (Key × D)} (h : l.Perm l') : smtPath H k n l = smtPath H k n l' := by
  induction n generalizing l l' with
  | zero =>
    rcases list_cases l with rfl | ⟨e, rfl⟩ | h2
    · rw [List.nil_perm.1 h]
    · rw [List.singleton_perm.1 h]
    · have h2' : 2 ≤ l'.length := by rw [← h.length_eq]; exact h2
      match l, l', h2, h2' with
      | _ :: _ :: _, _ :: _ :: _, _, _ => rfl
  | succ n ih =>
    rcases list_cases l with rfl | ⟨e, rfl⟩ | h2
    · rw [List.nil_perm.1 h]
    · rw [List.singleton_perm.1 h]
    · rw [smtPath_two H k n l h2, smtPath_two H k n l' (by rw [← h.length_eq]; exact h2)]
      rw [ih (h.filter _), smt_perm H n (h.filter _)]

theorem Holding.lists {H : Hasher D} {t : VTree D} {f : Key → Option Value} (h : Holding H t f) : Lists H f t.entries :=
  ⟨entries_nodup h.1, h.2⟩

/-- Facts about one readable version. -/
structure VersionFacts (H : Hasher D) (s : Store D) (v : Version) (f : Key → Option Value) (t : VTree D) : Prop where
  hold : Holding H t f
  root : s.reader.getNodeOption ⟨v, []⟩ = some (t.toNode H)
  ver : t ≠ .empty → t.version = v
  has : HasTree H s.reader [] t
  value : ∀ k, s.reader.getValueOption v k = f k

theorem StoreInv.facts {H : Hasher D} {v0 lo : Version} {hist : List Commit} {s : Store D} (h : StoreInv H v0 hist lo s) {v : Version}
    (h0 : lo ≤ v) (h1 : v < v0 + hist.length) :
    VersionFacts H s v (contents ((hist.take (v + 1 - v0)).map Commit.updates)) (treeAt H v0 hist v) := by
  have hge := h.inv.loge
  have htr := h.inv.tree v (by omega) h1
  refine ⟨holding_treeAt H v0 hist v, ?_, htr.2.2, ?_, h.getValueOption v⟩
  · apply h.inv.nodes v h0 h1
    by_cases he : treeAt H v0 hist v = .empty
    · rw [he]; simp [stored, toNode]
    · rw [stored_of_ne H he, at?_nil H he, htr.2.2 he, if_pos rfl]
  · intro w q n hn
    simp only [List.nil_append]
    apply h.inv.nodes v h0 h1
    have he : treeAt H v0 hist v ≠ .empty := by intro he; rw [he] at hn; simp at hn
    rw [stored_of_ne H he]; exact hn

theorem VersionFacts.getWithProof {H : Hasher D} {s : Store D} {v : Version} {f : Key → Option Value} {t : VTree D}
    (h : VersionFacts H s v f t) (k : Key) :
    Tree.getWithProof H s.reader k v = .ok (f k, proofOf (smtPath H k 256 t.entries)) :=
  getWithProof_spec H s.reader k v f (h.value k) t h.hold.1 h.root h.ver h.has (h.hold.2 k)

theorem VersionFacts.getRootHash {H : Hasher D} {s : Store D} {v : Version} {f : Key → Option Value} {t : VTree D}
    (h : VersionFacts H s v f t) : Tree.getRootHash H s.reader v = .ok (t.hash H) := by
  unfold Tree.getRootHash Tree.getRootNode
  have := h.root
  unfold NodeKey.newEmptyPath
  rw [this]; rfl

theorem VersionFacts.hash {H : Hasher D} {s : Store D} {v : Version} {f : Key → Option Value} {t : VTree D}
    (h : VersionFacts H s v f t) {L : List (Key × D)} (hL : Lists H f L) : t.hash H = smtRoot H L := by
  rw [hash_eq_smt H h.hold.1]
  exact smt_perm H 256 (lists_perm h.hold.lists hL)

theorem VersionFacts.path {H : Hasher D} {s : Store D} {v : Version} {f : Key → Option Value} {t : VTree D}
    (h : VersionFacts H s v f t) {L : List (Key × D)} (hL : Lists H f L) (k : Key) :
    smtPath H k 256 t.entries = smtPath H k 256 L := smtPath_perm H k 256 (lists_perm h.hold.lists hL)

theorem Key.le_commonPrefixBitsLen {a b : Key} {n : Nat} (h : ∀ j, j < n → a.bit j = b.bit j) (hn : n ≤ 256) : n ≤ a.commonPrefixBitsLen b := by
  rw [Key.commonPrefixBitsLen_eq]
  apply le_commonPrefixLen
  · simpa [Key.bits] using hn
  · simp only [Key.bits, ← List.map_take]
    apply List.map_congr_left
    intro j hj
    rw [List.take_range, List.mem_range] at hj
    exact h j (by omega)

/-- The proof of a path verifies. -/
theorem proofOf_verify (H : Hasher D) [DecidableEq D] {t : VTree D} {f : Key → Option Value} (hh : Holding H t f) (k : Key) :
    (proofOf (smtPath H k 256 t.entries)).verify H (t.hash H) k (f k) = .ok () := by
  have hag : Agree 256 t.entries := agree_top (entries_nodup hh.1)
  have hlen := smtPath_length H k 256 t.entries
  have hfold : SparseMerkleProof.foldUp H (proofOf (smtPath H k 256 t.entries)).siblings k
      ((proofOf (smtPath H k 256 t.entries)).startHash H) = t.hash H := by
    have hst : (proofOf (smtPath H k 256 t.entries)).startHash H = leafHash H (smtPath H k 256 t.entries).2 := by
      unfold proofOf SparseMerkleProof.startHash leafHash
      cases (smtPath H k 256 t.entries).2 <;> rfl
    rw [hst, foldUp_eq_climb H _ k _ (by simpa [proofOf] using hlen)]
    have := climb_smtPath H k 256 (Nat.le_refl _) hag
    simp only [Nat.sub_self, List.drop_zero] at this
    simp only [proofOf, List.reverse_reverse]
    rw [this, hash_eq_smt H hh.1]; rfl
  have hleaf : (proofOf (smtPath H k 256 t.entries)).checkLeaf H k (f k) = .ok () := by
    unfold SparseMerkleProof.checkLeaf proofOf
    cases hfk : f k with
    | some x =>
      have := smtPath_find H k 256 hag ((hh.2 k (H.value x)).2 (by rw [hfk]; rfl))
      rw [this]
      simp
    | none =>
      cases hp : (smtPath H k 256 t.entries).2 with
      | none => simp
      | some e =>
        have hm := smtPath_mem H k 256 hp
        have hne : k ≠ e.1 := by
          intro he
          have := (hh.2 e.1 e.2).1 hm
          rw [← he, hfk] at this; cases this
        have hpre := smtPath_prefix H k 256 (Nat.le_refl _) hp (by intro _ _ j hj; omega)
        have hc : (smtPath H k 256 t.entries).1.length ≤ k.commonPrefixBitsLen e.1 := by
          exact Key.le_commonPrefixBitsLen (fun j hj => (hpre j (by omega)).symm) hlen
        simp [hne, hc]
  unfold SparseMerkleProof.verify
  rw [hleaf, hfold]
  simp [proofOf, hlen]

/-! reached stores -/

theorem floorOf_le (ops : List Op) (lo next v : Version) (h : lo ≤ v) (hp : ∀ m, Op.purge m ∈ ops → m ≤ v) : floorOf ops lo next ≤ v := by
  induction ops generalizing lo next with
  | nil => exact h
  | cons op ops ih =>
    cases op with
    | update m sets => exact ih _ _ h (fun m hm => hp m (List.mem_cons_of_mem _ hm))
    | batch m sets => exact ih _ _ h (fun m hm => hp m (List.mem_cons_of_mem _ hm))
    | purge m =>
      apply ih
      · have := hp m List.mem_cons_self
        unfold pruneFloor; omega
      · exact fun m hm => hp m (List.mem_cons_of_mem _ hm)

theorem Reached.inv {H : Hasher D} {v0 next : Version} {ops : List Op} {s : Store D} (h : Reached H v0 ops s next) :
    next = v0 + (commitsOf ops).length ∧ StoreInv H v0 (commitsOf ops) (floorOf ops v0 v0) s := by
  obtain ⟨s', e1, e2⟩ := runOps_spec ops (StoreInv.init H v0) (by simpa using h.startable)
  simp only [List.length_nil, Nat.add_zero, List.nil_append] at e1 e2
  have := h.run
  rw [e1] at this
  cases this
  exact ⟨rfl, e2⟩

theorem Reached.exists (H : Hasher D) {v0 : Version} {ops : List Op} (hs : Startable v0 (commitsOf ops)) :
    ∃ s, Reached H v0 ops s (v0 + (commitsOf ops).length) := by
  obtain ⟨s', e1, e2⟩ := runOps_spec ops (StoreInv.init H v0) (by simpa using hs)
  simp only [List.length_nil, Nat.add_zero, List.nil_append] at e1 e2
  exact ⟨s', hs, e1⟩

theorem Reached.facts {H : Hasher D} {v0 next : Version} {ops : List Op} {s : Store D} (h : Reached H v0 ops s next) {v : Version}
    (hv : Readable v0 ops v) : VersionFacts H s v (contentsAt v0 ops v) (treeAt H v0 (commitsOf ops) v) := by
  obtain ⟨e1, e2⟩ := h.inv
  have hf : floorOf ops v0 v0 ≤ v := by
    rcases hv.kept with hk | hk
    · exact floorOf_le ops v0 v0 v hv.ge hk
    · have := e2.inv.loLt
      have := hv.ge
      omega
  have := e2.facts hf hv.lt
  rw [contentsAt, ← List.map_take]
  exact this

/-- Every contents can be listed. -/
theorem lists_exists (H : Hasher D) (sets : List Updates) : ∃ L, Lists H (contents sets) L := by
  have := (holding_treeFold H 0 (sets.map (Commit.seq true))).lists
  rw [List.map_map] at this
  have e : (Commit.updates ∘ Commit.seq true) = id := rfl
  rw [e, List.map_id] at this
  exact ⟨_, this⟩

/-! leaf counts -/

theorem child_leafCount (H : Hasher D) (t : VTree D) : ∀ c, t.child H = some c → c.leafCount = some t.entries.length ∧
    (t.toNode H).leafCount = some t.entries.length := by
  induction t with
  | empty => intro c h; simp [child] at h
  | leaf v k h => intro c hc; simp only [child, Option.some.injEq] at hc; subst hc; exact ⟨rfl, rfl⟩
  | node v m ch ih =>
    intro c hc
    have key : InternalNode.sumLeafCount (.ofFun (fun i => (ch i).child H)) = some (VTree.node v m ch).entries.length := by
      unfold InternalNode.sumLeafCount
      have hv : (Children.ofFun (fun i => (ch i).child H)).values = (List.finRange 16).filterMap (fun i => (ch i).child H) := rfl
      rw [hv]
      have : ∀ (L : List Nibble) (a : Nat), (L.filterMap (fun i => (ch i).child H)).foldl (fun acc c => match acc, c.leafCount with
          | some a, some n => some (a + n)
          | _, _ => none) (some a) = some (a + (L.flatMap (fun i => (ch i).entries)).length) := by
        intro L
        induction L with
        | nil => intro a; rfl
        | cons i L ihL =>
          intro a
          cases hc : (ch i).child H with
          | none =>
            have he : ch i = .empty := child_eq_none.1 hc
            rw [List.filterMap_cons_none (by simpa using hc), ihL]
            simp [List.flatMap_cons, he, entries]
          | some c =>
            rw [List.filterMap_cons_some (by simpa using hc), List.foldl_cons]
            simp only [(ih i c hc).1]
            rw [ihL]
            simp [List.flatMap_cons]; omega
      refine (this (List.finRange 16) 0).trans ?_
      simp [entries]
    simp only [child, Option.some.injEq] at hc
    subst hc
    constructor
    · show Child.leafCount ⟨_, _, InternalNode.nodeType _⟩ = _
      have : (InternalNode.ofFun m (fun i => (ch i).child H)).nodeType = .internal (VTree.node v m ch).entries.length := by
        unfold InternalNode.nodeType InternalNode.ofFun
        simp only [key]
      rw [this]; rfl
    · exact key

theorem toNode_leafCount (H : Hasher D) (t : VTree D) : (t.toNode H).leafCount = some t.entries.length := by
  cases hc : t.child H with
  | none => rw [child_eq_none.1 hc]; rfl
  | some c => exact (child_leafCount H t c hc).2

theorem VersionFacts.getLeafCount {H : Hasher D} {s : Store D} {v : Version} {f : Key → Option Value} {t : VTree D}
    (h : VersionFacts H s v f t) {L : List (Key × D)} (hL : Lists H f L) : Tree.getLeafCount true s.reader v = .ok (some L.length) := by
  unfold Tree.getLeafCount Tree.getRootNode NodeKey.newEmptyPath
  rw [h.root, ← (lists_perm h.hold.lists hL).length_eq, ← toNode_leafCount H t]
  rfl

end Verif.Jmt
