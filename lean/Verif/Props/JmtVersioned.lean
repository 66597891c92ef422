import Verif.Props.JmtMap
import Verif.Props.JmtUnique
import Verif.Props.JmtIter
import Verif.Props.JmtExclusion
import Verif.Proofs.Below
/-! Properties C62 (the functions of `VersionedTrie`) and C63 (reads of versions that were pruned or never committed). -/

set_option autoImplicit false

namespace Verif.Props
open Verif Verif.Jmt Verif.Spec
variable {D : Type}

/-! ### C62 -/

/-- **C62.** `contains` at any version tells whether the key is in the contents of that version; for a version after the last one,
of the last one. -/
theorem C62_contains (H : Hasher D) (v0 next : Version) (ops : List Op) (s : Store D) (h : Reached H v0 ops s next) (v : Version) (k : Key) :
    Tree.contains s.reader k v = (contentsAt v0 ops v k).isSome := by
  obtain ⟨_, hi⟩ := h.inv
  have : s.reader.getValueOption v k = _ := hi.getValueOption v k
  unfold Tree.contains Tree.get
  rw [this, contentsAt, ← List.map_take]

theorem checkLeaf_congr (H : Hasher D) [DecidableEq D] (p : SparseMerkleProof D) (k : Key) (x y : Option Value)
    (h : x.map H.value = y.map H.value) : p.checkLeaf H k x = p.checkLeaf H k y := by
  cases x with
  | none => cases y with
    | none => rfl
    | some y => simp at h
  | some x => cases y with
    | none => simp at h
    | some y =>
      simp only [Option.map_some, Option.some.injEq] at h
      unfold SparseMerkleProof.checkLeaf
      cases p.leaf with
      | none => rfl
      | some l => simp only [h]

theorem verify_congr (H : Hasher D) [DecidableEq D] (p : SparseMerkleProof D) (root : D) (k : Key) (x y : Option Value)
    (h : x.map H.value = y.map H.value) : p.verify H root k x = p.verify H root k y := by
  unfold SparseMerkleProof.verify
  rw [checkLeaf_congr H p k x y h]

/-- **C62.** For readable versions `v` and `w`, `verify_proof` at `v` against the root hash of `w` accepts the proof that `get_proof`
returns at `w` when the value of the key has the same hash in both versions. In particular it accepts what `get_proof` returns at `v`
against the root hash of `v`. -/
theorem C62_accepts (H : Hasher D) [DecidableEq D] (v0 next : Version) (ops : List Op) (s : Store D) (h : Reached H v0 ops s next)
    (v w : Version) (hv : Readable v0 ops v) (hw : Readable v0 ops w) (k : Key)
    (he : (contentsAt v0 ops v k).map H.value = (contentsAt v0 ops w k).map H.value) :
    ∃ p root, Tree.getProof H s.reader k w = .ok p ∧ Tree.getRootHash H s.reader w = .ok root ∧
      Tree.verifyProof H s.reader k v root p = .ok () := by
  have fv := h.facts hv
  have fw := h.facts hw
  refine ⟨proofOf (smtPath H k 256 (treeAt H v0 (commitsOf ops) w).entries), _, ?_, fw.getRootHash, ?_⟩
  · rw [Tree.getProof, fw.getWithProof k]; rfl
  · rw [Tree.verifyProof, fv.getWithProof k]
    simp only [Res.ok_bind]
    rw [verify_congr H _ _ k _ _ he]
    exact proofOf_verify H fw.hold k

/-- **C62.** Nothing else is accepted: a proof that `verify_proof` accepts at `v` against the root hash of `w` is the one `get_proof`
returns at `w`, and the value of the key has the same hash in both versions; or the inputs hashed on the two sides clash. -/
theorem C62_only (H : Hasher D) [DecidableEq D] (v0 next : Version) (ops : List Op) (s : Store D) (h : Reached H v0 ops s next)
    (v w : Version) (hv : Readable v0 ops v) (hw : Readable v0 ops w) (k : Key) (root : D) (hr : Tree.getRootHash H s.reader w = .ok root)
    (p : SparseMerkleProof D) (hp : Tree.verifyProof H s.reader k v root p = .ok ())
    (L : List (Key × D)) (hL : Lists H (contentsAt v0 ops w) L) :
    (Tree.getProof H s.reader k w = .ok p ∧ (contentsAt v0 ops v k).map H.value = (contentsAt v0 ops w k).map H.value) ∨
      Clash H (proofInputs H p k) (smtInputs H 256 L) := by
  have fv := h.facts hv
  have fw := h.facts hw
  rw [Tree.verifyProof, fv.getWithProof k] at hp
  simp only [Res.ok_bind] at hp
  refine (C60_proof_unique H v0 next ops s h w hw root hr p k _ hp L hL).imp ?_ id
  rintro ⟨x, h1, h2⟩
  refine ⟨by rw [Tree.getProof, h1]; rfl, ?_⟩
  rw [fw.getWithProof k] at h1
  cases h1
  exact h2.symm

example : ∃ s p root, Reached termHasher 0 exOps s 3 ∧ Tree.getProof termHasher s.reader (key 0xF0 0) 2 = .ok p ∧
    Tree.getRootHash termHasher s.reader 2 = .ok root ∧ Tree.verifyProof termHasher s.reader (key 0xF0 0) 1 root p = .ok () ∧
    ∀ q, Tree.verifyProof termHasher s.reader (key 0xF0 0) 1 root q = .ok () → q = p := by
  obtain ⟨s, h⟩ := exOps_reached
  obtain ⟨p, root, h1, h2, h3⟩ := C62_accepts _ _ _ _ _ h 1 2 exOps_readable1 exOps_readable2 (key 0xF0 0) (by
    have e1 : contentsAt 0 exOps 1 (key 0xF0 0) = some [3] := by decide +kernel
    have e2 : contentsAt 0 exOps 2 (key 0xF0 0) = some [3] := by decide +kernel
    rw [e1, e2])
  refine ⟨s, p, root, h, h1, h2, h3, ?_⟩
  intro q hq
  rcases C62_only _ _ _ _ _ h 1 2 exOps_readable1 exOps_readable2 _ _ h2 q hq _ (h.facts exOps_readable2).hold.lists with ⟨g, _⟩ | g
  · rw [h1] at g; exact (Except.ok.inj g).symm
  · exact absurd g (termHasher_no_clash _ _)

/-! ### C63 -/

/-- The operations without the pruning. -/
def withoutPurges (ops : List Op) : List Op := ops.filter (fun o => match o with | .purge _ => false | _ => true)

theorem commitsOf_withoutPurges (ops : List Op) : commitsOf (withoutPurges ops) = commitsOf ops := by
  unfold commitsOf withoutPurges
  induction ops with
  | nil => rfl
  | cons o ops ih =>
    cases o with
    | purge v => simpa [Op.commits] using ih
    | update m sets => simp [ih]
    | batch m sets => simp [ih]

theorem contentsAt_withoutPurges (v0 : Version) (ops : List Op) (v : Version) :
    contentsAt v0 (withoutPurges ops) v = contentsAt v0 ops v := by
  unfold contentsAt
  rw [commitsOf_withoutPurges]

theorem readable_withoutPurges {v0 : Version} {ops : List Op} {v : Version} (h0 : v0 ≤ v) (h1 : v < v0 + (commitsOf ops).length) :
    Readable v0 (withoutPurges ops) v := by
  refine ⟨h0, by rw [commitsOf_withoutPurges]; exact h1, .inl ?_⟩
  intro m hm
  simp [withoutPurges] at hm

/-- The store that never pruned holds all nodes of the one that did. -/
theorem unpruned {H : Hasher D} {v0 next : Version} {ops : List Op} {s : Store D} (h : Reached H v0 ops s next) :
    ∃ s', Reached H v0 (withoutPurges ops) s' next ∧ Below s.reader s'.reader := by
  obtain ⟨rfl, hi⟩ := h.inv
  obtain ⟨s', h'⟩ := Reached.exists H (v0 := v0) (ops := withoutPurges ops) (by rw [commitsOf_withoutPurges]; exact h.startable)
  obtain ⟨_, hi'⟩ := h'.inv
  rw [commitsOf_withoutPurges] at h' hi'
  refine ⟨s', h', ?_, ?_⟩
  · rintro ⟨v, q⟩ n hn
    obtain ⟨d1, d2, d3⟩ := hi.inv.dom v q n hn
    have hf : floorOf (withoutPurges ops) v0 v0 ≤ v := floorOf_le _ v0 v0 v d1 (fun m hm => by simp [withoutPurges] at hm)
    exact hi'.inv.nodes v hf d2 v q n d3
  · intro v k x hx
    exact (hi'.getValueOption v k).trans ((hi.getValueOption v k).symm.trans hx)

/-- No node of an uncommitted version is stored. -/
theorem uncommitted {H : Hasher D} {v0 next : Version} {ops : List Op} {s : Store D} (h : Reached H v0 ops s next) {v : Version}
    (hv : ¬ (v0 ≤ v ∧ v < next)) (q : List Nibble) : s.reader.getNodeOption ⟨v, q⟩ = none := by
  obtain ⟨rfl, hi⟩ := h.inv
  cases hn : s.reader.getNodeOption ⟨v, q⟩ with
  | none => rfl
  | some n =>
    obtain ⟨d1, d2, _⟩ := hi.inv.dom v q n hn
    exact absurd ⟨d1, d2⟩ hv

/-- **C63.** Every read at any version, readable or not, gives the answer that a store would give on which nothing was ever pruned, or
an error; it does not give another answer. -/
theorem C63_as_unpruned (H : Hasher D) [DecidableEq D] (v0 next : Version) (ops : List Op) (s : Store D) (h : Reached H v0 ops s next) :
    ∃ s', Reached H v0 (withoutPurges ops) s' next ∧ ∀ v k,
      OrErr (Tree.getWithProof H s.reader k v) (Tree.getWithProof H s'.reader k v) ∧
      OrErr (Tree.getRootHash H s.reader v) (Tree.getRootHash H s'.reader v) ∧
      OrErr (Tree.getRangeProof H s.reader k v) (Tree.getRangeProof H s'.reader k v) ∧
      OrErr (Tree.getLeafCount true s.reader v) (Tree.getLeafCount true s'.reader v) ∧
      OrErr (Tree.getWithExclusionProof H s.reader k v) (Tree.getWithExclusionProof H s'.reader k v) ∧
      (∀ root p, OrErr (Tree.verifyProof H s.reader k v root p) (Tree.verifyProof H s'.reader k v root p)) := by
  obtain ⟨s', h', hb⟩ := unpruned h
  exact ⟨s', h', fun v k => ⟨hb.getWithProof H k v, hb.getRootHash H v, hb.getRangeProof H k v, hb.getLeafCount true v,
    hb.getWithExclusionProof H k v, fun root p => hb.verifyProof H k v root p⟩⟩

/-- **C63**, `get_with_proof`: at any version it does not panic, and what it returns is right. -/
theorem C63_get_with_proof (H : Hasher D) [DecidableEq D] (v0 next : Version) (ops : List Op) (s : Store D) (h : Reached H v0 ops s next)
    (v : Version) (k : Key) :
    NoPanic (Tree.getWithProof H s.reader k v) ∧
    ∀ x p, Tree.getWithProof H s.reader k v = .ok (x, p) →
      v0 ≤ v ∧ v < next ∧ x = contentsAt v0 ops v k ∧ ∀ L, Lists H (contentsAt v0 ops v) L → p.verify H (smtRoot H L) k x = .ok () := by
  obtain ⟨s', h', hb⟩ := unpruned h
  by_cases hc : v0 ≤ v ∧ v < next
  · have hn := h.inv.1
    have hv := readable_withoutPurges hc.1 (hn ▸ hc.2)
    have hf := h'.facts hv
    have hg := hf.getWithProof k
    rw [contentsAt_withoutPurges] at hg hf
    rcases hb.getWithProof H k v with e | ⟨m, e⟩
    · rw [e, hg]
      refine ⟨fun m hm => (by cases hm), ?_⟩
      intro x p hx
      cases hx
      refine ⟨hc.1, hc.2, rfl, ?_⟩
      intro L hL
      have := proofOf_verify H hf.hold k
      rw [hf.hash hL] at this
      exact this
    · rw [e]; exact ⟨fun m hm => (by cases hm), fun x p hx => (by cases hx)⟩
  · have : Tree.getWithProof H s.reader k v = .error (.err "Missing root") := by
      unfold Tree.getWithProof
      show Tree.getWithProofLoop H s.reader k v (64 + 1) 0 ⟨v, []⟩ _ _ = _
      unfold Tree.getWithProofLoop
      rw [uncommitted h hc []]
      rfl
    rw [this]
    exact ⟨fun m hm => (by cases hm), fun x p hx => (by cases hx)⟩

/-- **C63**, `get_root_hash` and `get_leaf_count`. -/
theorem C63_root_hash (H : Hasher D) (v0 next : Version) (ops : List Op) (s : Store D) (h : Reached H v0 ops s next) (v : Version)
    (L : List (Key × D)) (hL : Lists H (contentsAt v0 ops v) L) :
    NoPanic (Tree.getRootHash H s.reader v) ∧ (∀ root, Tree.getRootHash H s.reader v = .ok root → v0 ≤ v ∧ v < next ∧ root = smtRoot H L) ∧
    NoPanic (Tree.getLeafCount true s.reader v) ∧ (∀ c, Tree.getLeafCount true s.reader v = .ok c → v0 ≤ v ∧ v < next ∧ c = some L.length) := by
  obtain ⟨s', h', hb⟩ := unpruned h
  by_cases hc : v0 ≤ v ∧ v < next
  · have hn := h.inv.1
    have hv := readable_withoutPurges hc.1 (hn ▸ hc.2)
    have hf := h'.facts hv
    have hcount : Tree.getLeafCount true s'.reader v = .ok (some L.length) := by
      have := C15_leaf_count H v0 next _ s' h' v hv (L.map Prod.fst) hL.1 (by
        intro k
        rw [contentsAt_withoutPurges]
        simp only [List.mem_map, Prod.exists, exists_and_right, exists_eq_right]
        constructor
        · rintro ⟨x, hx⟩
          have := (hL.2 k x).1 hx
          cases hc : contentsAt v0 ops v k with
          | none => rw [hc] at this; cases this
          | some _ => rfl
        · intro hs
          obtain ⟨x, hx⟩ := Option.isSome_iff_exists.1 hs
          exact ⟨H.value x, (hL.2 k _).2 (by rw [hx]; rfl)⟩)
      rw [List.length_map] at this
      exact this
    have hg := hf.getRootHash
    rw [contentsAt_withoutPurges] at hf
    rw [hf.hash hL] at hg
    refine ⟨?_, ?_, ?_, ?_⟩
    · rcases hb.getRootHash H v with e | ⟨m, e⟩
      · rw [e, hg]; exact fun m hm => (by cases hm)
      · rw [e]; exact fun m hm => (by cases hm)
    · rcases hb.getRootHash H v with e | ⟨m, e⟩
      · rw [e, hg]; intro r hr; cases hr; exact ⟨hc.1, hc.2, rfl⟩
      · rw [e]; intro r hr; cases hr
    · rcases hb.getLeafCount true v with e | ⟨m, e⟩
      · rw [e, hcount]; exact fun m hm => (by cases hm)
      · rw [e]; exact fun m hm => (by cases hm)
    · rcases hb.getLeafCount true v with e | ⟨m, e⟩
      · rw [e, hcount]; intro r hr; cases hr; exact ⟨hc.1, hc.2, rfl⟩
      · rw [e]; intro r hr; cases hr
  · have hr : Tree.getRootNode s.reader v = .error (.err "Root node not found for version") := by
      unfold Tree.getRootNode
      have : s.reader.getNodeOption (.newEmptyPath v) = none := uncommitted h hc []
      rw [this]
    unfold Tree.getRootHash Tree.getLeafCount
    rw [hr]
    exact ⟨fun m hm => (by cases hm), fun _ hx => (by cases hx), fun m hm => (by cases hm), fun _ hx => (by cases hx)⟩

/-- Calling `next` yields the pairs `l`, and then an error. -/
inductive Breaks (r : Reader D) : Iter D → List (Key × Value) → Prop
  | stop {it it' : Iter D} {m : String} (h : it.next r = .ok (some (.error (.err m)), it')) : Breaks r it []
  | step {it it' : Iter D} {e : Key × Value} {l : List (Key × Value)} (h : it.next r = .ok (some (.ok e), it'))
      (hl : Breaks r it' l) : Breaks r it (e :: l)

theorem yields_below {r r' : Reader D} (h : Below r r') {it : Iter D} {l : List (Key × Value)} (hy : Yields r' it l) :
    Yields r it l ∨ ∃ l', l' <+: l ∧ Breaks r it l' := by
  induction hy with
  | stop hn =>
    rename_i it
    rcases h.next it with e | ⟨m, it', e⟩
    · exact .inl (.stop (e.trans hn))
    · exact .inr ⟨[], List.nil_prefix, .stop e⟩
  | step hn _ ih =>
    rename_i it it' e l _
    rcases h.next it with g | ⟨m, it', g⟩
    · rcases ih with ih | ⟨l', h1, h2⟩
      · exact .inl (.step (g.trans hn) ih)
      · exact .inr ⟨e :: l', by simpa using h1, .step (g.trans hn) h2⟩
    · exact .inr ⟨[], List.nil_prefix, .stop g⟩

theorem newIter_uncommitted {H : Hasher D} {v0 next : Version} {ops : List Op} {s : Store D} (h : Reached H v0 ops s next) {v : Version}
    (hv : ¬ (v0 ≤ v ∧ v < next)) (k : Key) : Iter.new s.reader v k = .error (.err "Missing node") := by
  unfold Iter.new
  have : s.reader.getNode (.newEmptyPath v) = .error (.err "Missing node") := by
    unfold Reader.getNode
    rw [show s.reader.getNodeOption (.newEmptyPath v) = none from uncommitted h hv []]
  unfold Iter.newLoop
  rw [this]

/-- **C63**, iteration: at any version, an iterator is made without panic, and the pairs it yields are those of the version from the
given key on, in order: all of them, or the first ones and then an error. -/
theorem C63_iterate (H : Hasher D) (v0 next : Version) (ops : List Op) (s : Store D) (h : Reached H v0 ops s next) (v : Version) (k : Key) :
    NoPanic (Iter.new s.reader v k) ∧ ∀ it, Iter.new s.reader v k = .ok it → v0 ≤ v ∧ v < next ∧
      ∃ l, Listing (fun k' => if k ≤ k' then contentsAt v0 ops v k' else none) l ∧
        (Yields s.reader it l ∨ ∃ l', l' <+: l ∧ Breaks s.reader it l') := by
  obtain ⟨s', h', hb⟩ := unpruned h
  by_cases hc : v0 ≤ v ∧ v < next
  · have hn := h.inv.1
    have hv := readable_withoutPurges hc.1 (hn ▸ hc.2)
    obtain ⟨it, l, h1, h2, h3⟩ := C16_iterate_from_key h' hv k
    rw [contentsAt_withoutPurges] at h3
    rcases hb.newIter v k with e | ⟨m, e⟩
    · rw [e, h1]
      refine ⟨fun m hm => (by cases hm), ?_⟩
      intro it' hit
      cases hit
      exact ⟨hc.1, hc.2, l, h3, yields_below hb h2⟩
    · rw [e]; exact ⟨fun m hm => (by cases hm), fun x hx => (by cases hx)⟩
  · rw [newIter_uncommitted h hc]
    exact ⟨fun m hm => (by cases hm), fun x hx => (by cases hx)⟩

/-- Two versions, of which the first is pruned. -/
def exPruned : List Op := [.update true [[(key 1 1, some [1])], [(key 1 1, some [2])]], .purge 1]

theorem exPruned_root (s : Store Term) (next : Version) (h : Reached termHasher 0 exPruned s next) : s.nodes.get ⟨0, []⟩ = none := by
  have hd : ((runOps termHasher exPruned (Store.empty, 0)).map (fun s => (s.1.nodes.get ⟨0, []⟩).isNone)).toOption = some true := by
    decide +kernel
  rw [h.run] at hd
  simp only [Except.map, Except.toOption, Option.some.injEq, Option.isNone_iff_eq_none] at hd
  exact hd

/-- The hypotheses of C63 hold of a history with a pruned version 0; version 0 is no longer readable, and reading it is an error. -/
example : ∃ s, Reached termHasher 0 exPruned s 2 ∧ (∃ e, Tree.getWithProof termHasher s.reader (key 1 1) 0 = .error e) ∧
    NoPanic (Tree.getWithProof termHasher s.reader (key 1 1) 0) ∧ NoPanic (Iter.new s.reader 7 (key 1 1)) ∧ ¬ Readable 0 exPruned 0 := by
  obtain ⟨s, h⟩ := Reached.exists (v0 := 0) (ops := exPruned) termHasher ⟨.inl rfl, by simp [exPruned, commitsOf, Op.commits]⟩
  have h : Reached termHasher 0 exPruned s 2 := h
  have hn : s.reader.getNodeOption ⟨0, []⟩ = none := exPruned_root s 2 h
  refine ⟨s, h, ⟨.err "Missing root", ?_⟩, (C63_get_with_proof _ _ _ _ _ h 0 (key 1 1)).1, (C63_iterate _ _ _ _ _ h 7 (key 1 1)).1, ?_⟩
  · unfold Tree.getWithProof
    show Tree.getWithProofLoop termHasher s.reader _ 0 (64 + 1) 0 ⟨0, []⟩ _ _ = _
    unfold Tree.getWithProofLoop
    rw [hn]
    rfl
  · intro hr
    rcases hr.kept with hk | hk
    · have := hk 1 (by simp [exPruned])
      omega
    · revert hk; decide +kernel

end Verif.Props
