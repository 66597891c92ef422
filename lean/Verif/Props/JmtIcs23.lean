import Verif.Proofs.Ics23
import Verif.Props.JmtExclusion
/-! Properties C31 and C55: the ICS23 proofs of a version verify against its root hash. -/

set_option autoImplicit false

namespace Verif.Props
open Verif Verif.Jmt Verif.Spec Verif.Ics23

variable {sha : List UInt8 → Key} {host : Host}

/-- No other key of the map shares the first 64 bits with `k`. -/
def Alone64 (f : Key → Option Value) (k : Key) : Prop :=
  ∀ a, (f a).isSome = true → a ≠ k → ∃ j, j < 64 ∧ a.bit j ≠ k.bit j

theorem foldUp_present {D : Type} {H : Hasher D} {t : VTree D} {f : Key → Option Value} (hh : Holding H t f) {k : Key} {x : Value}
    (hk : f k = some x) :
    SparseMerkleProof.foldUp H (proofOf (smtPath H k 256 t.entries)).siblings k (H.leaf k (H.value x)) = t.hash H := by
  have hag : Agree 256 t.entries := agree_top (VTree.entries_nodup hh.1)
  have hlen := smtPath_length H k 256 t.entries
  have hm := smtPath_find H k 256 hag ((hh.2 k (H.value x)).2 (by rw [hk]; rfl))
  rw [foldUp_eq_climb H _ k _ (by simpa [proofOf] using hlen)]
  have := climb_smtPath H k 256 (Nat.le_refl _) hag
  simp only [Nat.sub_self, List.drop_zero] at this
  simp only [proofOf, List.reverse_reverse]
  rw [hm] at this
  rw [VTree.hash_eq_smt H hh.1]; exact this

theorem siblings_le {D : Type} (H : Hasher D) (k : Key) (l : List (Key × D)) : (proofOf (smtPath H k 256 l)).siblings.length ≤ 256 := by
  simpa [proofOf] using smtPath_length H k 256 l

theorem depth_iff {D : Type} {H : Hasher D} {t : VTree D} {f : Key → Option Value} (hh : Holding H t f) {k : Key} {x : Value}
    (hk : f k = some x) : (proofOf (smtPath H k 256 t.entries)).siblings.length ≤ 64 ↔ Alone64 f k := by
  have hag : Agree 256 t.entries := agree_top (VTree.entries_nodup hh.1)
  have := smtPath_depth_iff H k 256 (Nat.le_refl _) hag ((hh.2 k (H.value x)).2 (by rw [hk]; rfl)) 64 (by omega) (by omega)
  simp only [Nat.sub_self, Nat.add_zero] at this
  simp only [proofOf, List.length_reverse]
  rw [this]
  unfold Alone64
  constructor
  · intro h a ha hne
    obtain ⟨y, hy⟩ := (mem_entries_iff hh a).2 ha
    exact h _ hy hne
  · intro h e he hne
    exact h e.1 ((mem_entries_iff hh e.1).1 ⟨e.2, he⟩) hne

/-- **C31**, the root. For a key present in a readable version `get_with_ics23_proof` returns the value and an existence proof for that
key and value, with the leaf operation of `ics23_spec`; evaluating it in the way of the ICS23 standard gives the root hash of the
version (the standard does not evaluate proofs of empty keys or values). -/
theorem C31_existence_root (hh : ShaHost sha host) (v0 next : Version) (ops : List Op) (s : Store Key)
    (h : Reached (Tree.shaHasher sha) v0 ops s next) (v : Version) (hv : Readable v0 ops v) (preimage : Key → Option Bytes)
    (key : Bytes) (value : Value) (hk : contentsAt v0 ops v (sha key) = some value) :
    ∃ p root, Tree.getWithIcs23Proof sha s.reader preimage key v = .ok (some value, .exist p) ∧
      Tree.getRootHash (Tree.shaHasher sha) s.reader v = .ok root ∧ p.key = key ∧ p.value = value ∧ p.leaf = some Tree.ics23Spec.leafSpec ∧
      (key ≠ [] → value ≠ [] → calculateRoot host Tree.ics23Spec p = .ok root.bytes) := by
  have hf := h.facts hv
  obtain ⟨q, hq⟩ := C19_present (Tree.shaHasher sha) v0 next ops s h v hv (sha key) value hk
  have hq' : q = proofOf (smtPath (Tree.shaHasher sha) (sha key) 256 (treeAt (Tree.shaHasher sha) v0 (commitsOf ops) v).entries) := by
    rcases exclusion_cases (Tree.shaHasher sha) v0 next ops s h v hv (sha key) with ⟨x, p, h1, h2, h3⟩ | ⟨h1, _⟩ | ⟨h1, _⟩ | ⟨h1, _⟩
    · rw [h2] at hq; cases hq
      rw [hf.getWithProof, hk] at h3
      cases h3; rfl
    all_goals rw [h1] at hk; cases hk
  have hp := toExistenceProof_path (sha := sha) (key := key) (value := value) (p := q) (by rw [hq']; exact siblings_le _ _ _)
  refine ⟨⟨key, value, some Tree.toLeafOp, (opsOf (q.siblings.reverse.zip (sha key).bits)).reverse⟩, _, ?_, hf.getRootHash, rfl, rfl, rfl, ?_⟩
  · unfold Tree.getWithIcs23Proof
    rw [hq]
    simp only [Res.ok_bind, hp]
    rfl
  · intro hk0 hv0
    have hfold := foldUp_present hf.hold hk
    rw [← hq'] at hfold
    rw [calculateRoot_ok hh hk0 hv0 hp]
    exact congrArg (fun r : Key => Except.ok r.bytes) hfold

/-- **C31**, verification, partial: the existence proof passes verification against `ics23_spec` and the root hash exactly when neither
the key nor the value is empty and no other key of the version shares the first 64 bits of the key hash. The full statement has no such
conditions; it is false, see `C31_depth_false`, `C31_empty_value_false`. -/
theorem C31_existence_verifies_partial (hh : ShaHost sha host) (v0 next : Version) (ops : List Op) (s : Store Key)
    (h : Reached (Tree.shaHasher sha) v0 ops s next) (v : Version) (hv : Readable v0 ops v) (preimage : Key → Option Bytes)
    (key : Bytes) (value : Value) (hk : contentsAt v0 ops v (sha key) = some value) :
    ∃ p root, Tree.getWithIcs23Proof sha s.reader preimage key v = .ok (some value, .exist p) ∧
      Tree.getRootHash (Tree.shaHasher sha) s.reader v = .ok root ∧
      (verifyExistence host p Tree.ics23Spec root.bytes key value = .ok () ↔
        key ≠ [] ∧ value ≠ [] ∧ Alone64 (contentsAt v0 ops v) (sha key)) := by
  have hf := h.facts hv
  obtain ⟨q, hq⟩ := C19_present (Tree.shaHasher sha) v0 next ops s h v hv (sha key) value hk
  have hq' : q = proofOf (smtPath (Tree.shaHasher sha) (sha key) 256 (treeAt (Tree.shaHasher sha) v0 (commitsOf ops) v).entries) := by
    rcases exclusion_cases (Tree.shaHasher sha) v0 next ops s h v hv (sha key) with ⟨x, p, h1, h2, h3⟩ | ⟨h1, _⟩ | ⟨h1, _⟩ | ⟨h1, _⟩
    · rw [h2] at hq; cases hq
      rw [hf.getWithProof, hk] at h3
      cases h3; rfl
    all_goals rw [h1] at hk; cases hk
  have hp := toExistenceProof_path (sha := sha) (key := key) (value := value) (p := q) (by rw [hq']; exact siblings_le _ _ _)
  have hfold := foldUp_present hf.hold hk
  have hdep := depth_iff hf.hold hk
  rw [← hq'] at hfold hdep
  refine ⟨⟨key, value, some Tree.toLeafOp, (opsOf (q.siblings.reverse.zip (sha key).bits)).reverse⟩, _, ?_, hf.getRootHash, ?_⟩
  · unfold Tree.getWithIcs23Proof
    rw [hq]
    simp only [Res.ok_bind, hp]
    rfl
  · rw [verifyExistence_iff hh hp, hdep]
    constructor
    · rintro ⟨a, b, c, _⟩; exact ⟨a, b, c⟩
    · rintro ⟨a, b, c⟩; exact ⟨a, b, c, hfold⟩

/-! ### non-existence -/

/-- One neighbour's part of the proof. -/
theorem neighbour_ok {s : Store Key} {v : Version} {f : Key → Option Value} {t : VTree Key}
    (hf : VersionFacts (Tree.shaHasher sha) s v f t) {preimage : Key → Option Bytes} {a : Key} {b : Bytes} {x : Value}
    {q : SparseMerkleProof Key} (ha : f a = some x) (hb : preimage a = some b) (hab : sha b = a)
    (hq : Tree.getWithProof (Tree.shaHasher sha) s.reader a v = .ok (f a, q)) :
    Tree.toNeighbour sha s.reader preimage v q =
      .ok ⟨b, x, some Tree.toLeafOp, (opsOf (steps (Tree.shaHasher sha) a 256 t.entries)).reverse⟩ := by
  have hag : Agree 256 t.entries := agree_top (VTree.entries_nodup hf.hold.1)
  rw [hf.getWithProof] at hq
  cases hq
  have hm := smtPath_find (Tree.shaHasher sha) a 256 hag ((hf.hold.2 a _).2 (by rw [ha]; rfl))
  unfold Tree.toNeighbour
  have hl : (proofOf (smtPath (Tree.shaHasher sha) a 256 t.entries)).leaf = some ⟨a, (Tree.shaHasher sha).value x⟩ := by
    simp only [proofOf, hm]; rfl
  simp only [hl, hb, Tree.get, hf.value, ha]
  rw [toExistenceProof_path (siblings_le _ _ _), hab]
  simp only [proofOf, List.reverse_reverse, steps, Nat.sub_self, List.drop_zero]

/-- The bound given by one neighbour passes. -/
theorem neighbour_verifies (hh : ShaHost sha host) {s : Store Key} {v : Version} {f : Key → Option Value} {t : VTree Key}
    (hf : VersionFacts (Tree.shaHasher sha) s v f t) {a : Key} {b : Bytes} {x : Value} (ha : f a = some x) (hab : sha b = a)
    (hb0 : b ≠ []) (hx0 : x ≠ []) (hal : Alone64 f a) (key : Bytes) (before : Bool)
    (hlt : if before then a < sha key else sha key < a) :
    verifyBound host Tree.ics23Spec (t.hash (Tree.shaHasher sha)).bytes key before
      (some ⟨b, x, some Tree.toLeafOp, (opsOf (steps (Tree.shaHasher sha) a 256 t.entries)).reverse⟩) = .ok () := by
  have hp := toExistenceProof_path (sha := sha) (key := b) (value := x)
    (p := proofOf (smtPath (Tree.shaHasher sha) (sha b) 256 t.entries)) (siblings_le _ _ _)
  have e : (opsOf ((proofOf (smtPath (Tree.shaHasher sha) (sha b) 256 t.entries)).siblings.reverse.zip (sha b).bits)).reverse =
      (opsOf (steps (Tree.shaHasher sha) a 256 t.entries)).reverse := by
    simp only [proofOf, List.reverse_reverse, steps, Nat.sub_self, List.drop_zero, hab]
  rw [e] at hp
  have hver := (verifyExistence_iff hh hp (t.hash (Tree.shaHasher sha))).2 ⟨hb0, hx0, by rw [hab]; exact (depth_iff hf.hold ha).2 hal,
    by rw [hab]; exact foldUp_present hf.hold ha⟩
  have hcmp : ∀ k, keyForComparison host Tree.ics23Spec k = .ok (sha k).bytes := by
    intro k
    exact hh.hash k
  simp only [verifyBound, hver, Res.ok_bind, hcmp, hab]
  rw [ensure_ok_iff]
  cases before
  · have : sha key < a := by simpa using hlt
    exact decide_eq_true this
  · have : a < sha key := by simpa using hlt
    exact decide_eq_true this

/-- When the bound given by one neighbour passes, the conditions for it hold. -/
theorem neighbour_needs (hh : ShaHost sha host) {s : Store Key} {v : Version} {f : Key → Option Value} {t : VTree Key}
    (hf : VersionFacts (Tree.shaHasher sha) s v f t) {a : Key} {b : Bytes} {x : Value} (ha : f a = some x) (hab : sha b = a)
    (key : Bytes) (before : Bool)
    (hver : verifyBound host Tree.ics23Spec (t.hash (Tree.shaHasher sha)).bytes key before
      (some ⟨b, x, some Tree.toLeafOp, (opsOf (steps (Tree.shaHasher sha) a 256 t.entries)).reverse⟩) = .ok ()) :
    b ≠ [] ∧ x ≠ [] ∧ Alone64 f a := by
  have hp := toExistenceProof_path (sha := sha) (key := b) (value := x)
    (p := proofOf (smtPath (Tree.shaHasher sha) (sha b) 256 t.entries)) (siblings_le _ _ _)
  have e : (opsOf ((proofOf (smtPath (Tree.shaHasher sha) (sha b) 256 t.entries)).siblings.reverse.zip (sha b).bits)).reverse =
      (opsOf (steps (Tree.shaHasher sha) a 256 t.entries)).reverse := by
    simp only [proofOf, List.reverse_reverse, steps, Nat.sub_self, List.drop_zero, hab]
  rw [e] at hp
  obtain ⟨_, h1, _⟩ := Res.bind_ok_iff.1 hver
  obtain ⟨hb0, hx0, hd, _⟩ := (verifyExistence_iff hh hp (t.hash (Tree.shaHasher sha))).1 h1
  rw [hab] at hd
  exact ⟨hb0, hx0, (depth_iff hf.hold ha).1 hd⟩

/-- What a neighbour's inclusion proof is turned into, or not, whether or not the preimage is right. -/
theorem neighbour_iff {s : Store Key} {v : Version} {f : Key → Option Value} {t : VTree Key}
    (hf : VersionFacts (Tree.shaHasher sha) s v f t) {preimage : Key → Option Bytes} {a : Key} (ha : (f a).isSome = true)
    {q : SparseMerkleProof Key} (hq : Tree.getWithProof (Tree.shaHasher sha) s.reader a v = .ok (f a, q)) :
    (∃ r, Tree.toNeighbour sha s.reader preimage v q = .ok r) ↔ (preimage a).isSome = true := by
  obtain ⟨x, hx⟩ := Option.isSome_iff_exists.1 ha
  have hag : Agree 256 t.entries := agree_top (VTree.entries_nodup hf.hold.1)
  rw [hf.getWithProof] at hq
  cases hq
  have hm := smtPath_find (Tree.shaHasher sha) a 256 hag ((hf.hold.2 a _).2 (by rw [hx]; rfl))
  unfold Tree.toNeighbour
  have hl : (proofOf (smtPath (Tree.shaHasher sha) a 256 t.entries)).leaf = some ⟨a, (Tree.shaHasher sha).value x⟩ := by
    simp only [proofOf, hm]; rfl
  simp only [hl]
  cases hb : preimage a with
  | none => simp
  | some b =>
    simp only [Tree.get, hf.value, hx, Option.isSome_some, iff_true]
    exact ⟨_, toExistenceProof_path (siblings_le _ _ _)⟩

/-- **C55**, partial: every non-existence proof that `get_with_ics23_proof` returns on a readable version passes verification against
`ics23_spec` and the root hash, and the key is absent. Assumed: the stored preimages are right, and the neighbours used have non-empty keys and values and do
not share their first 64 bits with another key. The full statement lacks the last two conditions, without which it is false, see
`C55_empty_value_false`. -/
theorem C55_nonexistence_verifies_partial (hh : ShaHost sha host) (v0 next : Version) (ops : List Op) (s : Store Key)
    (h : Reached (Tree.shaHasher sha) v0 ops s next) (v : Version) (hv : Readable v0 ops v) (preimage : Key → Option Bytes)
    (hpre : ∀ a b, preimage a = some b → sha b = a) (key : Bytes) (o : Option Value) (p : NonExistenceProof)
    (hp : Tree.getWithIcs23Proof sha s.reader preimage key v = .ok (o, .nonexist p))
    (hgood : ∀ a, GreatestBelow (contentsAt v0 ops v) (sha key) a ∨ LeastAbove (contentsAt v0 ops v) (sha key) a →
      preimage a ≠ some [] ∧ contentsAt v0 ops v a ≠ some [] ∧ Alone64 (contentsAt v0 ops v) a) :
    o = none ∧ contentsAt v0 ops v (sha key) = none ∧ p.key = key ∧
      ∃ root, Tree.getRootHash (Tree.shaHasher sha) s.reader v = .ok root ∧
        verifyNonExistence host p Tree.ics23Spec root.bytes key = .ok () := by
  have hf := h.facts hv
  generalize treeAt (Tree.shaHasher sha) v0 (commitsOf ops) v = T at *
  have hag : Agree 256 T.entries := agree_top (VTree.entries_nodup hf.hold.1)
  unfold Tree.getWithIcs23Proof at hp
  rcases exclusion_cases (Tree.shaHasher sha) v0 next ops s h v hv (sha key) with ⟨x, q, h1, h2, h3⟩ | ⟨h1, h3, h2⟩ | ⟨h1, e, h2, h3⟩ | ⟨h1, h2, _⟩
  · rw [h2] at hp
    simp only [Res.ok_bind] at hp
    obtain ⟨_, _, hc⟩ := Res.bind_ok_iff.1 hp
    cases hc
  · rw [h2] at hp; cases hp
  · rw [h2] at hp
    simp only [Res.ok_bind] at hp
    obtain ⟨p', hp', hc⟩ := Res.bind_ok_iff.1 hp
    simp only [Res.pure_eq, Except.ok.injEq, Prod.mk.injEq, CommitmentProof.nonexist.injEq] at hc
    obtain ⟨rfl, rfl⟩ := hc
    refine ⟨rfl, h1, ?_⟩
    generalize contentsAt v0 ops v = f at *
    -- what one neighbour gives
    have hone : ∀ a q, (GreatestBelow f (sha key) a ∨ LeastAbove f (sha key) a) →
        Tree.getWithProof (Tree.shaHasher sha) s.reader a v = .ok (f a, q) → ∀ r, Tree.toNeighbour sha s.reader preimage v q = .ok r →
        r.path = (opsOf (steps (Tree.shaHasher sha) a 256 T.entries)).reverse ∧
        verifyBound host Tree.ics23Spec (T.hash (Tree.shaHasher sha)).bytes key (decide (a < sha key)) (some r) = .ok () := by
      intro a q ha hq r hr
      obtain ⟨g1, g2, g3⟩ := hgood a ha
      have hsome : (f a).isSome = true := by rcases ha with ha | ha <;> exact ha.present
      obtain ⟨x, hx⟩ := Option.isSome_iff_exists.1 hsome
      cases hb : preimage a with
      | none =>
        exfalso
        rw [hf.getWithProof] at hq
        cases hq
        have hm := smtPath_find (Tree.shaHasher sha) a 256 hag ((hf.hold.2 a _).2 (by rw [hx]; rfl))
        unfold Tree.toNeighbour at hr
        simp only [proofOf, hm, Option.map_some, hb] at hr
        cases hr
      | some b =>
        have hab := hpre a b hb
        rw [neighbour_ok hf hx hb hab hq] at hr
        cases hr
        refine ⟨rfl, neighbour_verifies hh hf hx hab (by rintro rfl; exact g1 hb) (by rintro rfl; exact g2 hx) g3 key _ ?_⟩
        rcases ha with ha | ha
        · simp [ha.below]
        · have : ¬ a < sha key := fun hc => List.lt_asymm (show a.bytes < (sha key).bytes from hc) ha.above
          simp [this, ha.above]
    have hnot : ∀ a, LeastAbove f (sha key) a → decide (a < sha key) = false := by
      intro a ha
      exact decide_eq_false (fun hc => List.lt_asymm (show a.bytes < (sha key).bytes from hc) ha.above)
    cases e with
    | leftmost right =>
      obtain ⟨g1, b, g2, g3⟩ := h3
      obtain ⟨r, hr, hc⟩ := Res.bind_ok_iff.1 hp'
      cases hc
      obtain ⟨k1, k2⟩ := hone b right (.inr g2) g3 r hr
      rw [hnot b g2] at k2
      refine ⟨rfl, _, hf.getRootHash, ?_⟩
      simp only [verifyNonExistence, k2, Res.ok_bind]
      show Except.ok () >>= _ = _
      rw [Res.ok_bind, k1, ensureLeftMost_iff (sha := sha)]
      obtain ⟨y, hy⟩ := (mem_entries_iff hf.hold b).2 g2.present
      refine leftMost_steps _ b 256 (Nat.le_refl _) hag hy ?_
      intro e he hlt
      have hpres := (mem_entries_iff hf.hold e.1).1 ⟨e.2, he⟩
      rcases Key.lt_tri e.1 (sha key) with hc | hc | hc
      · rw [g1 _ hc] at hpres; cases hpres
      · rw [hc, h1] at hpres; cases hpres
      · exact g2.least _ hpres hc hlt
    | rightmost left =>
      obtain ⟨⟨a, g2, g3⟩, g1⟩ := h3
      obtain ⟨r, hr, hc⟩ := Res.bind_ok_iff.1 hp'
      cases hc
      obtain ⟨k1, k2⟩ := hone a left (.inl g2) g3 r hr
      rw [decide_eq_true g2.below] at k2
      refine ⟨rfl, _, hf.getRootHash, ?_⟩
      simp only [verifyNonExistence, k2, Res.ok_bind]
      show Except.ok () >>= _ = _
      rw [Res.ok_bind, k1, ensureRightMost_iff (sha := sha)]
      obtain ⟨y, hy⟩ := (mem_entries_iff hf.hold a).2 g2.present
      refine rightMost_steps _ a 256 (Nat.le_refl _) hag hy ?_
      intro e he hlt
      have hpres := (mem_entries_iff hf.hold e.1).1 ⟨e.2, he⟩
      rcases Key.lt_tri e.1 (sha key) with hc | hc | hc
      · exact g2.greatest _ hpres hc hlt
      · rw [hc, h1] at hpres; cases hpres
      · rw [g1 _ hc] at hpres; cases hpres
    | middle right left =>
      obtain ⟨⟨a, g2, g3⟩, b, g4, g5⟩ := h3
      obtain ⟨r, hr, hc⟩ := Res.bind_ok_iff.1 hp'
      obtain ⟨l, hl, hc⟩ := Res.bind_ok_iff.1 hc
      cases hc
      obtain ⟨k1, k2⟩ := hone a left (.inl g2) g3 l hl
      obtain ⟨k3, k4⟩ := hone b right (.inr g4) g5 r hr
      rw [decide_eq_true g2.below] at k2
      rw [hnot b g4] at k4
      refine ⟨rfl, _, hf.getRootHash, ?_⟩
      simp only [verifyNonExistence, k2, k4, Res.ok_bind]
      rw [k1, k3]
      obtain ⟨y, hy⟩ := (mem_entries_iff hf.hold a).2 g2.present
      obtain ⟨z, hz⟩ := (mem_entries_iff hf.hold b).2 g4.present
      obtain ⟨c, s', t', l1, l2, e1, e2, e3, e4⟩ := neighbour_steps (Tree.shaHasher sha) a b 256 (Nat.le_refl _) hag hy hz
        (List.lt_trans (show a.bytes < (sha key).bytes from g2.below) g4.above) (by
          rintro e he ⟨hlt1, hlt2⟩
          have hpres := (mem_entries_iff hf.hold e.1).1 ⟨e.2, he⟩
          rcases Key.lt_tri e.1 (sha key) with hc | hc | hc
          · exact g2.greatest _ hpres hc hlt1
          · rw [hc, h1] at hpres; cases hpres
          · exact g4.least _ hpres hc hlt2)
      rw [e1, e2]
      exact leftNeighbor_ok (sha := sha) c l1 l2 s' t' e3 e4
  · rw [h2] at hp; cases hp

/-- **C55**, partial: for an absent key of a non-empty readable version `get_with_ics23_proof` returns a non-existence proof,
provided the preimages of the nearest keys are stored, and those keys were written by the commit of that version or the version is the
first one. The full statement lacks the last condition (false, see `C19_older_neighbour_false`). -/
theorem C55_nonexistence_exists_partial (v0 next : Version) (ops : List Op) (s : Store Key)
    (h : Reached (Tree.shaHasher sha) v0 ops s next) (v : Version) (hv : Readable v0 ops v) (preimage : Key → Option Bytes)
    (key : Bytes) (hk : contentsAt v0 ops v (sha key) = none) (hne : ∃ a, (contentsAt v0 ops v a).isSome = true)
    (hnew : v = v0 ∨ ∃ c, (commitsOf ops)[v - v0]? = some c ∧
      ∀ a, GreatestBelow (contentsAt v0 ops v) (sha key) a ∨ LeastAbove (contentsAt v0 ops v) (sha key) a → ∃ x, (a, x) ∈ c.updates)
    (hpre : ∀ a, GreatestBelow (contentsAt v0 ops v) (sha key) a ∨ LeastAbove (contentsAt v0 ops v) (sha key) a →
      ∃ b, preimage a = some b ∧ sha b = a) :
    ∃ p, Tree.getWithIcs23Proof sha s.reader preimage key v = .ok (none, .nonexist p) := by
  have hf := h.facts hv
  rcases exclusion_cases (Tree.shaHasher sha) v0 next ops s h v hv (sha key) with ⟨x, q, h1, _⟩ | ⟨h1, h3, h2⟩ | ⟨h1, e, h2, h3⟩ | ⟨h1, h2, a, h4, h3⟩
  · rw [h1] at hk; cases hk
  · obtain ⟨a, ha⟩ := hne
    rw [h3 a] at ha; cases ha
  · have hone : ∀ a q, (GreatestBelow (contentsAt v0 ops v) (sha key) a ∨ LeastAbove (contentsAt v0 ops v) (sha key) a) →
        Tree.getWithProof (Tree.shaHasher sha) s.reader a v = .ok (contentsAt v0 ops v a, q) →
        ∃ r, Tree.toNeighbour sha s.reader preimage v q = .ok r := by
      intro a q ha hq
      obtain ⟨b, hb, hab⟩ := hpre a ha
      have hsome : (contentsAt v0 ops v a).isSome = true := by rcases ha with ha | ha <;> exact ha.present
      obtain ⟨x, hx⟩ := Option.isSome_iff_exists.1 hsome
      exact ⟨_, neighbour_ok hf hx hb hab hq⟩
    unfold Tree.getWithIcs23Proof
    rw [h2]
    simp only [Res.ok_bind]
    cases e with
    | leftmost right =>
      obtain ⟨_, b, g2, g3⟩ := h3
      obtain ⟨r, hr⟩ := hone b right (.inr g2) g3
      simp only [Tree.toNonExistenceProof, hr]
      exact ⟨_, rfl⟩
    | rightmost left =>
      obtain ⟨⟨a, g2, g3⟩, _⟩ := h3
      obtain ⟨r, hr⟩ := hone a left (.inl g2) g3
      simp only [Tree.toNonExistenceProof, hr]
      exact ⟨_, rfl⟩
    | middle right left =>
      obtain ⟨⟨a, g2, g3⟩, b, g4, g5⟩ := h3
      obtain ⟨l, hl⟩ := hone a left (.inl g2) g3
      obtain ⟨r, hr⟩ := hone b right (.inr g4) g5
      simp only [Tree.toNonExistenceProof, hr, hl]
      exact ⟨_, rfl⟩
  · refine absurd ?_ h3
    rcases hnew with hnew | ⟨c, hc, hall⟩
    · exact .inl hnew
    · exact .inr ⟨c, hc, hall a h4⟩

/-- **C55**, exactly when: for an absent key of a non-empty readable version `get_with_ics23_proof` returns a non-existence proof if and
only if each of the nearest keys has a stored preimage and can be found, in the sense of `C19_exact`: the walk to the missing key ends at
its leaf, or the node where its path leaves that of the missing key was written by this very version. -/
theorem C55_exact (v0 next : Version) (ops : List Op) (s : Store Key)
    (h : Reached (Tree.shaHasher sha) v0 ops s next) (v : Version) (hv : Readable v0 ops v) (preimage : Key → Option Bytes)
    (key : Bytes) (hk : contentsAt v0 ops v (sha key) = none) (hne : ∃ a, (contentsAt v0 ops v a).isSome = true) :
    (∃ o p, Tree.getWithIcs23Proof sha s.reader preimage key v = .ok (o, .nonexist p)) ↔
      ∀ a, GreatestBelow (contentsAt v0 ops v) (sha key) a ∨ LeastAbove (contentsAt v0 ops v) (sha key) a →
        (preimage a).isSome = true ∧
        ((∃ p l, Tree.getWithProof (Tree.shaHasher sha) s.reader (sha key) v = .ok (none, p) ∧ p.leaf = some l ∧ l.keyHash = a) ∨
          ∃ q, Parting (sha key) a q ∧ (s.nodes.get ⟨v, q⟩).isSome = true) := by
  have hf := h.facts hv
  unfold Tree.getWithIcs23Proof
  rcases exclusion_cases' (Tree.shaHasher sha) v0 next ops s h v hv (sha key) with ⟨x, q, h1, _⟩ | ⟨h1, h3, h2⟩ | ⟨h1, e, h2, h3, h4⟩ | ⟨h1, h2, a, q, h4, h3, _⟩
  · rw [h1] at hk; cases hk
  · obtain ⟨a, ha⟩ := hne
    rw [h3 a] at ha; cases ha
  · rw [h2]
    simp only [Res.ok_bind]
    have hfind : (∀ a, GreatestBelow (contentsAt v0 ops v) (sha key) a ∨ LeastAbove (contentsAt v0 ops v) (sha key) a →
        (preimage a).isSome = true ∧
        ((∃ p l, Tree.getWithProof (Tree.shaHasher sha) s.reader (sha key) v = .ok (none, p) ∧ p.leaf = some l ∧ l.keyHash = a) ∨
          ∃ q, Parting (sha key) a q ∧ (s.nodes.get ⟨v, q⟩).isSome = true)) ↔
        ∀ a, GreatestBelow (contentsAt v0 ops v) (sha key) a ∨ LeastAbove (contentsAt v0 ops v) (sha key) a →
          (preimage a).isSome = true :=
      ⟨fun g a ha => (g a ha).1, fun g a ha => ⟨g a ha, h4 a ha⟩⟩
    rw [hfind]
    have hbind : (∃ o p, (Tree.toNonExistenceProof sha s.reader preimage key v e >>= fun p => pure (none, CommitmentProof.nonexist p)) =
        (.ok (o, .nonexist p) : Res (Option Value × CommitmentProof))) ↔
        ∃ p, Tree.toNonExistenceProof sha s.reader preimage key v e = .ok p := by
      cases Tree.toNonExistenceProof sha s.reader preimage key v e with
      | ok p => simp [Res.ok_bind]
      | error z =>
        constructor
        · rintro ⟨_, _, hc⟩; cases hc
        · rintro ⟨_, hc⟩; cases hc
    rw [hbind]
    have hone : ∀ a q, (GreatestBelow (contentsAt v0 ops v) (sha key) a ∨ LeastAbove (contentsAt v0 ops v) (sha key) a) →
        Tree.getWithProof (Tree.shaHasher sha) s.reader a v = .ok (contentsAt v0 ops v a, q) →
        ((∃ r, Tree.toNeighbour sha s.reader preimage v q = .ok r) ↔ (preimage a).isSome = true) := by
      intro a q ha hq
      exact neighbour_iff hf (by rcases ha with ha | ha <;> exact ha.present) hq
    cases e with
    | leftmost right =>
      obtain ⟨g1, b, g2, g3⟩ := h3
      have hb := hone b right (.inr g2) g3
      constructor
      · rintro ⟨p, hp⟩ a ha
        obtain ⟨r, hr, _⟩ := Res.bind_ok_iff.1 hp
        rcases ha with ha | ha
        · have := ha.present; rw [g1 _ ha.below] at this; cases this
        · rw [leastAbove_unique ha g2]; exact hb.1 ⟨r, hr⟩
      · intro hall
        obtain ⟨r, hr⟩ := hb.2 (hall b (.inr g2))
        simp only [Tree.toNonExistenceProof, hr]
        exact ⟨_, rfl⟩
    | rightmost left =>
      obtain ⟨⟨a', g2, g3⟩, g1⟩ := h3
      have hb := hone a' left (.inl g2) g3
      constructor
      · rintro ⟨p, hp⟩ a ha
        obtain ⟨r, hr, _⟩ := Res.bind_ok_iff.1 hp
        rcases ha with ha | ha
        · rw [greatestBelow_unique ha g2]; exact hb.1 ⟨r, hr⟩
        · have := ha.present; rw [g1 _ ha.above] at this; cases this
      · intro hall
        obtain ⟨r, hr⟩ := hb.2 (hall a' (.inl g2))
        simp only [Tree.toNonExistenceProof, hr]
        exact ⟨_, rfl⟩
    | middle right left =>
      obtain ⟨⟨a', g2, g3⟩, b, g4, g5⟩ := h3
      have hl := hone a' left (.inl g2) g3
      have hr := hone b right (.inr g4) g5
      constructor
      · rintro ⟨p, hp⟩ a ha
        obtain ⟨r, hr', hc⟩ := Res.bind_ok_iff.1 hp
        obtain ⟨l, hl', _⟩ := Res.bind_ok_iff.1 hc
        rcases ha with ha | ha
        · rw [greatestBelow_unique ha g2]; exact hl.1 ⟨l, hl'⟩
        · rw [leastAbove_unique ha g4]; exact hr.1 ⟨r, hr'⟩
      · intro hall
        obtain ⟨l, hl'⟩ := hl.2 (hall a' (.inl g2))
        obtain ⟨r, hr'⟩ := hr.2 (hall b (.inr g4))
        simp only [Tree.toNonExistenceProof, hr', hl']
        exact ⟨_, rfl⟩
  · rw [h2]
    constructor
    · rintro ⟨_, _, hc⟩; cases hc
    · intro hall
      exact absurd (hall a h4).2 h3

/-- **C55**, exactly when it verifies: with right preimages, a non-existence proof that `get_with_ics23_proof` returns passes the ICS23
verification if and only if the nearest keys have non-empty preimages and values and do not share their first 64 bits with another key. -/
theorem C55_verifies_exact (hh : ShaHost sha host) (v0 next : Version) (ops : List Op) (s : Store Key)
    (h : Reached (Tree.shaHasher sha) v0 ops s next) (v : Version) (hv : Readable v0 ops v) (preimage : Key → Option Bytes)
    (hpre : ∀ a b, preimage a = some b → sha b = a) (key : Bytes) (o : Option Value) (p : NonExistenceProof)
    (hp : Tree.getWithIcs23Proof sha s.reader preimage key v = .ok (o, .nonexist p)) :
    ∃ root, Tree.getRootHash (Tree.shaHasher sha) s.reader v = .ok root ∧
      (verifyNonExistence host p Tree.ics23Spec root.bytes key = .ok () ↔
        ∀ a, GreatestBelow (contentsAt v0 ops v) (sha key) a ∨ LeastAbove (contentsAt v0 ops v) (sha key) a →
          preimage a ≠ some [] ∧ contentsAt v0 ops v a ≠ some [] ∧ Alone64 (contentsAt v0 ops v) a) := by
  have hf := h.facts hv
  refine ⟨_, hf.getRootHash, ?_, ?_⟩
  swap
  · intro hgood
    obtain ⟨_, _, _, root, hroot, hok⟩ := C55_nonexistence_verifies_partial hh v0 next ops s h v hv preimage hpre key o p hp hgood
    rw [hf.getRootHash] at hroot
    cases hroot
    exact hok
  intro hok
  generalize treeAt (Tree.shaHasher sha) v0 (commitsOf ops) v = T at *
  obtain ⟨_, hleft, hok⟩ := Res.bind_ok_iff.1 hok
  obtain ⟨_, hright, _⟩ := Res.bind_ok_iff.1 hok
  unfold Tree.getWithIcs23Proof at hp
  rcases exclusion_cases (Tree.shaHasher sha) v0 next ops s h v hv (sha key) with ⟨x, q, h1, h2, h3⟩ | ⟨h1, h3, h2⟩ | ⟨h1, e, h2, h3⟩ | ⟨h1, h2, _⟩
  · rw [h2] at hp
    simp only [Res.ok_bind] at hp
    obtain ⟨_, _, hc⟩ := Res.bind_ok_iff.1 hp
    cases hc
  · rw [h2] at hp; cases hp
  · rw [h2] at hp
    simp only [Res.ok_bind] at hp
    obtain ⟨p', hp', hc⟩ := Res.bind_ok_iff.1 hp
    simp only [Res.pure_eq, Except.ok.injEq, Prod.mk.injEq, CommitmentProof.nonexist.injEq] at hc
    obtain ⟨rfl, rfl⟩ := hc
    have hone : ∀ a q, (GreatestBelow (contentsAt v0 ops v) (sha key) a ∨ LeastAbove (contentsAt v0 ops v) (sha key) a) →
        Tree.getWithProof (Tree.shaHasher sha) s.reader a v = .ok (contentsAt v0 ops v a, q) →
        ∀ r, Tree.toNeighbour sha s.reader preimage v q = .ok r → ∀ before,
        verifyBound host Tree.ics23Spec (T.hash (Tree.shaHasher sha)).bytes key before (some r) = .ok () →
        preimage a ≠ some [] ∧ contentsAt v0 ops v a ≠ some [] ∧ Alone64 (contentsAt v0 ops v) a := by
      intro a q ha hq r hr before hver
      have hsome : (contentsAt v0 ops v a).isSome = true := by rcases ha with ha | ha <;> exact ha.present
      obtain ⟨x, hx⟩ := Option.isSome_iff_exists.1 hsome
      obtain ⟨b, hb⟩ := Option.isSome_iff_exists.1 ((neighbour_iff hf hsome hq).1 ⟨r, hr⟩)
      have hab := hpre a b hb
      rw [neighbour_ok hf hx hb hab hq] at hr
      cases hr
      obtain ⟨n1, n2, n3⟩ := neighbour_needs hh hf hx hab key before hver
      rw [hb, hx]
      exact ⟨by simpa using n1, by simpa using n2, n3⟩
    cases e with
    | leftmost right =>
      obtain ⟨g1, b, g2, g3⟩ := h3
      obtain ⟨r, hr, hc⟩ := Res.bind_ok_iff.1 hp'
      cases hc
      rintro a (ha | ha)
      · have := ha.present; rw [g1 _ ha.below] at this; cases this
      · rw [leastAbove_unique ha g2]; exact hone b right (.inr g2) g3 r hr _ hright
    | rightmost left =>
      obtain ⟨⟨a', g2, g3⟩, g1⟩ := h3
      obtain ⟨r, hr, hc⟩ := Res.bind_ok_iff.1 hp'
      cases hc
      rintro a (ha | ha)
      · rw [greatestBelow_unique ha g2]; exact hone a' left (.inl g2) g3 r hr _ hleft
      · have := ha.present; rw [g1 _ ha.above] at this; cases this
    | middle right left =>
      obtain ⟨⟨a', g2, g3⟩, b, g4, g5⟩ := h3
      obtain ⟨r, hr, hc⟩ := Res.bind_ok_iff.1 hp'
      obtain ⟨l, hl, hc⟩ := Res.bind_ok_iff.1 hc
      cases hc
      rintro a (ha | ha)
      · rw [greatestBelow_unique ha g2]; exact hone a' left (.inl g2) g3 l hl _ hleft
      · rw [leastAbove_unique ha g4]; exact hone b right (.inr g4) g5 r hr _ hright
  · rw [h2] at hp; cases hp

/-! ### the counterexamples -/

/-- One version with two keys. -/
def twoKeys (a b : Key) (x y : Value) : List Op := [.update true [[(a, some x), (b, some y)]]]

theorem twoKeys_reached {D : Type} (H : Hasher D) (a b : Key) (x y : Value) : ∃ s, Reached H 0 (twoKeys a b x y) s 1 :=
  Reached.exists H ⟨.inl rfl, by simp [twoKeys, commitsOf, Op.commits]⟩

theorem twoKeys_readable (a b : Key) (x y : Value) : Readable 0 (twoKeys a b x y) 0 :=
  ⟨by simp, by simp [twoKeys, commitsOf, Op.commits], .inl (by simp [twoKeys])⟩

theorem twoKeys_contents (a b : Key) (x y : Value) (k : Key) :
    contentsAt 0 (twoKeys a b x y) 0 k = if k = b then some y else if k = a then some x else none := by
  simp [contentsAt, twoKeys, commitsOf, Op.commits, Commit.updates, contents, applyUpdates]

/-- **C31** fails when two keys of a version have key hashes that agree in the first 64 bits (found for SHA-256 with about 2^32 work):
then the existence proofs of both are longer than `ics23_spec` allows, and are refused. For every hash function. -/
theorem C31_depth_false (hh : ShaHost sha host) (a b : Bytes) (x y : Value) (preimage : Key → Option Bytes) (hab : sha a ≠ sha b)
    (h64 : ∀ j, j < 64 → (sha a).bit j = (sha b).bit j) :
    ∃ s p root, Reached (Tree.shaHasher sha) 0 (twoKeys (sha a) (sha b) x y) s 1 ∧
      contentsAt 0 (twoKeys (sha a) (sha b) x y) 0 (sha a) = some x ∧
      Tree.getWithIcs23Proof sha s.reader preimage a 0 = .ok (some x, .exist p) ∧
      Tree.getRootHash (Tree.shaHasher sha) s.reader 0 = .ok root ∧
      verifyExistence host p Tree.ics23Spec root.bytes a x ≠ .ok () := by
  obtain ⟨s, hs⟩ := twoKeys_reached (Tree.shaHasher sha) (sha a) (sha b) x y
  have hc : contentsAt 0 (twoKeys (sha a) (sha b) x y) 0 (sha a) = some x := by
    rw [twoKeys_contents, if_neg hab, if_pos rfl]
  obtain ⟨p, root, h1, h2, h3⟩ := C31_existence_verifies_partial hh 0 1 _ s hs 0 (twoKeys_readable _ _ _ _) preimage a x hc
  refine ⟨s, p, root, hs, hc, h1, h2, ?_⟩
  rw [ne_eq, h3]
  rintro ⟨_, _, hal⟩
  obtain ⟨j, hj, hne⟩ := hal (sha b) (by rw [twoKeys_contents, if_pos rfl]; rfl) (Ne.symm hab)
  exact hne (h64 j hj).symm

/-- **C31** fails for a key with the empty value: `put_value_set` stores it and `get_with_ics23_proof` proves it, but the proof is
refused. For every hash function. -/
theorem C31_empty_value_false (hh : ShaHost sha host) (a b : Bytes) (y : Value) (preimage : Key → Option Bytes) (hab : sha a ≠ sha b) :
    ∃ s p root, Reached (Tree.shaHasher sha) 0 (twoKeys (sha a) (sha b) [] y) s 1 ∧
      contentsAt 0 (twoKeys (sha a) (sha b) [] y) 0 (sha a) = some [] ∧
      Tree.getWithIcs23Proof sha s.reader preimage a 0 = .ok (some [], .exist p) ∧
      Tree.getRootHash (Tree.shaHasher sha) s.reader 0 = .ok root ∧
      verifyExistence host p Tree.ics23Spec root.bytes a [] ≠ .ok () := by
  obtain ⟨s, hs⟩ := twoKeys_reached (Tree.shaHasher sha) (sha a) (sha b) [] y
  have hc : contentsAt 0 (twoKeys (sha a) (sha b) [] y) 0 (sha a) = some [] := by
    rw [twoKeys_contents, if_neg hab, if_pos rfl]
  obtain ⟨p, root, h1, h2, h3⟩ := C31_existence_verifies_partial hh 0 1 _ s hs 0 (twoKeys_readable _ _ _ _) preimage a [] hc
  refine ⟨s, p, root, hs, hc, h1, h2, ?_⟩
  rw [ne_eq, h3]
  rintro ⟨_, h0, _⟩
  exact h0 rfl

/-- The bound of a neighbour with the empty value is refused. -/
theorem bound_empty (p : ExistenceProof) (hp : p.value = []) (root key : Bytes) (before : Bool) :
    verifyBound host Tree.ics23Spec root key before (some p) ≠ .ok () := by
  intro h
  obtain ⟨_, h1, _⟩ := Res.bind_ok_iff.1 h
  obtain ⟨_, _, h1⟩ := Res.bind_ok_iff.1 h1
  obtain ⟨_, _, h1⟩ := Res.bind_ok_iff.1 h1
  obtain ⟨_, _, h1⟩ := Res.bind_ok_iff.1 h1
  obtain ⟨_, h1, _⟩ := Res.bind_ok_iff.1 h1
  obtain ⟨_, _, h1⟩ := Res.bind_ok_iff.1 h1
  obtain ⟨_, h1, _⟩ := Res.bind_ok_iff.1 h1
  rw [ensure_ok_iff] at h1
  simp [hp] at h1

/-- **C55** fails next to a key with the empty value: with that key alone in the version, the non-existence proof of every other key is
returned but refused. For every hash function. -/
theorem C55_empty_value_false (a key : Bytes) (preimage : Key → Option Bytes) (hab : sha key ≠ sha a)
    (hpre : preimage (sha a) = some a) :
    ∃ s p root, Reached (Tree.shaHasher sha) 0 (twoKeys (sha a) (sha a) [] []) s 1 ∧
      contentsAt 0 (twoKeys (sha a) (sha a) [] []) 0 (sha key) = none ∧
      Tree.getWithIcs23Proof sha s.reader preimage key 0 = .ok (none, .nonexist p) ∧
      Tree.getRootHash (Tree.shaHasher sha) s.reader 0 = .ok root ∧
      verifyNonExistence host p Tree.ics23Spec root.bytes key ≠ .ok () := by
  obtain ⟨s, hs⟩ := twoKeys_reached (Tree.shaHasher sha) (sha a) (sha a) [] []
  have hv := twoKeys_readable (sha a) (sha a) [] []
  have hf := hs.facts hv
  have hc : contentsAt 0 (twoKeys (sha a) (sha a) [] []) 0 (sha key) = none := by
    rw [twoKeys_contents, if_neg hab, if_neg hab]
  have hall : ∀ k x, contentsAt 0 (twoKeys (sha a) (sha a) [] []) 0 k = some x → k = sha a ∧ x = [] := by
    intro k x hk
    rw [twoKeys_contents] at hk
    split at hk
    · cases hk; exact ⟨by assumption, rfl⟩
    · cases hk
  have hpres : ∀ k, (contentsAt 0 (twoKeys (sha a) (sha a) [] []) 0 k).isSome = true → k = sha a := by
    intro k hk
    obtain ⟨x, hx⟩ := Option.isSome_iff_exists.1 hk
    exact (hall k x hx).1
  obtain ⟨p, hp⟩ := C55_nonexistence_exists_partial 0 1 _ s hs 0 hv preimage key hc ⟨sha a, by rw [twoKeys_contents, if_pos rfl]; rfl⟩
    (.inl rfl) (by
      intro k hk
      have : k = sha a := by rcases hk with hk | hk <;> exact hpres k hk.present
      rw [this]
      exact ⟨a, hpre, rfl⟩)
  refine ⟨s, p, _, hs, hc, hp, hf.getRootHash, ?_⟩
  -- every neighbour's part has the empty value
  have hone : ∀ q r, Tree.toNeighbour sha s.reader preimage 0 q = .ok r → r.value = [] := by
    intro q r hr
    unfold Tree.toNeighbour at hr
    split at hr
    · cases hr
    · split at hr
      · cases hr
      · split at hr
        · cases hr
        · rename_i l _ _ b _ _ x hx
          unfold Tree.toExistenceProof at hr
          split at hr
          · cases hr
            rw [Tree.get, hf.value] at hx
            exact (hall _ _ hx).2
          · cases hr
  unfold Tree.getWithIcs23Proof at hp
  obtain ⟨ans, _, hp⟩ := Res.bind_ok_iff.1 hp
  cases ans with
  | present x q =>
    obtain ⟨_, _, hp⟩ := Res.bind_ok_iff.1 hp
    cases hp
  | absent e =>
    obtain ⟨p', hp', hp⟩ := Res.bind_ok_iff.1 hp
    cases hp
    intro hver
    obtain ⟨_, h1, hver⟩ := Res.bind_ok_iff.1 hver
    obtain ⟨_, h2, _⟩ := Res.bind_ok_iff.1 hver
    cases e with
    | leftmost right =>
      obtain ⟨r, hr, hc⟩ := Res.bind_ok_iff.1 hp'
      cases hc
      exact bound_empty r (hone _ _ hr) _ _ _ h2
    | middle right left =>
      obtain ⟨r, hr, hc⟩ := Res.bind_ok_iff.1 hp'
      obtain ⟨l, hl, hc⟩ := Res.bind_ok_iff.1 hc
      cases hc
      exact bound_empty r (hone _ _ hr) _ _ _ h2
    | rightmost left =>
      obtain ⟨r, hr, hc⟩ := Res.bind_ok_iff.1 hp'
      cases hc
      exact bound_empty r (hone _ _ hr) _ _ _ h1

/-! ### examples -/

/-- A toy hash function, for examples: the first 32 bytes, padded by zeros. -/
def padSha (b : List UInt8) : Key := ⟨(b ++ List.replicate 32 0).take 32, by simp⟩

def padHost : Host := ⟨fun op b => if op = sha256 then .ok (padSha b).bytes else .error (.err "unsupported"), fun _ b => .ok b⟩

theorem padHost_ok : ShaHost padSha padHost := ⟨fun _ => rfl, fun _ => rfl⟩

/-- Four keys with their preimages. -/
def exIcs : List Op :=
  [.update true [[(padSha [0x10], some [1]), (padSha [0x12], some [2]), (padSha [0x70], some [3]), (padSha [0x90, 1], some [4])]]]

theorem exIcs_reached : ∃ s, Reached (Tree.shaHasher padSha) 0 exIcs s 1 :=
  Reached.exists _ ⟨.inl rfl, by simp [exIcs, commitsOf, Op.commits]⟩
theorem exIcs_readable : Readable 0 exIcs 0 := ⟨by decide, by decide, .inl (by simp [exIcs])⟩

def exPre (k : Key) : Option Bytes :=
  [[0x10], [0x12], [0x70], [0x90, 1]].find? (fun b => padSha b = k)

theorem exPre_ok (a : Key) (b : Bytes) (h : exPre a = some b) : padSha b = a := by
  have := List.find?_some h
  simpa using this

theorem exIcs_keys (a : Key) (h : (contentsAt 0 exIcs 0 a).isSome = true) :
    a ∈ [padSha [0x10], padSha [0x12], padSha [0x70], padSha [0x90, 1]] := by
  by_contra hc
  simp only [List.mem_cons, List.not_mem_nil, or_false, not_or] at hc
  obtain ⟨h1, h2, h3, h4⟩ := hc
  simp [contentsAt, exIcs, commitsOf, Op.commits, Commit.updates, contents, applyUpdates, h1, h2, h3, h4] at h

theorem exIcs_alone : ∀ k ∈ [padSha [0x10], padSha [0x12], padSha [0x70], padSha [0x90, 1]], Alone64 (contentsAt 0 exIcs 0) k := by
  intro k hk a ha hne
  have h : ∀ k ∈ [padSha [0x10], padSha [0x12], padSha [0x70], padSha [0x90, 1]],
      ∀ a ∈ [padSha [0x10], padSha [0x12], padSha [0x70], padSha [0x90, 1]], a ≠ k → ∃ j, j < 64 ∧ a.bit j ≠ k.bit j := by
    decide +kernel
  exact h k hk a (exIcs_keys a ha) hne

/-- A present key: the proof verifies. -/
example : ∃ s p root, Reached (Tree.shaHasher padSha) 0 exIcs s 1 ∧
    Tree.getWithIcs23Proof padSha s.reader exPre [0x12] 0 = .ok (some [2], .exist p) ∧
    Tree.getRootHash (Tree.shaHasher padSha) s.reader 0 = .ok root ∧
    verifyExistence padHost p Tree.ics23Spec root.bytes [0x12] [2] = .ok () := by
  obtain ⟨s, hs⟩ := exIcs_reached
  obtain ⟨p, root, h1, h2, h3⟩ := C31_existence_verifies_partial padHost_ok 0 1 exIcs s hs 0 exIcs_readable exPre [0x12] [2] (by decide +kernel)
  exact ⟨s, p, root, hs, h1, h2, h3.2 ⟨by simp, by simp, exIcs_alone _ (by simp)⟩⟩

/-- An absent key between two others: the proof exists and verifies. -/
example : ∃ s p root, Reached (Tree.shaHasher padSha) 0 exIcs s 1 ∧
    Tree.getWithIcs23Proof padSha s.reader exPre [0x15] 0 = .ok (none, .nonexist p) ∧
    Tree.getRootHash (Tree.shaHasher padSha) s.reader 0 = .ok root ∧
    verifyNonExistence padHost p Tree.ics23Spec root.bytes [0x15] = .ok () := by
  obtain ⟨s, hs⟩ := exIcs_reached
  have hmem : ∀ a, GreatestBelow (contentsAt 0 exIcs 0) (padSha [0x15]) a ∨ LeastAbove (contentsAt 0 exIcs 0) (padSha [0x15]) a →
      a ∈ [padSha [0x10], padSha [0x12], padSha [0x70], padSha [0x90, 1]] := by
    rintro a (ha | ha) <;> exact exIcs_keys a ha.present
  obtain ⟨p, hp⟩ := C55_nonexistence_exists_partial 0 1 exIcs s hs 0 exIcs_readable exPre [0x15] (by decide +kernel)
    ⟨padSha [0x10], by decide +kernel⟩ (.inl rfl) (by
      intro a ha
      have h : ∀ a ∈ [padSha [0x10], padSha [0x12], padSha [0x70], padSha [0x90, 1]], (exPre a).isSome = true := by decide +kernel
      obtain ⟨b, hb⟩ := Option.isSome_iff_exists.1 (h a (hmem a ha))
      exact ⟨b, hb, exPre_ok a b hb⟩)
  obtain ⟨_, _, _, root, h1, h2⟩ := C55_nonexistence_verifies_partial padHost_ok 0 1 exIcs s hs 0 exIcs_readable exPre exPre_ok [0x15] none p hp (by
      intro a ha
      have h : ∀ a ∈ [padSha [0x10], padSha [0x12], padSha [0x70], padSha [0x90, 1]],
          exPre a ≠ some [] ∧ contentsAt 0 exIcs 0 a ≠ some [] := by decide +kernel
      exact ⟨(h a (hmem a ha)).1, (h a (hmem a ha)).2, exIcs_alone a (hmem a ha)⟩)
  exact ⟨s, p, root, hs, hp, h1, h2⟩

/-- Two keys that agree in the first 64 bits. -/
example : ∃ s p root, Reached (Tree.shaHasher padSha) 0 (twoKeys (padSha [1]) (padSha [1, 0, 0, 0, 0, 0, 0, 0, 7]) [1] [2]) s 1 ∧
    contentsAt 0 (twoKeys (padSha [1]) (padSha [1, 0, 0, 0, 0, 0, 0, 0, 7]) [1] [2]) 0 (padSha [1]) = some [1] ∧
    Tree.getWithIcs23Proof padSha s.reader exPre [1] 0 = .ok (some [1], .exist p) ∧
    Tree.getRootHash (Tree.shaHasher padSha) s.reader 0 = .ok root ∧
    verifyExistence padHost p Tree.ics23Spec root.bytes [1] [1] ≠ .ok () :=
  C31_depth_false padHost_ok [1] [1, 0, 0, 0, 0, 0, 0, 0, 7] [1] [2] exPre (by decide +kernel) (by decide +kernel)

/-- The key `padSha [0x12]` is the nearest below `padSha [0x15]`. -/
theorem exIcs_below : GreatestBelow (contentsAt 0 exIcs 0) (padSha [0x15]) (padSha [0x12]) where
  present := by decide +kernel
  below := by decide +kernel
  greatest := by
    intro a ha hlt
    have h : ∀ a ∈ [padSha [0x10], padSha [0x12], padSha [0x70], padSha [0x90, 1]], a < padSha [0x15] → ¬ padSha [0x12] < a := by
      decide +kernel
    exact h a (exIcs_keys a ha) hlt

/-- Without the preimage of a nearest key there is no proof (`C55_exact`), and with it there is (the example above). -/
example : ∃ s, Reached (Tree.shaHasher padSha) 0 exIcs s 1 ∧
    ¬ ∃ o p, Tree.getWithIcs23Proof padSha s.reader (fun k => if k = padSha [0x12] then none else exPre k) [0x15] 0 =
      .ok (o, .nonexist p) := by
  obtain ⟨s, hs⟩ := exIcs_reached
  refine ⟨s, hs, fun hc => ?_⟩
  have := ((C55_exact 0 1 exIcs s hs 0 exIcs_readable _ [0x15] (by decide +kernel) ⟨padSha [0x10], by decide +kernel⟩).1 hc _
    (.inl exIcs_below)).1
  simp at this

example : padSha [0x12] ≠ padSha [0x10] := by decide +kernel

end Verif.Props
