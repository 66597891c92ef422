import Verif.Proofs.Ics23Sound
import Verif.Props.JmtIcs23
/-! Properties C56 and C57: the ICS23 verification against `ics23_spec` is sound for the trees of this library. -/

set_option autoImplicit false

namespace Verif.Props
open Verif Verif.Jmt Verif.Spec Verif.Ics23

variable {sha : List UInt8 → Key} {host : Host}

/-- A proof that verifies is the path of an entry. -/
theorem existence_sound (hh : ShaHost sha host) {L : List (Key × Key)} (hL : (L.map Prod.fst).Nodup) {p : ExistenceProof}
    {key value : Bytes} (h : verifyExistence host p Tree.ics23Spec (smtRoot (Tree.shaHasher sha) L).bytes key value = .ok ()) :
    ((sha key, sha value) ∈ L ∧ p.path = (opsOf (steps (Tree.shaHasher sha) (sha key) 256 L)).reverse) ∨
    ByteClash sha (existHashed sha p) (treeHashed sha L) := by
  obtain ⟨h1, h2, h3, leaf, h4, h5, h6⟩ := verifyExistence_parts hh h
  have := path_sound leaf.pre h5 (sha key) (sha value) p.path h3 256 (Nat.le_refl _) (agree_top hL) (Key.ext_bytes h6)
  rcases this with ⟨h7, h8⟩ | hc
  · left
    refine ⟨h7, ?_⟩
    rw [← h8, List.reverse_reverse]
  · right
    unfold existHashed
    rw [h4]
    unfold proofHashed treeHashed
    rw [h1, h2]
    exact hc

/-- **C56.** An ICS23 existence proof, made up or not, that verifies for `key` and `value` against `ics23_spec` and the root hash of a
readable version shows that the version holds the key with that value. Otherwise the stored value is another one with the same hash, or two
different byte strings with equal hashes (or one hashing to the placeholder) occur among those hashed by the verification and by the
computation of the root hash. -/
theorem C56_existence_sound (hh : ShaHost sha host) (v0 next : Version) (ops : List Op) (s : Store Key)
    (h : Reached (Tree.shaHasher sha) v0 ops s next) (v : Version) (hv : Readable v0 ops v) (root : Key)
    (hr : Tree.getRootHash (Tree.shaHasher sha) s.reader v = .ok root) (p : ExistenceProof) (key : Bytes) (value : Value)
    (hp : verifyExistence host p Tree.ics23Spec root.bytes key value = .ok ())
    (L : List (Key × Key)) (hL : Lists (Tree.shaHasher sha) (contentsAt v0 ops v) L) :
    contentsAt v0 ops v (sha key) = some value ∨
    (∃ x, contentsAt v0 ops v (sha key) = some x ∧ x ≠ value ∧ sha x = sha value) ∨
    ByteClash sha (existHashed sha p) (treeHashed sha L) := by
  have hf := h.facts hv
  rw [hf.getRootHash, hf.hash hL] at hr
  cases hr
  rcases existence_sound hh hL.1 hp with ⟨h1, _⟩ | hc
  · have := (hL.2 _ _).1 h1
    rw [Option.map_eq_some_iff] at this
    obtain ⟨x, hx, hx'⟩ := this
    by_cases hxv : x = value
    · exact .inl (hxv ▸ hx)
    · exact .inr (.inl ⟨x, hx, hxv, hx'⟩)
  · exact .inr (.inr hc)

theorem bound_parts {root key : Bytes} {before : Bool} {p : ExistenceProof} (hh : ShaHost sha host)
    (h : verifyBound host Tree.ics23Spec root key before (some p) = .ok ()) :
    verifyExistence host p Tree.ics23Spec root p.key p.value = .ok () ∧ if before then sha p.key < sha key else sha key < sha p.key := by
  obtain ⟨_, h1, h⟩ := Res.bind_ok_iff.1 h
  obtain ⟨a, h2, h⟩ := Res.bind_ok_iff.1 h
  obtain ⟨k, h3, h⟩ := Res.bind_ok_iff.1 h
  refine ⟨h1, ?_⟩
  change host.hash sha256 p.key = _ at h2
  change host.hash sha256 key = _ at h3
  rw [hh.hash] at h2 h3
  cases h2; cases h3
  rw [ensure_ok_iff] at h
  cases before
  · exact of_decide_eq_true h
  · exact of_decide_eq_true h

/-- **C57.** An ICS23 non-existence proof, made up or not, that verifies for `key` against `ics23_spec` and the root hash of a readable
version shows that the version does not hold the key. Otherwise there is a clash as in C56. -/
theorem C57_nonexistence_sound (hh : ShaHost sha host) (v0 next : Version) (ops : List Op) (s : Store Key)
    (h : Reached (Tree.shaHasher sha) v0 ops s next) (v : Version) (hv : Readable v0 ops v) (root : Key)
    (hr : Tree.getRootHash (Tree.shaHasher sha) s.reader v = .ok root) (p : NonExistenceProof) (key : Bytes)
    (hp : verifyNonExistence host p Tree.ics23Spec root.bytes key = .ok ())
    (L : List (Key × Key)) (hL : Lists (Tree.shaHasher sha) (contentsAt v0 ops v) L) :
    contentsAt v0 ops v (sha key) = none ∨ ByteClash sha (nonexistHashed sha p) (treeHashed sha L) := by
  classical
  have hf := h.facts hv
  rw [hf.getRootHash, hf.hash hL] at hr
  cases hr
  by_cases hcl : ByteClash sha (nonexistHashed sha p) (treeHashed sha L)
  · exact .inr hcl
  left
  have hag : Agree 256 L := agree_top hL.1
  have hc : NoPlaceholder (Tree.shaHasher sha) (smtInputs (Tree.shaHasher sha) 256 L) := by
    intro x hx he
    refine hcl (.inr ⟨nodeBytes x, List.mem_append_right _ (List.mem_map_of_mem hx), ?_⟩)
    cases x <;> exact he
  cases hk : contentsAt v0 ops v (sha key) with
  | none => rfl
  | some x =>
    exfalso
    have hkm : (sha key, sha x) ∈ L := (hL.2 _ _).2 (by rw [hk]; rfl)
    unfold verifyNonExistence at hp
    obtain ⟨_, h1, hp⟩ := Res.bind_ok_iff.1 hp
    obtain ⟨_, h2, hp⟩ := Res.bind_ok_iff.1 hp
    have hone : ∀ (q : ExistenceProof) (b : Bool), (∀ y ∈ existHashed sha q, y ∈ nonexistHashed sha p) →
        verifyBound host Tree.ics23Spec (smtRoot (Tree.shaHasher sha) L).bytes key b (some q) = .ok () →
        (∃ y, (sha q.key, y) ∈ L) ∧ q.path = (opsOf (steps (Tree.shaHasher sha) (sha q.key) 256 L)).reverse ∧
          if b then sha q.key < sha key else sha key < sha q.key := by
      intro q b hq hb
      obtain ⟨g1, g2⟩ := bound_parts hh hb
      rcases existence_sound hh hL.1 g1 with ⟨g3, g4⟩ | g3
      · exact ⟨⟨_, g3⟩, g4, g2⟩
      · exact absurd (ByteClash.mono g3 hq (fun _ hy => hy)) hcl
    obtain ⟨pk, left, right⟩ := p
    cases left with
    | none =>
      cases right with
      | none => cases hp
      | some r =>
        obtain ⟨⟨y, g1⟩, g2, g3⟩ := hone r false (by simp [nonexistHashed]) h2
        simp only at hp
        rw [g2, ensureLeftMost_iff (sha := sha)] at hp
        exact of_leftMost _ _ 256 (Nat.le_refl _) hag hc g1 hp _ hkm g3
    | some l =>
      obtain ⟨⟨z, g4⟩, g5, g6⟩ := hone l true (by intro y hy; simp [nonexistHashed, hy]) h1
      cases right with
      | none =>
        simp only at hp
        rw [g5, ensureRightMost_iff (sha := sha)] at hp
        exact of_rightMost _ _ 256 (Nat.le_refl _) hag hc g4 hp _ hkm g6
      | some r =>
        obtain ⟨⟨y, g1⟩, g2, g3⟩ := hone r false (by intro y hy; simp [nonexistHashed, hy]) h2
        simp only at hp
        rw [g2, g5] at hp
        unfold ensureLeftNeighbor at hp
        rw [List.reverse_reverse, List.reverse_reverse] at hp
        exact of_neighbour _ _ 256 (Nat.le_refl _) hag hc g4 g1 hp _ hkm ⟨g6, g3⟩

/-! ### examples -/

/-- C56 has instances: the proof of the library itself. -/
example : ∃ s p root L, Reached (Tree.shaHasher padSha) 0 exIcs s 1 ∧ Tree.getRootHash (Tree.shaHasher padSha) s.reader 0 = .ok root ∧
    Lists (Tree.shaHasher padSha) (contentsAt 0 exIcs 0) L ∧
    verifyExistence padHost p Tree.ics23Spec root.bytes [0x12] [2] = .ok () := by
  obtain ⟨s, hs⟩ := exIcs_reached
  obtain ⟨p, root, h1, h2, h3⟩ := C31_existence_verifies_partial padHost_ok 0 1 exIcs s hs 0 exIcs_readable exPre [0x12] [2] (by decide +kernel)
  exact ⟨s, p, root, _, hs, h2, (hs.facts exIcs_readable).hold.lists, h3.2 ⟨by simp, by simp, exIcs_alone _ (by simp)⟩⟩

/-- The leaf prefix of a proof may be longer than that of the spec without passing the check of the spec's own evaluation: such a proof
hashes a string of another length. -/
example : ensureLeaf ⟨sha256, sha256, sha256, noPrefix, leafDomainSeparator ++ [1]⟩ Tree.ics23Spec.leafSpec = .ok () := by
  rw [ensureLeaf, ensure_ok_iff]; decide

-- the codes that go out in a proof are those of the protocol buffers: SHA-256 is 1, and the length is not written, which is 0
example : (Tree.toLeafOp.hash, Tree.toLeafOp.prehashKey, Tree.toLeafOp.prehashValue, Tree.toLeafOp.length) = ((1, 1, 1, 0) : Int × Int × Int × Int) := rfl
example (b : Bool) (d : Key) : (Tree.toInnerOp d b).hash = (1 : Int) := by cases b <;> rfl

end Verif.Props
