import Verif.Proofs.Range
import Verif.Props.Examples
/-! Property C20: range proofs. -/

set_option autoImplicit false

namespace Verif.Props
open Verif Verif.Jmt Verif.Spec
variable {D : Type}

/-- **C20.** The range proof of a present key `k`, put together with the siblings on the left of `k`, which are computed from the
entries with keys `≤ k` alone, verifies against the root hash. -/
theorem C20_range_proof_verifies (H : Hasher D) [DecidableEq D] (v0 next : Version) (ops : List Op) (s : Store D)
    (h : Reached H v0 ops s next) (v : Version) (hv : Readable v0 ops v) (k : Key) (x : Value) (hk : contentsAt v0 ops v k = some x)
    (L : List (Key × D)) (hL : Lists H (contentsAt v0 ops v) L) :
    ∃ p root depth, Tree.getRangeProof H s.reader k v = .ok p ∧ Tree.getRootHash H s.reader v = .ok root ∧
      p.rightSiblings = rightSiblings H k depth L ∧
      p.verify H root ⟨k, H.value x⟩ (leftSiblings H k depth (L.filter (fun e => decide (e.1 ≤ k)))) = .ok () := by
  have hf := h.facts hv
  have hp : L.Perm (VTree.entries (treeAt H v0 (commitsOf ops) v)) := lists_perm hL hf.hold.lists
  have hag : Agree 256 (VTree.entries (treeAt H v0 (commitsOf ops) v)) := agree_top (VTree.entries_nodup hf.hold.1)
  generalize treeAt H v0 (commitsOf ops) v = t at *
  have hn := smtPath_length H k 256 t.entries
  have hs := smtPath_siblings_top H k t.entries
  have hfind := smtPath_find H k 256 hag ((hf.hold.2 k (H.value x)).2 (by rw [hk]; rfl))
  have hclimb := climb_smtPath H k 256 (Nat.le_refl _) hag
  rw [hfind] at hclimb
  generalize hm : (smtPath H k 256 t.entries).1.length = m at hn hs
  have hsib : ∀ i, sibling H k t.entries i = sibling H k L i := fun i => (sibling_perm H k i hp).symm
  refine ⟨⟨rightSiblings H k m L⟩, _, m, ?_, hf.getRootHash, rfl, ?_⟩
  · unfold Tree.getRangeProof
    rw [hf.getWithProof k, hk]
    have e : (proofOf (smtPath H k 256 t.entries)).siblings.reverse = (List.range m).map (sibling H k L) := by
      simp only [proofOf, List.reverse_reverse, hs]
      exact List.map_congr_left (fun i _ => hsib i)
    have := (filterMap_zip_bits H k L m hn).2
    simp only [bind, Except.bind, e, this]
    rfl
  · rw [leftSiblings_upTo H k m hn L, range_verify_climb H k _ L m hn]
    have e : climb H ((List.range m).map (sibling H k L)) k.bits (H.leaf k (H.value x)) = t.hash H := by
      rw [VTree.hash_eq_smt H hf.hold.1]
      rw [hs] at hclimb
      simp only [Nat.sub_self, List.drop_zero, leafHash] at hclimb
      rw [← List.map_congr_left (fun i _ => hsib i)]
      exact hclimb
    rw [e]
    simp

/-- C20, the other direction of the precondition: there is no range proof of an absent key. -/
theorem C20_absent_key_rejected (H : Hasher D) (v0 next : Version) (ops : List Op) (s : Store D)
    (h : Reached H v0 ops s next) (v : Version) (hv : Readable v0 ops v) (k : Key) (hk : contentsAt v0 ops v k = none) :
    Tree.getRangeProof H s.reader k v = .error (.err "rightmost_key_to_prove must exist.") := by
  unfold Tree.getRangeProof
  rw [(h.facts hv).getWithProof k, hk]
  rfl

example : ∃ s p root depth, Reached termHasher 0 exOps s 3 ∧ Tree.getRangeProof termHasher s.reader (key 0x80 0) 1 = .ok p ∧
    Tree.getRootHash termHasher s.reader 1 = .ok root ∧
    p.verify termHasher root ⟨key 0x80 0, termHasher.value [5]⟩
      (leftSiblings termHasher (key 0x80 0) depth ((VTree.entries (treeAt termHasher 0 (commitsOf exOps) 1)).filter (fun e => decide (e.1 ≤ key 0x80 0)))) = .ok () := by
  obtain ⟨s, h⟩ := exOps_reached
  obtain ⟨p, r, d, h1, h2, _, h3⟩ := C20_range_proof_verifies termHasher _ _ _ _ h _ exOps_readable1 (key 0x80 0) [5] (by decide +kernel) _
    (h.facts exOps_readable1).hold.lists
  exact ⟨s, p, r, d, h, h1, h2, h3⟩

end Verif.Props
