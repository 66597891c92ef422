import Verif.Props.JmtSound
import Verif.Proofs.ProofUnique
/-! Property C60: proofs are not malleable. -/

set_option autoImplicit false

namespace Verif.Props
open Verif Verif.Jmt Verif.Spec
variable {D : Type}

/-- **C60.** Against the root hash of a readable version only one proof verifies for a key, whatever value (or absence) is claimed: the
one that `get_with_proof` returns, and the claimed value has the hash of the stored one. Otherwise two different inputs with equal hashes
(or one hashing to the placeholder) occur among the inputs hashed by the verification and by the computation of the root hash. -/
theorem C60_proof_unique (H : Hasher D) [DecidableEq D] (v0 next : Version) (ops : List Op) (s : Store D) (h : Reached H v0 ops s next)
    (v : Version) (hv : Readable v0 ops v) (root : D) (hr : Tree.getRootHash H s.reader v = .ok root)
    (p : SparseMerkleProof D) (k : Key) (value : Option Value) (hp : p.verify H root k value = .ok ())
    (L : List (Key × D)) (hL : Lists H (contentsAt v0 ops v) L) :
    (∃ stored, Tree.getWithProof H s.reader k v = .ok (stored, p) ∧ stored.map H.value = value.map H.value) ∨
      Clash H (proofInputs H p k) (smtInputs H 256 L) := by
  have hf := h.facts hv
  have hL0 := hf.hold.lists
  have hr' := hr
  rw [hf.getRootHash, hf.hash hL] at hr
  cases hr
  obtain ⟨h1, h2, h3⟩ := verify_ok hp
  rw [foldUp_eq_climb H _ k _ h1] at h3
  have hst : p.startHash H = leafHash H (p.leaf.map (fun l => (l.keyHash, l.valueHash))) := by
    unfold SparseMerkleProof.startHash leafHash
    cases p.leaf <;> rfl
  have hu := climb_unique H k 256 (Nat.le_refl _) (agree_top hL.1) p.siblings.reverse (by simpa using h1)
    (p.leaf.map (fun l => (l.keyHash, l.valueHash))) (by
      simp only [Nat.sub_self, List.drop_zero]; rw [← hst]; exact h3)
  rcases hu with hu | hc
  · have hval : (contentsAt v0 ops v k).map H.value = value.map H.value ∨ Clash H (proofInputs H p k) (smtInputs H 256 L) := by
      cases value with
      | none =>
        rcases C06_exclusion_sound H v0 next ops s h v hv _ hr' p k hp L hL with g | g
        · left; rw [g]
        · exact .inr g
      | some x =>
        rcases C05_inclusion_sound H v0 next ops s h v hv _ hr' p k x hp L hL with ⟨y, g, g'⟩ | g
        · left; rw [g]; simp [g']
        · exact .inr g
    refine hval.imp (fun hval => ⟨contentsAt v0 ops v k, ?_, hval⟩) id
    rw [hf.getWithProof k, smtPath_perm H k 256 (lists_perm hL0 hL), hu]
    obtain ⟨leaf, sibs⟩ := p
    cases leaf <;> simp [proofOf]
  · right
    refine hc.mono ?_ (fun y hy => hy)
    intro x hx
    unfold proofInputs
    rw [hst]
    simp only [Nat.sub_self, List.drop_zero, Option.map_map] at hx
    exact hx

/-- Two proofs that verify for a key against the same root are equal, for a collision-free hash; an example with a proof to compare. -/
example : ∃ s root p, Reached termHasher 0 exOps s 3 ∧ Tree.getRootHash termHasher s.reader 1 = .ok root ∧
    p.verify termHasher root (key 1 2) (some [7]) = .ok () ∧ p.siblings ≠ [] ∧
    ∀ q value, SparseMerkleProof.verify termHasher q root (key 1 2) value = .ok () → q = p := by
  obtain ⟨s, h⟩ := exOps_reached
  have hf := h.facts exOps_readable1
  have hc : contentsAt 0 exOps 1 (key 1 2) = some [7] := by decide +kernel
  have hv := proofOf_verify termHasher hf.hold (key 1 2)
  rw [hc] at hv
  refine ⟨s, _, _, h, hf.getRootHash, hv, ?_, ?_⟩
  · intro he
    have h8 : contentsAt 0 exOps 1 (key 0x80 0) = some [5] := by decide +kernel
    have m1 : (key 1 2, Term.value [7]) ∈ (treeAt termHasher 0 (commitsOf exOps) 1).entries := (hf.hold.lists.2 _ _).2 (by rw [hc]; rfl)
    have m2 : (key 0x80 0, Term.value [5]) ∈ (treeAt termHasher 0 (commitsOf exOps) 1).entries := (hf.hold.lists.2 _ _).2 (by rw [h8]; rfl)
    have h2 : 2 ≤ (treeAt termHasher 0 (commitsOf exOps) 1).entries.length := by
      rcases list_cases (treeAt termHasher 0 (commitsOf exOps) 1).entries with e | ⟨a, e⟩ | e
      · rw [e] at m1; cases m1
      · rw [e, List.mem_singleton] at m1 m2
        exact absurd (m1.trans m2.symm) (by decide +kernel)
      · exact e
    rw [proofOf, smtPath_two _ _ _ _ h2] at he
    simp at he
  · intro q value hq
    rcases C60_proof_unique _ _ _ _ _ h _ exOps_readable1 _ hf.getRootHash q _ _ hq _ hf.hold.lists with ⟨x, g, _⟩ | hcl
    · rw [hf.getWithProof] at g
      exact ((Prod.mk.inj (Except.ok.inj g)).2).symm
    · exact absurd hcl (termHasher_no_clash _ _)

end Verif.Props
