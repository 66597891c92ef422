import Verif.Props.Examples
/-! Properties C05, C06, C07, C33: what a verified proof and a root hash imply. -/

set_option autoImplicit false

namespace Verif.Props
open Verif Verif.Jmt Verif.Spec
variable {D : Type}

/-- All inputs of the node hash function in the verification of a proof for key `k`. -/
def proofInputs (H : Hasher D) (p : SparseMerkleProof D) (k : Key) : List (HashInput D) :=
  climbInputs H p.siblings.reverse k.bits (p.startHash H) ++ (p.leaf.map (fun l => HashInput.leaf l.keyHash l.valueHash)).toList

theorem verify_ok {H : Hasher D} [DecidableEq D] {p : SparseMerkleProof D} {root : D} {k : Key} {value : Option Value}
    (h : p.verify H root k value = .ok ()) :
    p.siblings.length ≤ 256 ∧ p.checkLeaf H k value = .ok () ∧ SparseMerkleProof.foldUp H p.siblings k (p.startHash H) = root := by
  unfold SparseMerkleProof.verify at h
  by_cases h1 : p.siblings.length ≤ 256
  · simp only [h1, decide_true, ensure_true, Res.ok_bind] at h
    cases h2 : p.checkLeaf H k value with
    | error e => rw [h2] at h; cases h
    | ok u =>
      rw [h2] at h
      simp only [Res.ok_bind] at h
      by_cases h3 : SparseMerkleProof.foldUp H p.siblings k (p.startHash H) = root
      · exact ⟨h1, rfl, h3⟩
      · simp [h3] at h
  · simp [h1] at h

theorem verify_sound {H : Hasher D} [DecidableEq D] {p : SparseMerkleProof D} {k : Key} {value : Option Value} {f : Key → Option Value}
    {L : List (Key × D)} (hL : Lists H f L) (h : p.verify H (smtRoot H L) k value = .ok ()) :
    (match p.leaf with
      | some l => (l.keyHash, l.valueHash) ∈ L ∧ ∀ d, (k, d) ∈ L → l.keyHash = k ∧ l.valueHash = d
      | none => ∀ d, (k, d) ∉ L) ∨ Clash H (proofInputs H p k) (smtInputs H 256 L) := by
  obtain ⟨h1, h2, h3⟩ := verify_ok h
  rw [foldUp_eq_climb H _ k _ h1] at h3
  have hst : p.startHash H = leafHash H (p.leaf.map (fun l => (l.keyHash, l.valueHash))) := by
    unfold SparseMerkleProof.startHash leafHash
    cases p.leaf <;> rfl
  have := climb_sound H k 256 (Nat.le_refl _) (agree_top hL.1) p.siblings.reverse (by simpa using h1)
    (p.leaf.map (fun l => (l.keyHash, l.valueHash))) (by
      simp only [Nat.sub_self, List.drop_zero]; rw [← hst]; exact h3)
  rcases this with ⟨g1, g2⟩ | hc
  · left
    cases hl : p.leaf with
    | none =>
      intro d hd
      have := g2 d hd
      rw [hl] at this; cases this
    | some l =>
      refine ⟨g1 _ (by rw [hl]; rfl), ?_⟩
      intro d hd
      have := g2 d hd
      rw [hl] at this
      simp only [Option.map_some, Option.some.injEq, Prod.mk.injEq] at this
      exact this
  · right
    refine hc.mono ?_ (fun y hy => hy)
    intro x hx
    unfold proofInputs
    rw [hst]
    simp only [Nat.sub_self, List.drop_zero, Option.map_map] at hx
    exact hx

/-! ### C05 -/

/-- **C05.** A proof, made up or not, that verifies as inclusion of `(k, value)` against the root hash of a readable version
shows that the version holds `k` with a value of the same hash; otherwise two different inputs with equal hashes (or one hashing
to the placeholder) occur among the inputs hashed by this verification and by the computation of the root hash. -/
theorem C05_inclusion_sound (H : Hasher D) [DecidableEq D] (v0 next : Version) (ops : List Op) (s : Store D) (h : Reached H v0 ops s next)
    (v : Version) (hv : Readable v0 ops v) (root : D) (hr : Tree.getRootHash H s.reader v = .ok root)
    (p : SparseMerkleProof D) (k : Key) (value : Value) (hp : p.verify H root k (some value) = .ok ())
    (L : List (Key × D)) (hL : Lists H (contentsAt v0 ops v) L) :
    (∃ x, contentsAt v0 ops v k = some x ∧ H.value x = H.value value) ∨ Clash H (proofInputs H p k) (smtInputs H 256 L) := by
  have hf := h.facts hv
  rw [hf.getRootHash, hf.hash hL] at hr
  cases hr
  have hck := (verify_ok hp).2.1
  rcases verify_sound hL hp with hs | hc
  · left
    cases hl : p.leaf with
    | none => simp [SparseMerkleProof.checkLeaf, hl] at hck
    | some l =>
      rw [hl] at hs
      simp only [SparseMerkleProof.checkLeaf, hl] at hck
      by_cases h1 : k = l.keyHash
      · by_cases h2 : H.value value = l.valueHash
        · have := (hL.2 _ _).1 hs.1
          rw [← h1, Option.map_eq_some_iff] at this
          obtain ⟨x, hx, hx'⟩ := this
          exact ⟨x, hx, by rw [hx', h2]⟩
        · simp [h1, h2] at hck
      · simp [h1] at hck
  · exact .inr hc

/-! ### C06 -/

/-- **C06.** A proof that verifies as non-inclusion of `k` shows that the version does not hold `k`, or a clash as in C05. -/
theorem C06_exclusion_sound (H : Hasher D) [DecidableEq D] (v0 next : Version) (ops : List Op) (s : Store D) (h : Reached H v0 ops s next)
    (v : Version) (hv : Readable v0 ops v) (root : D) (hr : Tree.getRootHash H s.reader v = .ok root)
    (p : SparseMerkleProof D) (k : Key) (hp : p.verify H root k none = .ok ())
    (L : List (Key × D)) (hL : Lists H (contentsAt v0 ops v) L) :
    contentsAt v0 ops v k = none ∨ Clash H (proofInputs H p k) (smtInputs H 256 L) := by
  have hf := h.facts hv
  rw [hf.getRootHash, hf.hash hL] at hr
  cases hr
  have hck := (verify_ok hp).2.1
  rcases verify_sound hL hp with hs | hc
  · left
    cases hk : contentsAt v0 ops v k with
    | none => rfl
    | some x =>
      exfalso
      have hm := (hL.2 k (H.value x)).2 (by rw [hk]; rfl)
      cases hl : p.leaf with
      | none => rw [hl] at hs; exact hs _ hm
      | some l =>
        rw [hl] at hs
        have := (hs.2 _ hm).1
        simp only [SparseMerkleProof.checkLeaf, hl, this] at hck
        simp at hck
  · exact .inr hc

/-- For the collision-free hash functions there is never a clash, so the alternative of C05, C06, C07 is ruled out. -/
theorem termHasher_no_clash (xs ys : List (HashInput Term)) : ¬ Clash termHasher xs ys := by
  rintro (⟨x, _, y, _, hne, he⟩ | ⟨x, _, he⟩)
  · cases x <;> cases y <;> simp [HashInput.digest, termHasher] at he hne <;> exact hne he.1 he.2
  · cases x <;> simp [HashInput.digest, termHasher] at he

/-- C05 and C06 have instances: the proofs of the tree itself, and with a collision-free hash they give the full claim. -/
example : ∃ s value proof root, Reached termHasher 0 exOps s 3 ∧ Tree.getRootHash termHasher s.reader 1 = .ok root ∧
    Tree.getWithProof termHasher s.reader (key 1 2) 1 = .ok (value, proof) ∧
    SparseMerkleProof.verify termHasher proof root (key 1 2) value = .ok () ∧
    ∀ p : SparseMerkleProof Term, p.verify termHasher root (key 1 2) (some [8]) ≠ .ok () ∧
      p.verify termHasher root (key 1 2) none ≠ .ok () := by
  obtain ⟨s, h⟩ := exOps_reached
  have hf := h.facts exOps_readable1
  have hc : contentsAt 0 exOps 1 (key 1 2) = some [7] := by decide +kernel
  refine ⟨s, _, _, _, h, hf.getRootHash, hf.getWithProof _, proofOf_verify termHasher hf.hold _, ?_⟩
  intro p
  constructor
  · intro hp
    rcases C05_inclusion_sound _ _ _ _ _ h _ exOps_readable1 _ hf.getRootHash p _ _ hp _ hf.hold.lists with ⟨x, h1, h2⟩ | hcl
    · rw [hc] at h1
      cases h1
      exact absurd h2 (by simp [termHasher])
    · exact termHasher_no_clash _ _ hcl
  · intro hp
    rcases C06_exclusion_sound _ _ _ _ _ h _ exOps_readable1 _ hf.getRootHash p _ hp _ hf.hold.lists with h1 | hcl
    · rw [hc] at h1; cases h1
    · exact termHasher_no_clash _ _ hcl

/-! ### C07 -/

/-- **C07.** Readable versions (of any two stores) with equal root hashes hold the same keys with the same value hashes, or there
is a clash among the inputs hashed for the two roots. -/
theorem C07_root_binds (H : Hasher D) (v0 v0' next next' : Version) (ops ops' : List Op) (s s' : Store D)
    (h : Reached H v0 ops s next) (h' : Reached H v0' ops' s' next') (v v' : Version) (hv : Readable v0 ops v) (hv' : Readable v0' ops' v')
    (r : D) (hr : Tree.getRootHash H s.reader v = .ok r) (hr' : Tree.getRootHash H s'.reader v' = .ok r)
    (L L' : List (Key × D)) (hL : Lists H (contentsAt v0 ops v) L) (hL' : Lists H (contentsAt v0' ops' v') L') :
    (∀ k, (contentsAt v0 ops v k).map H.value = (contentsAt v0' ops' v' k).map H.value) ∨
      Clash H (smtInputs H 256 L) (smtInputs H 256 L') := by
  have hf := h.facts hv
  have hf' := h'.facts hv'
  rw [hf.getRootHash, hf.hash hL] at hr
  rw [hf'.getRootHash, hf'.hash hL'] at hr'
  have heq : smt H 256 L = smt H 256 L' := by
    have a := Except.ok.inj hr
    have b := Except.ok.inj hr'
    exact a.trans b.symm
  rcases smt_binding H 256 (agree_top hL.1) (agree_top hL'.1) heq with hm | hc
  · left
    intro k
    apply Option.ext
    intro d
    have e1 := hL.2 k d
    have e2 := hL'.2 k d
    rw [← e1, ← e2]
    exact hm (k, d)
  · exact .inr hc

example : ∃ s, Reached termHasher 0 exOps s 3 ∧ ∃ r, Tree.getRootHash termHasher s.reader 1 = .ok r ∧
    Tree.getRootHash termHasher s.reader 2 = .ok r := by
  obtain ⟨s, h⟩ := exOps_reached
  have hf := h.facts exOps_readable1
  have hf' := h.facts exOps_readable2
  refine ⟨s, h, _, hf.getRootHash, ?_⟩
  have e : contentsAt 0 exOps 2 = contentsAt 0 exOps 1 := by
    funext k
    by_cases hk : k = key 9 9
    · subst hk; decide +kernel
    · show (if k = key 9 9 then none else contentsAt 0 exOps 1 k) = _
      rw [if_neg hk]
  rw [e] at hf'
  rw [hf'.getRootHash, hf'.hash hf.hold.lists, hf.hash hf.hold.lists]

/-! ### C33 -/

/-- A result that is not a panic. -/
def NoPanic {α : Type} (r : Res α) : Prop := ∀ msg, r ≠ .error (.panic msg)

/-- **C33**, first half: verifying any `SparseMerkleProof` returns `Ok` or `Err`, it never panics. -/
theorem C33_verify_total (H : Hasher D) [DecidableEq D] (p : SparseMerkleProof D) (root : D) (k : Key) (value : Option Value) :
    NoPanic (p.verify H root k value) := by
  have ens : ∀ b m, NoPanic (ensure b m) := by intro b m; cases b <;> simp [NoPanic]
  have bnd : ∀ {α β : Type} (x : Res α) (f : α → Res β), NoPanic x → (∀ a, NoPanic (f a)) → NoPanic (x >>= f) := by
    intro α β x f hx hf
    cases x with
    | ok a => exact hf a
    | error e => intro m hm; exact hx m (by simp only [Res.error_bind] at hm; cases hm; rfl)
  unfold SparseMerkleProof.verify
  refine bnd _ _ (ens _ _) fun _ => bnd _ _ ?_ fun _ => ens _ _
  unfold SparseMerkleProof.checkLeaf
  split
  · exact bnd _ _ (ens _ _) fun _ => ens _ _
  · intro m hm; cases hm
  · exact bnd _ _ (ens _ _) fun _ => ens _ _
  · intro m hm; cases hm

/-- **C33**, second half, for range proofs of at most 256 siblings in total. -/
theorem C33_range_verify_total_partial (H : Hasher D) [DecidableEq D] (p : SparseMerkleRangeProof D) (root : D) (leaf : LeafNode D)
    (left : List D) (hlen : left.length + p.rightSiblings.length ≤ 256) : NoPanic (p.verify H root leaf left) := by
  have key : ∀ bits l r (h : D), NoPanic (SparseMerkleRangeProof.verifyLoop H bits l r h) := by
    intro bits
    induction bits with
    | nil => intro l r h m hm; cases hm
    | cons b bits ih =>
      intro l r h
      cases b with
      | true =>
        cases l with
        | nil => intro m hm; simp [SparseMerkleRangeProof.verifyLoop] at hm
        | cons x l => exact ih l r _
      | false =>
        cases r with
        | nil => intro m hm; simp [SparseMerkleRangeProof.verifyLoop] at hm
        | cons x r => exact ih l r _
  unfold SparseMerkleRangeProof.verify
  simp only [hlen, if_true]
  intro m hm
  cases hv : SparseMerkleRangeProof.verifyLoop H (leaf.keyHash.bits.reverse.drop (256 - (left.length + p.rightSiblings.length))) left
      p.rightSiblings (leaf.hash H) with
  | error e =>
    rw [hv] at hm
    simp only [Res.error_bind, Except.error.injEq] at hm
    exact key _ _ _ _ m (by rw [hv, hm])
  | ok x =>
    rw [hv] at hm
    simp only [Res.ok_bind] at hm
    by_cases hx : x = root <;> simp [hx] at hm

/-- Finding J8: the claim of C33 is false for range proofs: any range proof with more than 256 siblings panics
(`256 - num_siblings` underflows). -/
theorem C33_range_verify_panics (H : Hasher D) [DecidableEq D] (p : SparseMerkleRangeProof D) (root : D) (leaf : LeafNode D)
    (left : List D) (hlen : 256 < left.length + p.rightSiblings.length) : ¬ NoPanic (p.verify H root leaf left) := by
  intro h
  apply h "attempt to subtract with overflow"
  unfold SparseMerkleRangeProof.verify
  simp only [Nat.not_le.2 hlen, if_false]

example : ∃ p : SparseMerkleRangeProof Term, ¬ NoPanic (p.verify termHasher .placeholder ⟨key 1 1, .placeholder⟩ []) :=
  ⟨⟨List.replicate 257 .placeholder⟩, C33_range_verify_panics _ _ _ _ _ (by rw [List.length_replicate]; decide)⟩

example : NoPanic (SparseMerkleProof.verify termHasher ⟨some ⟨key 1 1, .placeholder⟩, List.replicate 300 .placeholder⟩ .placeholder (key 1 1) none) :=
  C33_verify_total _ _ _ _ _

end Verif.Props
