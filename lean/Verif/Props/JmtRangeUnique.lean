import Verif.Proofs.RangeUnique
import Verif.Props.JmtSound
import Verif.Props.JmtRestore
/-! Property C75: range proofs are sound and not malleable. -/

set_option autoImplicit false

namespace Verif.Props
open Verif Verif.Jmt Verif.Spec
variable {D : Type}

/-- The range proof of a key whose path is known. -/
theorem getRangeProof_of_path {H : Hasher D} {v0 next v : Version} {ops : List Op} {s : Store D} (h : Reached H v0 ops s next) (hv : Readable v0 ops v)
    {k : Key} {vh : D} {L : List (Key × D)} (hL : Lists H (contentsAt v0 ops v) L) {sibs : List D}
    (hp : smtPath H k 256 L = (sibs, some (k, vh))) :
    (contentsAt v0 ops v k).map H.value = some vh ∧ sibs = (List.range sibs.length).map (sibling H k L) ∧
      Tree.getRangeProof H s.reader k v = .ok ⟨((sibs.zip k.bits).filterMap (fun sb => if sb.2 then none else some sb.1)).reverse⟩ := by
  have hf := h.facts hv
  have hmem : (k, vh) ∈ L := smtPath_mem H k 256 (by rw [hp])
  have hval := (hL.2 k vh).1 hmem
  refine ⟨hval, ?_, ?_⟩
  · have := smtPath_siblings_top H k L
    rwa [hp] at this
  · unfold Tree.getRangeProof
    rw [hf.getWithProof k, smtPath_perm H k 256 (lists_perm hf.hold.lists hL), hp]
    cases hc : contentsAt v0 ops v k with
    | none => rw [hc] at hval; cases hval
    | some x =>
      simp only [bind, Except.bind, proofOf, List.reverse_reverse]
      rfl

/-- **C75.** Against the root hash of a readable version, only the genuine range proof of a key verifies, and only with the left siblings that follow
from the keys up to it: the key is present, the leaf has its value hash, the proof is the one `get_range_proof` returns, and the left siblings are
those of C20; or else two different inputs with equal hashes (or one hashing to the placeholder) are at hand. -/
theorem C75_range_proof_unique (H : Hasher D) [DecidableEq D] (v0 next : Version) (ops : List Op) (s : Store D) (h : Reached H v0 ops s next)
    (v : Version) (hv : Readable v0 ops v) (root : D) (hr : Tree.getRootHash H s.reader v = .ok root) (p : SparseMerkleRangeProof D) (k : Key) (vh : D)
    (left : List D) (hp : p.verify H root ⟨k, vh⟩ left = .ok ()) (L : List (Key × D)) (hL : Lists H (contentsAt v0 ops v) L) :
    (∃ x, contentsAt v0 ops v k = some x ∧ H.value x = vh ∧ Tree.getRangeProof H s.reader k v = .ok p ∧
      left = leftSiblings H k (left.length + p.rightSiblings.length) (L.filter (fun e => decide (e.1 ≤ k)))) ∨
    Clash H (rangeInputs H (k.bits.reverse.drop (256 - (left.length + p.rightSiblings.length))) left p.rightSiblings (H.leaf k vh) ++ [.leaf k vh])
      (smtInputs H 256 L) := by
  have hf := h.facts hv
  rw [hf.getRootHash, hf.hash hL] at hr
  cases hr
  obtain ⟨sibs, h1, h2, h3, h4, h5⟩ := range_verify_sibs hp
  rcases climb_unique H k 256 (Nat.le_refl _) (agree_top hL.1) sibs h1 (some (k, vh)) (by
      simp only [Nat.sub_self, List.drop_zero]; exact h2) with hu | hc
  · left
    obtain ⟨g1, g2, g3⟩ := getRangeProof_of_path h hv hL hu
    cases hc : contentsAt v0 ops v k with
    | none => rw [hc] at g1; cases g1
    | some x =>
      rw [hc] at g1
      refine ⟨x, rfl, Option.some.inj g1, ?_, ?_⟩
      · rw [g3, ← h4]
      · have e1 := (filterMap_zip_bits H k L sibs.length h1)
        rw [← g2] at e1
        have hlen : left.length + p.rightSiblings.length = sibs.length := by
          rw [h3, h4, e1.1, e1.2]
          simp only [List.length_reverse, List.length_map]
          have : ∀ r : List Nat, (r.filter k.bit).length + (r.filter (fun i => !k.bit i)).length = r.length := by
            intro r
            induction r with
            | nil => rfl
            | cons i r ih => cases hi : k.bit i <;> simp [hi] <;> omega
          rw [this, List.length_range]
        rw [hlen, leftSiblings_upTo H k _ h1, leftSiblings, h3, e1.1]
  · right
    refine hc.mono ?_ (fun y hy => hy)
    intro i hi
    simp only [Nat.sub_self, List.drop_zero, leafHash, Option.map_some, Option.toList_some, List.mem_append] at hi ⊢
    exact hi.imp_left (h5 i)

/-- C75 for `add_chunk`: when the last one of any list of calls on a fresh restore returned `Ok`, its proof was the one that `get_range_proof` returns for
the last key of the chunk, at any readable version with the expected root hash; or else a collision as in C22 is at hand. -/
theorem C75_chunk_proof (H : Hasher D) [DecidableEq D] (v0 next : Version) (ops : List Op) (s : Store D) (h : Reached H v0 ops s next)
    (v : Version) (hv : Readable v0 ops v) (root : D) (hr : Tree.getRootHash H s.reader v = .ok root)
    (dst : Store D) (hdst : dst.nodes.entries = [] ∧ dst.valueHistory.entries = [])
    (w : Version) (m : Bool) (L : List (Key × D)) (hL : Lists H (contentsAt v0 ops v) L)
    (calls : List (List (Key × Value) × SparseMerkleRangeProof D)) (chunk : List (Key × Value)) (proof : SparseMerkleRangeProof D)
    (r0 r : Restore D) (outs : List (Option String)) (hnew : Restore.new H dst w root m = .ok r0)
    (hrun : r0.addChunks H (calls ++ [(chunk, proof)]) = .ok (r, outs ++ [none])) :
    let P := received (calls.map Prod.fst ++ [chunk])
    ∃ e, chunk.getLast? = some e ∧
      (Tree.getRangeProof H s.reader e.1 v = .ok proof ∨
       (∃ x ∈ smtInputs H 256 (hashed H P), x.digest H = H.placeholder) ∨
       ∃ sibs, sibs.length ≤ 256 ∧ Assembled H (hashed H P) e.1 proof.rightSiblings sibs ∧
        Clash H (climbInputs H sibs e.1.bits (H.leaf e.1 (H.value e.2)) ++ [.leaf e.1 (H.value e.2)]) (smtInputs H 256 L)) := by
  intro P
  have hf := h.facts hv
  rw [hf.getRootHash, hf.hash hL] at hr
  obtain rfl := Except.ok.inj hr
  rw [new_fresh H hdst.1] at hnew
  obtain rfl := Except.ok.inj hnew
  obtain ⟨r1, outs1, a1, a2, a3, a4⟩ := (Live.fresh H hdst.1 hdst.2 w _ m).addChunks calls
  obtain ⟨r2, out, b1, b2, b3, b4, b5⟩ := a2.addChunk chunk proof
  rw [addChunks_append, a1] at hrun
  have hrun : (Restore.addChunks H r1 [(chunk, proof)]).bind (fun y => .ok (y.1, outs1 ++ y.2)) = .ok (r, outs ++ [none]) := hrun
  unfold Restore.addChunks at hrun
  simp only [b1, Res.ok_bind] at hrun
  have hrun : (Except.ok (r2, outs1 ++ [out]) : Res _) = .ok (r, outs ++ [none]) := hrun
  simp only [Except.ok.injEq, Prod.mk.injEq] at hrun
  obtain ⟨rfl, h2⟩ := hrun
  have hout : out = none := by
    have := congrArg List.getLast? h2
    simpa using this
  have hP : P = receive ((calls.map Prod.fst).foldl receive []) chunk := by
    show (calls.map Prod.fst ++ [chunk]).foldl receive [] = _
    rw [List.foldl_append]; rfl
  rw [← hP] at b2 b4
  obtain ⟨c1, c2, z, r3, c3, c4, c5, _⟩ := b4.1 hout
  obtain ⟨e, he⟩ : ∃ e, chunk.getLast? = some e := by
    cases hl : chunk.getLast? with
    | none => exact absurd (List.getLast?_eq_none_iff.1 hl) c1
    | some e => exact ⟨e, rfl⟩
  have hPe : P.getLast? = some e := by
    rw [hP, receive, c2, List.getLast?_append, he]; rfl
  refine ⟨e, he, ?_⟩
  classical
  by_cases hc : NoPlaceholder H (smtInputs H 256 (hashed H P))
  · obtain ⟨sibs, hs⟩ := c3.verify_ok hPe hc.leftFree c5
    have hroot : r3.expectedRootHash = smt H 256 L := by rw [c4, a3]; rfl
    rw [hroot] at hs
    rcases climb_unique H e.1 256 (Nat.le_refl _) (agree_top hL.1) sibs hs.len (some (e.1, H.value e.2)) (by
        simp only [Nat.sub_self, List.drop_zero]; exact hs.climb) with hu | hcl
    · left
      obtain ⟨-, -, g3⟩ := getRangeProof_of_path h hv hL hu
      rw [g3]
      have hz : (sibs.zip e.1.bits).map Prod.snd = (List.range sibs.length).map e.1.bit := by
        rw [map_snd_zip']
        simp [Key.bits, ← List.map_take, List.take_range, Nat.min_eq_left hs.len]
      have hz' : (sibs.zip e.1.bits).map Prod.fst = sibs := List.map_fst_zip (by simpa using hs.len)
      rw [filterMap_zip_false e.1 sibs.length _ hz, hz', ← hs.asm.right]
    · refine .inr (.inr ⟨sibs, hs.len, hs.asm, ?_⟩)
      simpa only [Nat.sub_self, List.drop_zero, leafHash, Option.map_some, Option.toList_some] using hcl
  · right; left
    unfold NoPlaceholder at hc
    simpa using hc

/-- The range proof of a key with siblings on both sides; with a collision-free hash no other leaf, proof and left siblings verify. -/
example : ∃ s root p left, Reached termHasher 0 exOps s 3 ∧ Tree.getRootHash termHasher s.reader 1 = .ok root ∧
    SparseMerkleRangeProof.verify termHasher p root ⟨key 0x80 0, termHasher.value [5]⟩ left = .ok () ∧ p.rightSiblings.length = 1 ∧ left.length = 1 ∧
    ∀ q vh left', q.verify termHasher root ⟨key 0x80 0, vh⟩ left' = .ok () → q = p ∧ vh = termHasher.value [5] := by
  obtain ⟨s, h⟩ := exOps_reached
  have hf := h.facts exOps_readable1
  have hL := lists_hashed (H := termHasher) exPairs_sorted exPairs_mem
  have hroot : Tree.getRootHash termHasher s.reader 1 = .ok (smtRoot termHasher (hashed termHasher exPairs)) := by
    rw [hf.getRootHash, hf.hash hL]
  have hver : SparseMerkleRangeProof.verify termHasher ⟨rightSiblings termHasher (key 0x80 0) 2 (hashed termHasher exPairs)⟩
      (smtRoot termHasher (hashed termHasher exPairs)) ⟨key 0x80 0, termHasher.value [5]⟩
      (leftSiblings termHasher (key 0x80 0) 2 (hashed termHasher exPairs)) = .ok () := by
    rw [range_verify_climb _ _ _ _ _ (by decide)]
    have e : climb termHasher ((List.range 2).map (sibling termHasher (key 0x80 0) (hashed termHasher exPairs))) (key 0x80 0).bits
        (termHasher.leaf (key 0x80 0) (termHasher.value [5])) = smtRoot termHasher (hashed termHasher exPairs) := by decide +kernel
    rw [e]
    simp [ensure]
  refine ⟨s, _, _, _, h, hroot, hver, by decide +kernel, by decide +kernel, fun q vh left' hq => ?_⟩
  rcases C75_range_proof_unique _ _ _ _ _ h _ exOps_readable1 _ hroot _ _ _ _ hver _ hL with ⟨x, a1, a2, a3, a4⟩ | hcl
  · rcases C75_range_proof_unique _ _ _ _ _ h _ exOps_readable1 _ hroot _ _ _ _ hq _ hL with ⟨y, b1, b2, b3, b4⟩ | hcl
    · rw [a3] at b3
      rw [a1] at b1
      exact ⟨(Except.ok.inj b3).symm, by rw [← b2, ← a2, Option.some.inj b1]⟩
    · exact absurd hcl (termHasher_no_clash _ _)
  · exact absurd hcl (termHasher_no_clash _ _)

/-- Two chunks that are accepted: the proof of the second one is the genuine one. -/
example : ∃ s p1 p2 r0 r, Reached termHasher 0 exOps s 3 ∧
    Restore.new termHasher Store.empty 7 (smtRoot termHasher (hashed termHasher exPairs)) false = .ok r0 ∧
    r0.addChunks termHasher ([(exPairs.take 2, p1)] ++ [(exPairs.drop 2, p2)]) = .ok (r, [none] ++ [none]) ∧
    Tree.getRangeProof termHasher s.reader (key 0xF0 0) 1 = .ok p2 := by
  obtain ⟨s, h⟩ := exOps_reached
  have hf := h.facts exOps_readable1
  have hL := lists_hashed (H := termHasher) exPairs_sorted exPairs_mem
  have hroot : Tree.getRootHash termHasher s.reader 1 = .ok (smtRoot termHasher (hashed termHasher exPairs)) := by
    rw [hf.getRootHash, hf.hash hL]
  obtain ⟨p1, h1⟩ := exCalls h (key 0x80 0, [5]) (by simp [exPairs])
  obtain ⟨p2, h2⟩ := exCalls h (key 0xF0 0, [3]) (by simp [exPairs])
  obtain ⟨r0, r, s', a1, a2, a3, a4, _⟩ := C21_restore_complete termHasher _ _ _ _ h _ exOps_readable1 _ hroot exPairs exPairs_sorted
    exPairs_mem (by simp [exPairs]) (termHasher_placeholder _) [(exPairs.take 2, p1), (exPairs.drop 2, p2)] (by simp)
    (by
      intro c hc
      simp only [List.mem_cons, List.not_mem_nil, or_false] at hc
      rcases hc with rfl | rfl
      · exact ⟨_, rfl, h1⟩
      · exact ⟨_, rfl, h2⟩) Store.empty ⟨rfl, rfl⟩ 7 false
  refine ⟨s, p1, p2, r0, r, h, a1, a2, ?_⟩
  obtain ⟨e, he, hc⟩ := C75_chunk_proof termHasher _ _ _ _ h _ exOps_readable1 _ hroot Store.empty ⟨rfl, rfl⟩ 7 false _ hL
    [(exPairs.take 2, p1)] (exPairs.drop 2) p2 r0 r [none] a1 a2
  cases he
  rcases hc with hc | ⟨x, hx, hc⟩ | ⟨_, _, _, hc⟩
  · exact hc
  · exact absurd hc (termHasher_placeholder _ x hx)
  · exact absurd hc (termHasher_no_clash _ _)

end Verif.Props
