import Verif.Proofs.RestoreFinish
/-! Restoring from genuine chunks. -/

set_option autoImplicit false

namespace Verif.Jmt
open VTree Verif.Spec
variable {D : Type}

theorem VersionFacts.getRangeProof {H : Hasher D} {s : Store D} {v : Version} {f : Key → Option Value} {t : VTree D}
    (h : VersionFacts H s v f t) {k : Key} {x : Value} (hk : f k = some x) {L : List (Key × D)} (hL : Lists H f L) :
    Tree.getRangeProof H s.reader k v = .ok ⟨rightSiblings H k (smtPath H k 256 L).1.length L⟩ := by
  have hlen := smtPath_length H k 256 L
  have hs := smtPath_siblings_top H k L
  unfold Tree.getRangeProof
  rw [h.getWithProof k, hk, h.path hL]
  have e : (proofOf (smtPath H k 256 L)).siblings.reverse = (List.range (smtPath H k 256 L).1.length).map (sibling H k L) := by
    simp only [proofOf, List.reverse_reverse]; exact hs
  have := (filterMap_zip_bits H k L _ hlen).2
  simp only [bind, Except.bind, e, this]
  rfl

theorem lists_hashed {H : Hasher D} {f : Key → Option Value} {P : List (Key × Value)} (hs : P.Pairwise (fun a b => a.1 < b.1))
    (hP : ∀ k x, (k, x) ∈ P ↔ f k = some x) : Lists H f (hashed H P) := by
  constructor
  · rw [hashed, List.map_map, List.Nodup, List.pairwise_map]
    refine hs.imp ?_
    intro a b hab heq
    simp only [Function.comp] at heq
    rw [heq] at hab
    exact Key.lt_irrefl _ hab
  · intro k d
    constructor
    · intro hm
      obtain ⟨e, he, heq⟩ := List.mem_map.1 hm
      cases heq
      rw [(hP e.1 e.2).1 he]; rfl
    · intro hm
      obtain ⟨x, hx, rfl⟩ := Option.map_eq_some_iff.1 hm
      exact List.mem_map.2 ⟨(k, x), (hP k x).2 hx, rfl⟩

/-- The end of a genuine chunk: all its pairs have been added. -/
theorem honest_finish {H : Hasher D} [DecidableEq D] {s : Store D} {v : Version} {f : Key → Option Value} {t : VTree D} (hf : VersionFacts H s v f t)
    {w : Version} {m : Bool} {P rest : List (Key × Value)} {r : Restore D} (h : Live H w m P r)
    (hs : (P ++ rest).Pairwise (fun a b => a.1 < b.1)) (hP : ∀ k x, (k, x) ∈ P ++ rest ↔ f k = some x)
    (hc : NoPlaceholder H (smtInputs H 256 (hashed H (P ++ rest)))) (hroot : r.expectedRootHash = smtRoot H (hashed H (P ++ rest)))
    {e : Key × Value} (he : P.getLast? = some e) {proof : SparseMerkleRangeProof D} (hpr : Tree.getRangeProof H s.reader e.1 v = .ok proof) :
    ∃ r', r.finishChunk H proof = .ok (r', none) ∧ Live H w m P r' ∧ r'.frozenNodes = .empty ∧ r'.expectedRootHash = r.expectedRootHash := by
  have hne : P ≠ [] := by rintro rfl; cases he
  obtain ⟨z, hz⟩ := h.nonempty hne
  have hv : r.verify H proof = .ok () := by
    have hL := lists_hashed (H := H) hs hP
    have hek : f e.1 = some e.2 := (hP e.1 e.2).1 (List.mem_append_left _ (List.mem_of_getLast? he))
    have hg := hf.getRangeProof hek hL
    rw [hpr] at hg
    have hg := Except.ok.inj hg
    rw [hg]
    refine hz.complete he hL.1 hc hroot ?_
    intro x
    constructor
    · intro hx
      obtain ⟨a, ha, rfl⟩ := List.mem_map.1 hx
      exact ⟨List.mem_map.2 ⟨a, List.mem_append_left _ ha, rfl⟩, sorted_le_last hz.sorted he ha⟩
    · rintro ⟨hx, hle⟩
      obtain ⟨a, ha, rfl⟩ := List.mem_map.1 hx
      rcases List.mem_append.1 ha with ha | ha
      · exact List.mem_map.2 ⟨a, ha, rfl⟩
      · exfalso
        exact hle ((List.pairwise_append.1 hs).2.2 e (List.mem_of_getLast? he) a ha)
  obtain ⟨s', w1, w2, _⟩ := hz.write
  refine ⟨{ r with store := s', frozenNodes := .empty }, ?_, ⟨z, true, w2, .inr rfl⟩, rfl, rfl⟩
  unfold Restore.finishChunk
  rw [hv, w1]

/-- One genuine chunk, added to a state that takes its pairs. -/
theorem honest_chunk {H : Hasher D} [DecidableEq D] {s : Store D} {v : Version} {f : Key → Option Value} {t : VTree D} (hf : VersionFacts H s v f t)
    {w : Version} {m : Bool} {P rest : List (Key × Value)} {r r1 : Restore D} {chunk : List (Key × Value)}
    (ha : r.addPairs H chunk = .ok (r1, none)) (h : Live H w m P r1)
    (hs : (P ++ rest).Pairwise (fun a b => a.1 < b.1)) (hP : ∀ k x, (k, x) ∈ P ++ rest ↔ f k = some x)
    (hc : NoPlaceholder H (smtInputs H 256 (hashed H (P ++ rest)))) (hroot : r1.expectedRootHash = smtRoot H (hashed H (P ++ rest)))
    {e : Key × Value} (he : P.getLast? = some e) (hce : chunk ≠ []) {proof : SparseMerkleRangeProof D}
    (hpr : Tree.getRangeProof H s.reader e.1 v = .ok proof) :
    ∃ r', r.addChunk H chunk proof = .ok (r', none) ∧ Live H w m P r' ∧ r'.frozenNodes = .empty ∧ r'.expectedRootHash = r1.expectedRootHash := by
  obtain ⟨r', a1, a2⟩ := honest_finish hf h hs hP hc hroot he hpr
  refine ⟨r', ?_, a2⟩
  unfold Restore.addChunk
  have : chunk.isEmpty = false := by simpa using hce
  rw [this, ha]
  exact a1

/-- The state after genuine chunks. -/
theorem honest_run {H : Hasher D} [DecidableEq D] {s : Store D} {v : Version} {f : Key → Option Value} {t : VTree D} (hf : VersionFacts H s v f t)
    {w : Version} {m : Bool} (calls : List (List (Key × Value) × SparseMerkleRangeProof D)) {P0 rest : List (Key × Value)} {r : Restore D}
    (h : Live H w m P0 r) (hs : (P0 ++ (calls.map Prod.fst).flatten ++ rest).Pairwise (fun a b => a.1 < b.1))
    (hP : ∀ k x, (k, x) ∈ P0 ++ (calls.map Prod.fst).flatten ++ rest ↔ f k = some x)
    (hc : NoPlaceholder H (smtInputs H 256 (hashed H (P0 ++ (calls.map Prod.fst).flatten ++ rest))))
    (hroot : r.expectedRootHash = smtRoot H (hashed H (P0 ++ (calls.map Prod.fst).flatten ++ rest)))
    (hcalls : ∀ c ∈ calls, ∃ e, c.1.getLast? = some e ∧ Tree.getRangeProof H s.reader e.1 v = .ok c.2) :
    ∃ r', r.addChunks H calls = .ok (r', calls.map (fun _ => none)) ∧ Live H w m (P0 ++ (calls.map Prod.fst).flatten) r' ∧
      (calls ≠ [] ∨ r.frozenNodes = .empty → r'.frozenNodes = .empty) := by
  induction calls generalizing P0 r with
  | nil => exact ⟨r, rfl, by simpa using h, by simp⟩
  | cons c cs ih =>
    obtain ⟨e, he, hpr⟩ := hcalls c List.mem_cons_self
    have hne : c.1 ≠ [] := by intro h0; rw [h0] at he; cases he
    have hsplit : P0 ++ ((c :: cs).map Prod.fst).flatten ++ rest = (P0 ++ c.1) ++ ((cs.map Prod.fst).flatten ++ rest) := by simp
    rw [hsplit] at hs hP hc hroot
    have hris : rising (P0.getLast?.map Prod.fst) c.1 = c.1 := rising_sorted _ (List.pairwise_append.1 hs).1
    have hrec : receive P0 c.1 = P0 ++ c.1 := by rw [receive, hris]
    obtain ⟨r2, out, b1, b2, b3, b4, b5⟩ := h.addPairs c.1
    obtain rfl : out = none := b5.2 hris
    rw [hrec] at b2
    obtain ⟨r1, a1, a2, a3, a4⟩ := honest_chunk hf b1 b2 hs hP hc (by rw [b4, hroot]) (by rw [List.getLast?_append, he]; rfl) hne hpr
    have hsp2 : P0 ++ c.1 ++ (cs.map Prod.fst).flatten ++ rest = P0 ++ c.1 ++ ((cs.map Prod.fst).flatten ++ rest) := by simp
    obtain ⟨r', d1, d2, d3⟩ := ih (P0 := P0 ++ c.1) a2 (by rw [hsp2]; exact hs) (by rw [hsp2]; exact hP) (by rw [hsp2]; exact hc)
      (by rw [hsp2, a4, b4]; exact hroot) (fun c' hc' => hcalls c' (List.mem_cons_of_mem _ hc'))
    refine ⟨r', ?_, by simpa using d2, fun _ => d3 (.inr a3)⟩
    unfold Restore.addChunks
    rw [a1]
    simp only [Res.ok_bind, d1, Res.pure_eq, List.map_cons]

/-- `finish` after a run. -/
theorem Live.finish {H : Hasher D} {v : Version} {m : Bool} {P : List (Key × Value)} {r : Restore D}
    (h : Live H v m P r) (hP : P ≠ []) (h1 : r.frozenNodes = .empty) :
    ∃ s' t f, r.finish H = .ok s' ∧ VersionFacts H s' v f t ∧ t.entries = hashed H P ∧ ∀ k x, (k, x) ∈ P ↔ f k = some x := by
  obtain ⟨z, hz⟩ := h.nonempty hP
  obtain ⟨s', t, a1, a2, a3⟩ := hz.finish hP (fun _ => by rw [h1]; rfl)
  exact ⟨s', t, _, a1, a2, a3, fun k x => (hz.val k x).symm⟩

end Verif.Jmt
