import Verif.Proofs.RestoreHonest
import Verif.Props.JmtRange
/-! Properties C21, C22, C23 and C53: restoring a tree from chunks. -/

set_option autoImplicit false

namespace Verif.Props
open Verif Verif.Jmt Verif.Spec
variable {D : Type}

/-- **C21.** `P` lists the pairs of a readable version in order, and `calls` is any split of `P` into chunks, each with the range
proof of its last key. Then a restore into a fresh store takes all chunks, and after `finish` the new store has at version `w` the
same root hash and gives the same answers and proofs for all keys. (No hash of the tree may equal the placeholder.) -/
theorem C21_restore_complete (H : Hasher D) [DecidableEq D] (v0 next : Version) (ops : List Op) (s : Store D)
    (h : Reached H v0 ops s next) (v : Version) (hv : Readable v0 ops v) (root : D) (hroot : Tree.getRootHash H s.reader v = .ok root)
    (P : List (Key × Value)) (hsorted : P.Pairwise (fun a b => a.1 < b.1)) (hP : ∀ k x, (k, x) ∈ P ↔ contentsAt v0 ops v k = some x)
    (hne : P ≠ []) (hc : ∀ x ∈ smtInputs H 256 (hashed H P), x.digest H ≠ H.placeholder)
    (calls : List (List (Key × Value) × SparseMerkleRangeProof D)) (hsplit : (calls.map Prod.fst).flatten = P)
    (hcalls : ∀ c ∈ calls, ∃ e, c.1.getLast? = some e ∧ Tree.getRangeProof H s.reader e.1 v = .ok c.2)
    (dst : Store D) (hdst : dst.nodes.entries = [] ∧ dst.valueHistory.entries = []) (w : Version) (m : Bool) :
    ∃ r0 r s', Restore.new H dst w root m = .ok r0 ∧ r0.addChunks H calls = .ok (r, calls.map (fun _ => none)) ∧ r.finish H = .ok s' ∧
      Tree.getRootHash H s'.reader w = .ok root ∧
      ∀ k, Tree.getWithProof H s'.reader k w = Tree.getWithProof H s.reader k v := by
  have hf := h.facts hv
  have hL := lists_hashed (H := H) hsorted hP
  have hr : root = smtRoot H (hashed H P) := by
    have := hf.getRootHash
    rw [hroot] at this
    rw [← hf.hash hL]
    exact Except.ok.inj this
  obtain ⟨r, a1, a2, a3⟩ := honest_run hf calls (rest := []) (Live.fresh H hdst.1 hdst.2 w root m) (by simpa [hsplit] using hsorted)
    (by simpa [hsplit] using hP) (by simpa [hsplit, NoPlaceholder] using hc) (by simp only [hsplit, List.nil_append, List.append_nil]; exact hr) hcalls
  rw [hsplit, List.nil_append] at a2
  have hcne : calls ≠ [] := by rintro rfl; exact hne hsplit.symm
  obtain ⟨s', t, f, b1, b2, b3, b4⟩ := a2.finish hne (a3 (.inl hcne))
  have hfe : f = contentsAt v0 ops v := by
    funext k
    apply Option.ext
    intro x
    exact (b4 k x).symm.trans (hP k x)
  have hLf : Lists H f (hashed H P) := by rw [hfe]; exact hL
  refine ⟨_, r, s', new_fresh H hdst.1 w root m, a1, b1, ?_, ?_⟩
  · rw [b2.getRootHash, b2.hash hLf, hr]
  · intro k
    rw [b2.getWithProof k, hf.getWithProof k, b2.path hLf, hf.path hL, hfe]

/-- **C53.** No list of chunks and proofs makes `add_chunk` panic, and the pairs kept are those in increasing order. -/
theorem C53_add_chunks_total (H : Hasher D) [DecidableEq D] (dst : Store D) (hdst : dst.nodes.entries = [] ∧ dst.valueHistory.entries = [])
    (v : Version) (root : D) (m : Bool) (calls : List (List (Key × Value) × SparseMerkleRangeProof D)) :
    ∃ r0 r outs, Restore.new H dst v root m = .ok r0 ∧ r0.addChunks H calls = .ok (r, outs) ∧ outs.length = calls.length := by
  obtain ⟨r, outs, a1, _, _, a4⟩ := (Live.fresh H hdst.1 hdst.2 v root m).addChunks calls
  exact ⟨_, r, outs, new_fresh H hdst.1 v root m, a1, a4⟩

/-- **C22.** The last one of any list of `add_chunk` calls on a fresh restore returned `Ok`; the earlier ones may have failed, and all
chunks and proofs are arbitrary. Then the values stored are the pairs `P` taken from the chunks, and the (key, value hash) pairs of `P`
are exactly those of the expected tree up to the last key of `P`, or else a hash collision with the expected tree, or an input
hashing to the placeholder, is at hand. -/
theorem C22_restore_sound (H : Hasher D) [DecidableEq D] (dst : Store D) (hdst : dst.nodes.entries = [] ∧ dst.valueHistory.entries = [])
    (v : Version) (m : Bool) (L : List (Key × D)) (hL : (L.map Prod.fst).Nodup)
    (calls : List (List (Key × Value) × SparseMerkleRangeProof D)) (chunk : List (Key × Value)) (proof : SparseMerkleRangeProof D)
    (r0 r : Restore D) (outs : List (Option String)) (hnew : Restore.new H dst v (smtRoot H L) m = .ok r0)
    (hrun : r0.addChunks H (calls ++ [(chunk, proof)]) = .ok (r, outs ++ [none])) :
    let P := received (calls.map Prod.fst ++ [chunk])
    (∀ k x, r.store.getValueOption v k = some x ↔ (k, x) ∈ P) ∧ P.Pairwise (fun a b => a.1 < b.1) ∧
    ∃ e, P.getLast? = some e ∧ chunk.getLast? = some e ∧
      ((∀ x, x ∈ hashed H P ↔ x ∈ L ∧ x.1 ≤ e.1) ∨
       (∃ x ∈ smtInputs H 256 (hashed H P), x.digest H = H.placeholder) ∨
       ∃ sibs, sibs.length ≤ 256 ∧ Assembled H (hashed H P) e.1 proof.rightSiblings sibs ∧
        Clash H (climbInputs H sibs e.1.bits (H.leaf e.1 (H.value e.2)) ++ smtInputs H 256 (hashed H P) ++ [.leaf e.1 (H.value e.2)])
          (smtInputs H 256 L)) := by
  intro P
  rw [new_fresh H hdst.1] at hnew
  obtain rfl := Except.ok.inj hnew
  obtain ⟨r1, outs1, a1, a2, a3, a4⟩ := (Live.fresh H hdst.1 hdst.2 v (smtRoot H L) m).addChunks calls
  obtain ⟨r2, out, b1, b2, b3, b4, b5⟩ := a2.addChunk chunk proof
  rw [addChunks_append, a1] at hrun
  have hrun : (Restore.addChunks H r1 [(chunk, proof)]).bind (fun y => .ok (y.1, outs1 ++ y.2)) = .ok (r, outs ++ [none]) := hrun
  unfold Restore.addChunks at hrun
  simp only [b1, Res.ok_bind] at hrun
  have hrun : (Except.ok (r2, outs1 ++ [out]) : Res _) = .ok (r, outs ++ [none]) := hrun
  simp only [Except.ok.injEq, Prod.mk.injEq] at hrun
  obtain ⟨rfl, h2⟩ := hrun
  have hout : out = none := by
    have := congrArg List.getLast? h2
    simpa using this
  have hP : P = receive ((calls.map Prod.fst).foldl receive []) chunk := by
    show (calls.map Prod.fst ++ [chunk]).foldl receive [] = _
    rw [List.foldl_append]; rfl
  rw [← hP] at b2 b4
  obtain ⟨c1, c2, z, r3, c3, c4, c5, _⟩ := b4.1 hout
  obtain ⟨e, he⟩ : ∃ e, chunk.getLast? = some e := by
    cases hl : chunk.getLast? with
    | none => exact absurd (List.getLast?_eq_none_iff.1 hl) c1
    | some e => exact ⟨e, rfl⟩
  have hPe : P.getLast? = some e := by
    rw [hP, receive, c2, List.getLast?_append, he]; rfl
  have hPne : P ≠ [] := by intro h0; rw [h0] at hPe; cases hPe
  obtain ⟨z', hz'⟩ := b2.nonempty hPne
  refine ⟨?_, c3.sorted, e, hPe, he, ?_⟩
  · intro k x
    rw [← hz'.val]
    unfold Restore.curVal
    rw [b5 hout]
    rfl
  · exact c3.sound hPe c5 hL (by rw [c4, a3]; rfl)

/-- **C23, partial.** After a run whose last `add_chunk` returned `Ok`, `finish` succeeds and the new version holds exactly the pairs
taken, with their root hash. Missing: that this is the expected root hash, which is false when the last chunk taken was not the last
one of the tree (`C23_truncated_restore_false`); it holds when all keys have been received (next theorem). -/
theorem C23_finished_root_partial (H : Hasher D) [DecidableEq D] (dst : Store D) (hdst : dst.nodes.entries = [] ∧ dst.valueHistory.entries = [])
    (v : Version) (root : D) (m : Bool) (calls : List (List (Key × Value) × SparseMerkleRangeProof D)) (chunk : List (Key × Value))
    (proof : SparseMerkleRangeProof D) (r0 r : Restore D) (outs : List (Option String)) (hnew : Restore.new H dst v root m = .ok r0)
    (hrun : r0.addChunks H (calls ++ [(chunk, proof)]) = .ok (r, outs ++ [none])) :
    let P := received (calls.map Prod.fst ++ [chunk])
    ∃ (s' : Store D) (f : Key → Option Value), r.finish H = .ok s' ∧ Tree.getRootHash H s'.reader v = .ok (smtRoot H (hashed H P)) ∧ (∀ k x, (k, x) ∈ P ↔ f k = some x) ∧
      ∀ k, ∃ p, Tree.getWithProof H s'.reader k v = .ok (f k, p) ∧ p.verify H (smtRoot H (hashed H P)) k (f k) = .ok () := by
  intro P
  rw [new_fresh H hdst.1] at hnew
  obtain rfl := Except.ok.inj hnew
  obtain ⟨r1, outs1, a1, a2, a3, a4⟩ := (Live.fresh H hdst.1 hdst.2 v root m).addChunks calls
  obtain ⟨r2, out, b1, b2, b3, b4, b5⟩ := a2.addChunk chunk proof
  rw [addChunks_append, a1] at hrun
  have hrun : (Restore.addChunks H r1 [(chunk, proof)]).bind (fun y => .ok (y.1, outs1 ++ y.2)) = .ok (r, outs ++ [none]) := hrun
  unfold Restore.addChunks at hrun
  simp only [b1, Res.ok_bind] at hrun
  have hrun : (Except.ok (r2, outs1 ++ [out]) : Res _) = .ok (r, outs ++ [none]) := hrun
  simp only [Except.ok.injEq, Prod.mk.injEq] at hrun
  obtain ⟨rfl, h2⟩ := hrun
  have hout : out = none := by
    have := congrArg List.getLast? h2
    simpa using this
  have hP : P = receive ((calls.map Prod.fst).foldl receive []) chunk := by
    show (calls.map Prod.fst ++ [chunk]).foldl receive [] = _
    rw [List.foldl_append]; rfl
  rw [← hP] at b2 b4
  obtain ⟨c1, c2, _⟩ := b4.1 hout
  have hPne : P ≠ [] := by rw [hP, receive, c2]; simp [c1]
  obtain ⟨s', t, f, d1, d2, d3, d4⟩ := b2.finish hPne (b5 hout)
  have hhash : t.hash H = smtRoot H (hashed H P) := by
    rw [VTree.hash_eq_smt H d2.hold.1, d3]; rfl
  refine ⟨s', f, d1, by rw [d2.getRootHash, hhash], d4, ?_⟩
  intro k
  refine ⟨_, d2.getWithProof k, ?_⟩
  rw [← hhash]
  exact proofOf_verify H d2.hold k

/-- C23 for a complete run: when the last key received is not smaller than any key of the expected tree, the root hash of the finished
restore is the expected one, or a collision as in C22 is at hand. -/
theorem C23_all_received_partial (H : Hasher D) [DecidableEq D] (dst : Store D) (hdst : dst.nodes.entries = [] ∧ dst.valueHistory.entries = [])
    (v : Version) (m : Bool) (L : List (Key × D)) (hL : (L.map Prod.fst).Nodup)
    (calls : List (List (Key × Value) × SparseMerkleRangeProof D)) (chunk : List (Key × Value)) (proof : SparseMerkleRangeProof D)
    (r0 r : Restore D) (outs : List (Option String)) (hnew : Restore.new H dst v (smtRoot H L) m = .ok r0)
    (hrun : r0.addChunks H (calls ++ [(chunk, proof)]) = .ok (r, outs ++ [none]))
    (e : Key × Value) (he : chunk.getLast? = some e) (hall : ∀ x ∈ L, x.1 ≤ e.1) :
    let P := received (calls.map Prod.fst ++ [chunk])
    (∃ s', r.finish H = .ok s' ∧ Tree.getRootHash H s'.reader v = .ok (smtRoot H L)) ∨
      (∃ x ∈ smtInputs H 256 (hashed H P), x.digest H = H.placeholder) ∨
      ∃ sibs, sibs.length ≤ 256 ∧ Assembled H (hashed H P) e.1 proof.rightSiblings sibs ∧
        Clash H (climbInputs H sibs e.1.bits (H.leaf e.1 (H.value e.2)) ++ smtInputs H 256 (hashed H P) ++ [.leaf e.1 (H.value e.2)])
          (smtInputs H 256 L) := by
  intro P
  obtain ⟨_, hsorted, e', h1, h2, h3⟩ := C22_restore_sound H dst hdst v m L hL calls chunk proof r0 r outs hnew hrun
  obtain rfl : e' = e := by rw [he] at h2; exact (Option.some.inj h2).symm
  rcases h3 with h3 | h3
  · left
    obtain ⟨s', f, d1, d2, _⟩ := C23_finished_root_partial H dst hdst v _ m calls chunk proof r0 r outs hnew hrun
    refine ⟨s', d1, ?_⟩
    rw [d2]
    congr 1
    refine smt_perm H 256 ((List.perm_ext_iff_of_nodup ?_ (nodup_of_map _ hL)).2 ?_)
    · have hn : ((hashed H P).map Prod.fst).Nodup := by
        rw [hashed, List.map_map, List.Nodup, List.pairwise_map]
        refine List.Pairwise.imp ?_ hsorted
        intro a b hab heq
        simp only [Function.comp] at heq
        rw [heq] at hab
        exact Key.lt_irrefl _ hab
      exact nodup_of_map _ hn
    · intro x
      rw [h3]
      exact ⟨fun h => h.1, fun h => ⟨h, hall x h⟩⟩
  · exact .inr h3

/-- **C23 is false.** Any genuine run that stops before the last chunk can be finished: `finish` returns `Ok` and leaves a version
with the root hash of the truncated contents `P` instead of the expected one. -/
theorem C23_truncated_restore_false (H : Hasher D) [DecidableEq D] (v0 next : Version) (ops : List Op) (s : Store D)
    (h : Reached H v0 ops s next) (v : Version) (hv : Readable v0 ops v) (root : D) (hroot : Tree.getRootHash H s.reader v = .ok root)
    (P rest : List (Key × Value)) (hsorted : (P ++ rest).Pairwise (fun a b => a.1 < b.1))
    (hP : ∀ k x, (k, x) ∈ P ++ rest ↔ contentsAt v0 ops v k = some x)
    (hne : P ≠ []) (hc : ∀ x ∈ smtInputs H 256 (hashed H (P ++ rest)), x.digest H ≠ H.placeholder)
    (calls : List (List (Key × Value) × SparseMerkleRangeProof D)) (hsplit : (calls.map Prod.fst).flatten = P)
    (hcalls : ∀ c ∈ calls, ∃ e, c.1.getLast? = some e ∧ Tree.getRangeProof H s.reader e.1 v = .ok c.2)
    (dst : Store D) (hdst : dst.nodes.entries = [] ∧ dst.valueHistory.entries = []) (w : Version) (m : Bool) :
    ∃ r0 r s', Restore.new H dst w root m = .ok r0 ∧ r0.addChunks H calls = .ok (r, calls.map (fun _ => none)) ∧ r.finish H = .ok s' ∧
      Tree.getRootHash H s'.reader w = .ok (smtRoot H (hashed H P)) := by
  have hf := h.facts hv
  have hL := lists_hashed (H := H) hsorted hP
  have hr : root = smtRoot H (hashed H (P ++ rest)) := by
    have := hf.getRootHash
    rw [hroot] at this
    rw [← hf.hash hL]
    exact Except.ok.inj this
  obtain ⟨r, a1, a2, a3⟩ := honest_run hf calls (rest := rest) (Live.fresh H hdst.1 hdst.2 w root m) (by simpa [hsplit] using hsorted)
    (by simpa [hsplit] using hP) (by simpa [hsplit, NoPlaceholder] using hc) (by simp only [hsplit, List.nil_append]; exact hr) hcalls
  rw [hsplit, List.nil_append] at a2
  have hcne : calls ≠ [] := by rintro rfl; exact hne hsplit.symm
  obtain ⟨s', t, f, b1, b2, b3, b4⟩ := a2.finish hne (a3 (.inl hcne))
  refine ⟨_, r, s', new_fresh H hdst.1 w root m, a1, b1, ?_⟩
  rw [b2.getRootHash, VTree.hash_eq_smt H b2.hold.1, b3]
  rfl

/-- C23, other outcomes: `finish` of a restore that has received nothing panics. -/
theorem C23_finish_empty_panics (H : Hasher D) (dst : Store D) (v : Version) (root : D) (m : Bool) :
    ∃ msg, (Restore.newOverwrite dst v root m).finish H = .error (.panic msg) := ⟨_, rfl⟩

/-! ### Examples -/

/-- The pairs of version 1 of `exOps`. -/
def exPairs : List (Key × Value) := [(key 1 2, [7]), (key 0x80 0, [5]), (key 0xF0 0, [3])]

theorem exPairs_sorted : exPairs.Pairwise (fun a b => a.1 < b.1) := by decide +kernel

theorem exPairs_mem (k : Key) (x : Value) : (k, x) ∈ exPairs ↔ contentsAt 0 exOps 1 k = some x := by
  have h1 : key 1 2 ≠ key 1 1 := by decide +kernel
  have h2 : key 0x80 0 ≠ key 1 1 := by decide +kernel
  have h3 : key 0xF0 0 ≠ key 1 1 := by decide +kernel
  have h4 : key 0x80 0 ≠ key 1 2 := by decide +kernel
  have h5 : key 0xF0 0 ≠ key 1 2 := by decide +kernel
  have h6 : key 0xF0 0 ≠ key 0x80 0 := by decide +kernel
  have e : contentsAt 0 exOps 1 k = if k = key 0x80 0 then some [5] else if k = key 0x80 0 then some [4] else if k = key 1 2 then some [7]
      else if k = key 1 1 then none else if k = key 0xF0 0 then some [3] else if k = key 1 2 then some [2]
      else if k = key 1 1 then some [1] else none := rfl
  rw [e]
  simp only [exPairs, List.mem_cons, List.not_mem_nil, or_false, Prod.mk.injEq]
  by_cases a : k = key 0x80 0
  · subst a; simp [h4, h6.symm, eq_comm]
  by_cases b : k = key 1 2
  · subst b; simp [h4.symm, h5.symm, eq_comm]
  by_cases c : k = key 0xF0 0
  · subst c; simp [h3, h5, h6, eq_comm]
  simp only [a, b, c, if_false, false_and, false_or, false_iff]
  split <;> simp

theorem termHasher_placeholder (xs : List (HashInput Term)) : ∀ x ∈ xs, x.digest termHasher ≠ termHasher.placeholder := by
  intro x _
  cases x <;> simp [HashInput.digest, termHasher]

/-- Range proofs of the given keys, when they exist. -/
theorem exCalls {s : Store Term} (h : Reached termHasher 0 exOps s 3) (e : Key × Value) (he : e ∈ exPairs) :
    ∃ p, Tree.getRangeProof termHasher s.reader e.1 1 = .ok p := by
  obtain ⟨p, _, _, h1, _⟩ := C20_range_proof_verifies termHasher _ _ _ _ h _ exOps_readable1 e.1 e.2 ((exPairs_mem e.1 e.2).1 he) _
    (h.facts exOps_readable1).hold.lists
  exact ⟨p, h1⟩

-- C21: three pairs in two chunks
example : ∃ s root p1 p2 r0 r s', Reached termHasher 0 exOps s 3 ∧ Tree.getRootHash termHasher s.reader 1 = .ok root ∧
    Restore.new termHasher Store.empty 7 root false = .ok r0 ∧
    r0.addChunks termHasher [(exPairs.take 2, p1), (exPairs.drop 2, p2)] = .ok (r, [none, none]) ∧ r.finish termHasher = .ok s' ∧
    Tree.getRootHash termHasher s'.reader 7 = .ok root := by
  obtain ⟨s, h⟩ := exOps_reached
  have hf := h.facts exOps_readable1
  obtain ⟨p1, h1⟩ := exCalls h (key 0x80 0, [5]) (by simp [exPairs])
  obtain ⟨p2, h2⟩ := exCalls h (key 0xF0 0, [3]) (by simp [exPairs])
  obtain ⟨r0, r, s', a1, a2, a3, a4, _⟩ := C21_restore_complete termHasher _ _ _ _ h _ exOps_readable1 _ hf.getRootHash exPairs exPairs_sorted
    exPairs_mem (by simp [exPairs]) (termHasher_placeholder _) [(exPairs.take 2, p1), (exPairs.drop 2, p2)] (by simp)
    (by
      intro c hc
      simp only [List.mem_cons, List.not_mem_nil, or_false] at hc
      rcases hc with rfl | rfl
      · exact ⟨_, rfl, h1⟩
      · exact ⟨_, rfl, h2⟩) Store.empty ⟨rfl, rfl⟩ 7 false
  exact ⟨s, _, p1, p2, r0, r, s', h, hf.getRootHash, a1, a2, a3, a4⟩

-- C23: the first of the two chunks alone can be finished, with another root hash than the expected one
example : ∃ s root p1 r0 r s' root', Reached termHasher 0 exOps s 3 ∧ Tree.getRootHash termHasher s.reader 1 = .ok root ∧
    Restore.new termHasher Store.empty 7 root false = .ok r0 ∧ r0.addChunks termHasher [(exPairs.take 2, p1)] = .ok (r, [none]) ∧
    r.finish termHasher = .ok s' ∧ Tree.getRootHash termHasher s'.reader 7 = .ok root' ∧ root' ≠ root := by
  obtain ⟨s, h⟩ := exOps_reached
  have hf := h.facts exOps_readable1
  obtain ⟨p1, h1⟩ := exCalls h (key 0x80 0, [5]) (by simp [exPairs])
  obtain ⟨r0, r, s', a1, a2, a3, a4⟩ := C23_truncated_restore_false termHasher _ _ _ _ h _ exOps_readable1 _ hf.getRootHash (exPairs.take 2)
    (exPairs.drop 2) exPairs_sorted exPairs_mem (by simp [exPairs]) (termHasher_placeholder _) [(exPairs.take 2, p1)] (by simp)
    (by
      intro c hc
      simp only [List.mem_cons, List.not_mem_nil, or_false] at hc
      subst hc
      exact ⟨_, rfl, h1⟩) Store.empty ⟨rfl, rfl⟩ 7 false
  refine ⟨s, _, p1, r0, r, s', _, h, hf.getRootHash, a1, a2, a3, a4, ?_⟩
  rw [hf.hash (lists_hashed exPairs_sorted exPairs_mem)]
  decide +kernel

theorem of_outcomes {A B : Type} {x : Res (A × B)} {o : B} (h : (x.map Prod.snd).toOption = some o) : ∃ r, x = .ok (r, o) := by
  rcases x with _ | ⟨r, o'⟩
  · cases h
  · obtain rfl := Option.some.inj h
    exact ⟨r, rfl⟩

-- C22, C23: the hypotheses hold for a run with a refused call, a refused proof and a genuine one
example : ∃ p q r0 r, Restore.new termHasher Store.empty 7 (smtRoot termHasher (hashed termHasher exPairs)) true = .ok r0 ∧
    r0.addChunks termHasher ([([], p), ([(key 1 2, [7])], q)] ++ [(exPairs.drop 1, p)]) =
      .ok (r, [some "Should not add empty chunks.", some "Root hashes do not match."] ++ [none]) := by
  refine ⟨⟨[]⟩, ⟨[]⟩, Restore.newOverwrite Store.empty 7 (smtRoot termHasher (hashed termHasher exPairs)) true, ?_⟩
  obtain ⟨r, hr⟩ := of_outcomes (x := (Restore.newOverwrite Store.empty 7 (smtRoot termHasher (hashed termHasher exPairs)) true).addChunks
      termHasher ([([], ⟨[]⟩), ([(key 1 2, [7])], ⟨[]⟩)] ++ [(exPairs.drop 1, ⟨[]⟩)]))
    (o := [some "Should not add empty chunks.", some "Root hashes do not match."] ++ [none]) (by decide +kernel)
  exact ⟨r, new_fresh termHasher rfl 7 _ true, hr⟩

end Verif.Props
