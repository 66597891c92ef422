import Verif.Props.PmtCommitAny
import Verif.Proofs.PmtCommitHonest
/-! What `get_proof` proves after any calls and commits on any archive database: C110. -/

set_option autoImplicit false

namespace Verif.Props
open Verif Verif.Pmt PmtEx

variable {K : Keccak}

/-- **C110**, what a commit leaves behind: if every entry of an archive database is the encoding of a node, under its hash, and not shorter than a hash,
except for the new root, so it is after the commit. -/
theorem C110_honest {tr tr' : Trie} {db db' : Db} {root : H256} (ha : db.light = false) (hh : Spec.Honest K root db) (hn : Spec.NodeOk tr.root)
    (hcache : ∀ e ∈ tr.cache, e.1 = K e.2 ∧ (∃ i, Yellow.Format false i ∧ e.2 = Yellow.rlp i) ∧ 32 ≤ e.2.length)
    (hc : tr.commit K db = .ok (tr', db', .ok root)) : Spec.Honest K root db' := by
  intro x b hs
  rcases commit_stored ha hn hc hs with h | h | ⟨h1, h2, h3⟩
  · exact hh x b h
  · obtain ⟨h1, h2, h3⟩ := hcache _ h
    exact ⟨h1.symm, h2, .inr h3⟩
  · exact ⟨h1.symm, (C94_format b).1 h2, h3⟩

set_option maxRecDepth 20000 in
/-- A leaf is committed to an empty database. -/
example : ∃ tr' db' root, Trie.commit exK { Trie.new exK with root := .leaf [6, 1, 16] [5] } (Db.new false) = .ok (tr', db', .ok root) ∧
    (∃ b, Spec.Stored db' root b ∧ b.length < 32) ∧ Spec.Honest exK root db' := by
  have hc : ∃ tr' db' root b, Trie.commit exK { Trie.new exK with root := .leaf [6, 1, 16] [5] } (Db.new false) = .ok (tr', db', .ok root) ∧
      db' = (Db.new false).insert root b ∧ b.length < 32 := ⟨_, _, _, _, rfl, rfl, by decide⟩
  obtain ⟨tr', db', root, b, c1, c2, c3⟩ := hc
  refine ⟨tr', db', root, c1, ⟨b, by simp [c2, Spec.Stored, Db.get, Db.insert], c3⟩, ?_⟩
  have hn : Spec.NodeOk (.leaf [6, 1, 16] [5]) := ⟨⟨[6, 1], rfl, by decide⟩, by decide⟩
  exact C110_honest (tr := { Trie.new exK with root := .leaf [6, 1, 16] [5] }) rfl (fun x b h => by cases h) hn (fun e he => by cases he) c1

/-- What is stored after any calls, proofs and commits are encodings of nodes, if it was so before them. -/
theorem went_format {tr tr' : Trie} {db db' : Db} {cs : List (Change × Bool)} (ha : db.light = false)
    (hd : ∀ x b, Spec.Stored db x b → K b = x ∧ b ∈ db.log ∧ b.length < 2 ^ 64) (ht : Spec.Shaped tr.root)
    (hf : ∀ x b, Spec.Stored db x b → ∃ i, Yellow.Format false i ∧ b = Yellow.rlp i)
    (hcache : ∀ e ∈ tr.cache, e.1 = K e.2 ∧ (∃ i, Yellow.Format false i ∧ e.2 = Yellow.rlp i) ∧ 32 ≤ e.2.length) (h : Went K tr db cs tr' db') :
    (∀ x b, Spec.Stored db' x b → ∃ i, Yellow.Format false i ∧ b = Yellow.rlp i) ∧
      ∀ e ∈ tr'.cache, e.1 = K e.2 ∧ (∃ i, Yellow.Format false i ∧ e.2 = Yellow.rlp i) ∧ 32 ≤ e.2.length := by
  induction h with
  | start => exact ⟨hf, hcache⟩
  | calls _ hi ih => exact ⟨ih.1, by rw [callAll_cache hi]; exact ih.2⟩
  | commit h hs hc _ ih =>
    obtain ⟨i1, _, _, i4, _, _⟩ := went_inv ha (fun x b h => ⟨(hd x b h).1, (hd x b h).2.1⟩) (fun x b h => (hd x b h).2.2) ht
      (fun e he => (hcache e he).1) h
    obtain ⟨_, _, _, _, _, _, hcc⟩ := commit_inv i1 hc
    refine ⟨fun x b hst => ?_, by rw [hcc]; exact fun e he => (nomatch he)⟩
    rcases commit_stored i1 (nodeOk_of i4 hs) hc hst with h | h | ⟨_, h2, _⟩
    · exact ih.1 x b h
    · exact (ih.2 _ h).2.1
    · exact (C94_format b).1 h2
  | proof h hs hp ih =>
    obtain ⟨_, i2, _, i4, _, _⟩ := went_inv ha (fun x b h => ⟨(hd x b h).1, (hd x b h).2.1⟩) (fun x b h => (hd x b h).2.2) ht
      (fun e he => (hcache e he).1) h
    refine ⟨ih.1, fun e he => ?_⟩
    rcases getProof_written hp e he with h | ⟨n, b, w, hn, h1, h2⟩
    · exact ih.2 e h
    · rcases hn with rfl | ⟨y, hy⟩
      · obtain ⟨e', w', h3, h4⟩ := encodeRaw_write h1
        obtain ⟨h5, h6⟩ := (writeNode_encodings (K := K) _ (nodeOk_of i4 hs) _ _ h3).1 e (h4 e h2)
        exact ⟨writeNode_hashed _ _ _ h3 e (h4 e h2), (C94_format _).1 h5, h6⟩
      · obtain ⟨c, hc, hd⟩ := fetch_ok_inv hy
        obtain ⟨i, hi, rfl⟩ := ih.1 y c hc
        obtain ⟨n', h3, h4⟩ := C94_read_back_partial (K := K) hi
        rw [hd] at h3
        cases h3
        rw [h4] at h1
        cases h1
        cases h2

/-- **C110**, after any calls (of `get_proof` as well) and commits on an archive database with any nodes of any tries: a proof is returned for every key about which the calls
that returned `Ok` say something, or that could be read at the beginning, and it verifies, against the root of the last commit, with the value (or
`None`) that they say. (What was stored before the last commit is not shorter than a hash, except for the root: roots of earlier commits may be.) -/
theorem C110_program {tr tr1 tr' : Trie} {db db1 db' : Db} {cs : List (Change × Bool)} {root : H256} (ha : db.light = false)
    (hd : ∀ x b, Spec.Stored db x b → K b = x ∧ b ∈ db.log ∧ b.length < 2 ^ 64) (ht : Spec.Shaped tr.root)
    (hf : ∀ x b, Spec.Stored db x b → ∃ i, Yellow.Format false i ∧ b = Yellow.rlp i)
    (hcache : ∀ e ∈ tr.cache, e.1 = K e.2 ∧ (∃ i, Yellow.Format false i ∧ e.2 = Yellow.rlp i) ∧ 32 ≤ e.2.length) (h : Went K tr db cs tr1 db1)
    (hs : Spec.Small tr1.root) (hc : tr1.commit K db1 = .ok (tr', db', .ok root)) (hr : ∀ x b, Spec.Stored db1 x b → Spec.Considered K root b)
    (hl : ∀ x b, Spec.Stored db' x b → b.length < 2 ^ 64) (hne : tr'.root ≠ .empty) :
    Spec.Collision K db'.log ∨ ∀ k v, readAfter (tr.get db) cs k = .ok v →
      ∃ tr'' bs, tr'.getProof K db' k = .ok (tr'', .ok bs) ∧ verifyProof K root k bs = .ok v := by
  have hcache' : ∀ e ∈ tr.cache, e.1 = K e.2 := fun e he => (hcache e he).1
  obtain ⟨i1, i2, _, i4, _, _⟩ := went_inv ha (fun x b h => ⟨(hd x b h).1, (hd x b h).2.1⟩) (fun x b h => (hd x b h).2.2) ht hcache' h
  obtain ⟨f1, f2⟩ := went_format ha hd ht hf hcache h
  have hh : Spec.Honest K root db' := C110_honest i1 (fun x b h => ⟨(i2 x b h).1, f1 x b h, hr x b h⟩) (nodeOk_of i4 hs) f2 hc
  refine (C111_program ha hd ht hcache' (h.commit hs hc hl)).imp id fun h k v hk => ?_
  have hg : tr'.get db' k = .ok v := by
    rcases h k with h | h
    · exact h.trans hk
    · rw [h] at hk; cases hk
  obtain ⟨tr'', bs, h1, _, h2, _⟩ := C110_proofs hh (C110_committed hc) hne k v hg
  exact ⟨tr'', bs, h1, h2⟩

set_option maxRecDepth 20000 in
/-- A key is written and committed, and has a proof; so has another, that it has no value. -/
example : ∃ tr1 tr' db' root, Went exK (Trie.new exK) (Db.new false) [(.insert [0x61] [5], true)] tr1 (Db.new false) ∧
    tr1.commit exK (Db.new false) = .ok (tr', db', .ok root) ∧
    (Spec.Collision exK db'.log ∨
      (∃ tr'' bs, tr'.getProof exK db' [0x61] = .ok (tr'', .ok bs) ∧ verifyProof exK root [0x61] bs = .ok (some [5])) ∧
      ∃ tr'' bs, tr'.getProof exK db' [0x62] = .ok (tr'', .ok bs) ∧ verifyProof exK root [0x62] bs = .ok none) := by
  have hc : ∃ tr1 tr2 db2 root b, callAll (Db.new false) (Trie.new exK) [.insert [0x61] [5]] = .ok (tr1, [true]) ∧ Spec.Small tr1.root ∧
      tr1.commit exK (Db.new false) = .ok (tr2, db2, .ok root) ∧ db2 = (Db.new false).insert root b ∧ b.length < 2 ^ 64 ∧
      tr2.root = .leaf [6, 1, 16] [5] := by
    refine ⟨_, _, _, _, _, rfl, ⟨by decide, by decide, by decide⟩, rfl, rfl, by decide, rfl⟩
  obtain ⟨tr1, tr2, db2, root, b, c1, c2, c3, c4, c5, c6⟩ := hc
  have hst : ∀ x c, Spec.Stored db2 x c → x = root ∧ c = b := by
    intro x c h
    rw [c4] at h
    by_cases hx : x = root
    · simp only [Spec.Stored, Db.get, Db.insert, Db.new, hx, FMap.get_set, if_true, Option.some.injEq] at h
      exact ⟨hx, h.symm⟩
    · exact absurd h (by simp [Spec.Stored, Db.get, Db.insert, Db.new, hx])
  have w1 : Went exK (Trie.new exK) (Db.new false) _ tr1 (Db.new false) := .calls .start c1
  refine ⟨tr1, tr2, db2, root, w1, c3, ?_⟩
  refine (C110_program rfl (fun x b h => by cases h) (C109_wellformed exK).1 (fun x b h => by cases h) (fun e he => by cases he) w1 c2 c3
    (fun x b h => by cases h) ?_ ?_).imp id fun h => ⟨h _ _ rfl, h _ _ rfl⟩
  · intro x c h
    rw [(hst x c h).2]
    exact c5
  · rw [c6]
    exact fun h => by cases h

set_option maxRecDepth 20000 in
/-- A proof before the commit, which puts the long leaf of one of two keys into the cache, and then a commit: the key is read. -/
example : ∃ tr1 tr2 db', tr1.cache ≠ [] ∧ Went exK (Trie.new exK) (Db.new false) [(.insert [0x61] [5], true), (.insert [0x72] (List.replicate 40 7), true)]
      tr1 (Db.new false) ∧ (∃ root, tr1.commit exK (Db.new false) = .ok (tr2, db', .ok root)) ∧
    (Spec.Collision exK db'.log ∨ tr2.get db' [0x61] = .ok (some [5])) := by
  have hi : ∃ tr0 tr1 r, callAll (Db.new false) (Trie.new exK) [.insert [0x61] [5], .insert [0x72] (List.replicate 40 7)] = .ok (tr0, [true, true]) ∧
      Spec.Small tr0.root ∧ tr0.getProof exK (Db.new false) [0x61] = .ok (tr1, r) ∧ tr1.cache ≠ [] ∧ tr1.root = tr0.root ∧
      (((tr1.commit exK (Db.new false)).toOption.map fun r => r.2.2.toOption.isSome && r.2.1.log.all (·.length < 2 ^ 64)).getD false) = true := by
    refine ⟨_, _, _, rfl, ⟨fun i => ?_, fun v h => (nomatch h)⟩, rfl, by decide +kernel, rfl, by decide +kernel⟩
    dsimp only
    split
    · exact ⟨by decide, by decide, by decide⟩
    · split
      · exact ⟨by decide, by decide, by decide⟩
      · trivial
  obtain ⟨tr0, tr1, r, h1, h2, h3, h4, h5, h6⟩ := hi
  have w1 : Went exK (Trie.new exK) (Db.new false) _ tr1 (Db.new false) := .proof (.calls .start h1) h2 h3
  rcases hc : tr1.commit exK (Db.new false) with e | ⟨tr2, db2, x⟩
  · rw [hc] at h6; cases h6
  · rw [hc] at h6
    rcases x with m | root
    · cases h6
    · simp only [Except.toOption, Option.map_some, Option.getD_some, Bool.and_eq_true, List.all_eq_true, decide_eq_true_eq] at h6
      obtain ⟨e, w, hw, _, hdb, _, _⟩ := commit_inv rfl hc
      have i5 := (went_inv rfl (fun x b h => by cases h) (fun x b h => by cases h) (C109_wellformed exK).1 (fun e he => by cases he) w1).2.2.2.2.1
      have hh : ∀ x b, Spec.Stored db2 x b → exK b = x ∧ b ∈ db2.log := by
        rw [hdb]
        exact Hashed.batch (fun x b h => by cases h) (batchOf_hashed (K := exK) (e := e) i5 (writeNode_hashed _ _ _ hw))
      have w2 := Went.commit w1 (h5 ▸ h2) hc fun x b h => h6.2 b (hh x b h).2
      refine ⟨tr1, tr2, db2, h4, w1, ⟨root, hc⟩, ?_⟩
      rcases C111_program rfl (fun x b h => by cases h) (C109_wellformed exK).1 (fun e he => by cases he) w2 with h | h
      · exact .inl h
      · rcases h [0x61] with h | h
        · exact .inr h
        · cases h

end Verif.Props
