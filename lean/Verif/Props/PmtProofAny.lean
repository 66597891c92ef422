import Verif.Proofs.PmtProofAny
import Verif.Spec.PmtHonest
import Verif.Props.PmtTakes
/-! What `get_proof` makes of any database: C110. -/

set_option autoImplicit false

namespace Verif.Props
open Verif Verif.Pmt PmtEx
open Relation (ReflTransGen TransGen)

variable {K : Keccak}

theorem proof_fate {db : Db} (tr : Trie) (k : Bytes) (e : Err) :
    pathAt db (hops db (Trie.path k)) tr.root (Trie.path k) = .error e ↔ tr.get db k = .error e := pathAt_fate _ _ _ e

/-- **C110**, errors: `get_proof` returns an error exactly if `get` of the key does, and the same, on any database. -/
theorem C110_error (K : Keccak) (db : Db) (tr : Trie) (k : Bytes) (m : String) :
    (∃ tr', tr.getProof K db k = .ok (tr', .error m)) ↔ tr.get db k = .error (.err m) := by
  rw [← proof_fate]
  unfold Trie.getProof
  constructor
  · rintro ⟨tr', h⟩
    split at h
    · cases h
    · rename_i hp
      cases h
      exact hp
    · rename_i l hp
      dsimp only at h
      split at h
      all_goals
        generalize Trie.encodeAll K _ = r at h
        cases r <;> cases h
  · intro h
    rw [h]
    exact ⟨_, rfl⟩

/-- **C110**, panics: `get_proof` panics if `get` of the key does. -/
theorem C110_panic (K : Keccak) {db : Db} {tr : Trie} {k : Bytes} {m : String} (h : tr.get db k = .error (.panic m)) :
    tr.getProof K db k = .error (.panic m) := by
  unfold Trie.getProof
  rw [(proof_fate tr k _).2 h]

/-- What is read from an honest database is written as it was. -/
theorem honest_fetch {root : H256} {db : Db} (hh : Spec.Honest K root db) {x : H256} {n : Node} (hf : fetch db x = .ok n) :
    ∃ b, Spec.Stored db x b ∧ decodeNode b = .ok n ∧ encodeRaw K n = .ok (b, []) := by
  obtain ⟨b, hb, hn⟩ := fetch_ok_inv hf
  obtain ⟨_, ⟨i, hi, rfl⟩, _⟩ := hh x b hb
  obtain ⟨n', h1, h2⟩ := C94_read_back_partial (K := K) hi
  rw [hn] at h1
  cases h1
  exact ⟨_, hb, hn, h2⟩

/-- **C110**, proofs: on a database with any nodes of any tries, when the trie has the node that is stored under the root hash, `get_proof` returns a
proof exactly if the key can be read; it consists of entries of the database, and verifies with what is read. -/
theorem C110_proofs {root : H256} {db : Db} (hh : Spec.Honest K root db) {tr : Trie} (hr : fetch db root = .ok tr.root) (hne : tr.root ≠ .empty)
    (k : Bytes) (v : Option Bytes) (hv : tr.get db k = .ok v) :
    ∃ tr' bs, tr.getProof K db k = .ok (tr', .ok bs) ∧ (∀ b ∈ bs, ∃ x, Spec.Stored db x b) ∧ verifyProof K root k bs = .ok v ∧
      ∀ db' k', tr'.get db' k' = tr.get db' k' := by
  rcases hp : pathAt db (hops db (Trie.path k)) tr.root (Trie.path k) with e | l
  · rw [(proof_fate tr k e).1 hp] at hv; cases hv
  have hfrom : ∀ m ∈ (l ++ [tr.root]).reverse, ∃ x, fetch db x = .ok m := by
    intro m hm
    rcases List.mem_append.1 (List.mem_reverse.1 hm) with hm | hm
    · exact pathAt_from _ _ _ _ hp m hm
    · cases List.mem_singleton.1 hm
      exact ⟨root, hr⟩
  obtain ⟨bs, ws, he, hmem⟩ := encodeAll_of (K := K) (l := (l ++ [tr.root]).reverse) (fun n hn => by
    obtain ⟨x, hx⟩ := hfrom n hn
    obtain ⟨b, _, _, h⟩ := honest_fetch hh hx
    exact ⟨b, [], h⟩)
  have hst : ∀ b ∈ bs, ∃ x, Spec.Stored db x b := by
    intro b hb
    obtain ⟨n, hn, w, hw⟩ := (hmem b).1 hb
    obtain ⟨x, hx⟩ := hfrom n hn
    obtain ⟨b', h1, _, h3⟩ := honest_fetch hh hx
    rw [h3] at hw
    cases hw
    exact ⟨x, h1⟩
  have hin : ∀ n ∈ l ++ [tr.root], ∀ x, fetch db x = .ok n → ∃ b ∈ bs, Spec.Stored db x b := by
    intro n hn x hx
    obtain ⟨b, h1, _, h3⟩ := honest_fetch hh hx
    exact ⟨b, (hmem b).2 ⟨n, List.mem_reverse.2 hn, [], h3⟩, h1⟩
  have hsame : ∀ x, (∃ b ∈ bs, Spec.Stored db x b) → (proofDb K root bs).get x = db.get x := by
    rintro x ⟨b, hb, hs⟩
    obtain ⟨e1, _, hc⟩ := hh x b hs
    have h1 := proofDb_isSome (K := K) hb (hc.imp Eq.symm id)
    rw [e1] at h1
    obtain ⟨c, hg⟩ := Option.isSome_iff_exists.1 h1
    obtain ⟨e2, hm⟩ := proofDb_get hg
    obtain ⟨y, hy⟩ := hst c hm
    have := (hh y c hy).1
    rw [hg]
    unfold Spec.Stored at hy
    rw [← hy, ← this, e2]
  obtain ⟨b0, hb0, hn0⟩ := fetch_ok_inv hr
  have hstep : StepD db (.hash root, Trie.path k) (tr.root, Trie.path k) := .hash hb0 hn0
  have hget : (Trie.atRoot root).get db k = .ok v :=
    (gives_get (Trie.atRoot root) k _).1 ((gives_step hstep _).2 ((gives_get tr k _).2 hv))
  have hpd : (Trie.atRoot root).get (proofDb K root bs) k = .ok v := by
    rw [← hget]
    refine get_same _ k (fun x q hx => hsame x ?_)
    rcases ReflTransGen.cases_head hx with e | ⟨u, hu, hx⟩
    · cases e
      exact hin tr.root (by simp) root hr
    · rw [StepD.unique hu hstep] at hx
      obtain ⟨m, hm, hf⟩ := pathAt_has _ _ _ _ hp x q hx
      exact hin m (List.mem_append_left _ hm) x hf
  refine ⟨tr.addWritten ws, bs, ?_, hst, ?_, fun _ _ => rfl⟩
  · unfold Trie.getProof
    rw [hp]
    dsimp only
    split
    · rename_i h
      exact absurd h hne
    · rw [he]
      rfl
  · unfold verifyProof
    rw [hpd]

/-- **C110**, a proof is returned only if the key can be read, on any database. -/
theorem C110_readable (K : Keccak) {db : Db} {tr tr' : Trie} {k : Bytes} {bs : List Bytes} (h : tr.getProof K db k = .ok (tr', .ok bs)) :
    ∃ v, tr.get db k = .ok v := by
  rcases hg : tr.get db k with (m | m) | v
  · obtain ⟨_, e⟩ := (C110_error K db tr k m).2 hg
    rw [e] at h
    cases h
  · rw [C110_panic K hg] at h; cases h
  · exact ⟨v, rfl⟩

/-- **C110**, the tries in question: a commit leaves the node that is stored under the root hash. -/
theorem C110_committed {db db' : Db} {tr tr' : Trie} {root : H256} (hc : tr.commit K db = .ok (tr', db', .ok root)) : fetch db' root = .ok tr'.root := by
  unfold Trie.commit at hc
  rcases hw : tr.writeRoot K with e | ⟨t, x⟩
  · rw [hw] at hc; cases hc
  · rw [hw] at hc
    simp only [Res.ok_bind] at hc
    split at hc
    · cases hc
    · cases hc
    · cases hc
    · rename_i n hn
      cases hc
      unfold fetch
      rw [hn]

/-- A leaf, and a child that may be missing. -/
def halfNode (x : H256) : Node := .branch (fun j => if j = 6 then .leaf [1, 16] [5] else if j = 7 then .hash x else .empty) none

theorem halfNode_ok (x : H256) : Spec.NodeOk (halfNode x) := by
  refine ⟨fun i => ?_, fun v h => (nomatch h)⟩
  dsimp only
  split
  · exact ⟨⟨[1], rfl, by decide⟩, by decide⟩
  · split <;> trivial

/-- A database with this node only. The keys below the leaf have proofs, those below the missing child the error of `get`. -/
example (K : Keccak) (x : H256) : ∃ b, ∀ db, db = (Db.new false).insert (K b) b → x ≠ K b → ∀ tr : Trie, fetch db (K b) = .ok tr.root →
    (∃ tr' bs, tr.getProof K db [0x61] = .ok (tr', .ok bs) ∧ verifyProof K (K b) [0x61] bs = .ok (some [5])) ∧
      ∃ tr', tr.getProof K db [0x71] = .ok (tr', .error "MissingTrieNode") := by
  obtain ⟨b, w, hb, hd⟩ := C47_node_roundtrip (K := K) (halfNode_ok x) trivial
  have hcol : Spec.collapse K (halfNode x) = halfNode x := by
    unfold halfNode
    simp only [Spec.collapse]
    congr 1
    funext j
    by_cases h6 : j = 6
    · simp only [h6, if_true]
      rfl
    · by_cases h7 : j = 7
      · simp only [h7, show ¬ ((7 : Fin 16) = 6) by decide, if_false, if_true]
        rfl
      · simp only [h6, h7, if_false]
        rfl
  rw [hcol] at hd
  refine ⟨b, fun db hdb hx tr hr => ?_⟩
  have hg : ∀ y, db.get y = if y = K b then some b else none := by
    intro y
    rw [hdb, insert_get]
    rfl
  have hroot : tr.root = halfNode x := by
    have := fetch_ok (by rw [hg, if_pos rfl] : db.get (K b) = some b) hd
    rw [this] at hr
    exact (Except.ok.inj hr).symm
  have hh : Spec.Honest K (K b) db := by
    intro y c hc
    unfold Spec.Stored at hc
    rw [hg] at hc
    split at hc
    · rename_i e
      cases hc
      exact ⟨e.symm, (C94_format (K := K) b).1 ⟨_, w, halfNode_ok x, hb⟩, .inl rfl⟩
    · cases hc
  have h61 : tr.get db [0x61] = .ok (some [5]) := by
    refine (gives_get tr _ _).1 ?_
    rw [hroot]
    show Gives db (.branch _ _, (6 : Fin 16).val :: [1, 16]) _
    rw [gives_branch]
    exact (gives_leaf _ _ _ _).2 rfl
  have h71 : tr.get db [0x71] = .error (.err "MissingTrieNode") := by
    refine (gives_get tr _ _).1 ?_
    rw [hroot]
    show Gives db (.branch _ _, (7 : Fin 16).val :: [1, 16]) _
    rw [gives_branch]
    exact (gives_end (.inr ⟨x, _, _, rfl, fetch_missing (by rw [hg, if_neg hx]), rfl⟩) _).2 rfl
  obtain ⟨tr', bs, h1, _, h2, _⟩ := C110_proofs hh hr (by rw [hroot]; intro h; cases h) [0x61] _ h61
  exact ⟨⟨tr', bs, h1, h2⟩, (C110_error K db tr [0x71] _).2 h71⟩

end Verif.Props
