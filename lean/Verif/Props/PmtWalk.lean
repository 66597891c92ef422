import Verif.Proofs.PmtWalk
import Verif.Props.PmtDecode
/-! What `verify_proof` and `get` answer, for any bytes: C106, C107. -/

set_option autoImplicit false

namespace Verif.Props
open Verif Verif.Pmt PmtEx
open Relation (ReflTransGen TransGen)

variable {K : Keccak}

theorem goes_eq {db : Db} (h : ∀ x b, db.get x = some b → b.length < 2 ^ 64) : Spec.Goes (Spec.Stored db) = StepD db := by
  funext s t
  apply propext
  constructor
  · intro hs
    cases hs with
    | hash hb hn => exact .hash hb ((C94_accepted (h _ _ hb) _).2 hn)
    | ext => exact .ext
    | branch => exact .branch
  · intro hs
    cases hs with
    | hash hg hn => exact .hash hg ((C94_accepted (h _ _ hg) _).1 hn)
    | ext => exact .ext
    | branch => exact .branch

theorem start_eq (k : Bytes) : (Yellow.nibbles k).map Fin.val ++ [16] = Trie.path k := by
  unfold Trie.path
  rw [fromRaw_leaf, Yellow.nibbles_eq]
  simp [toNibs, leafPath]

theorem comes_iff {db : Db} (h : ∀ x b, db.get x = some b → b.length < 2 ^ 64) {n : Node} {k : Bytes} {s : Spec.Place} :
    Spec.Comes (Spec.Stored db) n k s ↔ ReflTransGen (StepD db) (n, Trie.path k) s := by
  unfold Spec.Comes
  rw [goes_eq h, start_eq]

/-- The error of a hash, by what is stored under it. -/
theorem fetch_cases {db : Db} (h : ∀ x b, db.get x = some b → b.length < 2 ^ 64) {x : H256} {e : Err} (hf : fetch db x = .error e) :
    (∃ b m, Spec.Stored db x b ∧ Spec.Breaks b ∧ e = .panic m) ∨ ∃ m, (∀ b, Spec.Stored db x b → ¬ Spec.Breaks b ∧ ∀ n, ¬ Spec.Accepted b n) ∧ e = .err m := by
  rcases hg : db.get x with _ | b
  · rw [fetch_missing hg] at hf
    cases hf
    refine .inr ⟨_, fun b hb => ?_, rfl⟩
    unfold Spec.Stored at hb
    rw [hb] at hg
    cases hg
  · rcases hd : decodeNode b with e' | n
    · rw [fetch_error hg hd] at hf
      cases hf
      cases e with
      | panic m => exact .inl ⟨b, m, hg, (C94_breaks (h _ _ hg)).1 ⟨m, hd⟩, rfl⟩
      | err m =>
        refine .inr ⟨m, fun c hc => ?_, rfl⟩
        unfold Spec.Stored at hc
        rw [hg] at hc
        cases hc
        refine ⟨fun hb => ?_, fun n hn => ?_⟩
        · obtain ⟨m', hm'⟩ := (C94_breaks (h _ _ hg)).2 hb
          rw [hd] at hm'; cases hm'
        · have := (C94_accepted (h _ _ hg) n).2 hn
          rw [hd] at this; cases this
    · rw [fetch_ok hg hd] at hf; cases hf

/-- **C107**, answers: `get` returns `Ok` with an answer if and only if the walk of the key through the database ends with it. -/
theorem C107_answer {db : Db} (h : ∀ x b, db.get x = some b → b.length < 2 ^ 64) (tr : Trie) (k : Bytes) (v : Option Bytes) :
    tr.get db k = .ok v ↔ ∃ s, Spec.Comes (Spec.Stored db) tr.root k s ∧ Spec.AnswersAt s v := by
  simp only [comes_iff h]
  constructor
  · intro hv
    rcases get_walk (db := db) tr k with ⟨_, hr⟩ | ⟨s, hs, ⟨w, h1, h2⟩ | ⟨_, _, _, _, _, h2⟩⟩
    · rw [hv] at hr; cases hr
    · rw [hv] at h2; cases h2; exact ⟨s, hs, h1⟩
    · rw [hv] at h2; cases h2
  · rintro ⟨s, hs, ha⟩
    exact get_of_outcome hs (.inl ⟨v, ha, rfl⟩)

/-- **C107**, panics: `get` panics if and only if the walk comes to bytes on which decoding panics, or twice to the same place. -/
theorem C107_panic {db : Db} (h : ∀ x b, db.get x = some b → b.length < 2 ^ 64) (tr : Trie) (k : Bytes) :
    (∃ m, tr.get db k = .error (.panic m)) ↔
      (∃ x q b, Spec.Comes (Spec.Stored db) tr.root k (.hash x, q) ∧ Spec.Stored db x b ∧ Spec.Breaks b) ∨
        ∃ s, Spec.Comes (Spec.Stored db) tr.root k s ∧ TransGen (Spec.Goes (Spec.Stored db)) s s := by
  simp only [comes_iff h, goes_eq h]
  constructor
  · rintro ⟨m, hm⟩
    rcases get_walk (db := db) tr k with ⟨⟨t, t1, t2⟩, _⟩ | ⟨s, hs, ⟨w, h1, h2⟩ | ⟨x, q, e, rfl, hf, h2⟩⟩
    · exact .inr ⟨t, t1, t2⟩
    · rw [hm] at h2; cases h2
    · rw [hm] at h2
      cases h2
      rcases fetch_cases h hf with ⟨b, _, h3, h4, _⟩ | ⟨_, _, e⟩
      · exact .inl ⟨x, q, b, hs, h3, h4⟩
      · cases e
  · rintro (⟨x, q, b, hs, hp, hb⟩ | ⟨s, hs, hc⟩)
    · obtain ⟨m, hm⟩ := (C94_breaks (h _ _ hp)).2 hb
      exact ⟨m, get_of_outcome hs (.inr ⟨x, q, _, rfl, fetch_error hp hm, rfl⟩)⟩
    · exact ⟨_, getAt_endless _ _ _ ⟨s, hs, hc⟩⟩

/-- **C107**, errors: `get` returns an error if and only if the walk comes to a hash under which nothing is stored, or bytes that are neither
accepted as a node nor make decoding panic. -/
theorem C107_error {db : Db} (h : ∀ x b, db.get x = some b → b.length < 2 ^ 64) (tr : Trie) (k : Bytes) :
    (∃ m, tr.get db k = .error (.err m)) ↔
      ∃ x q, Spec.Comes (Spec.Stored db) tr.root k (.hash x, q) ∧ ∀ b, Spec.Stored db x b → ¬ Spec.Breaks b ∧ ∀ n, ¬ Spec.Accepted b n := by
  simp only [comes_iff h]
  constructor
  · rintro ⟨m, hm⟩
    rcases get_walk (db := db) tr k with ⟨_, hr⟩ | ⟨s, hs, ⟨w, h1, h2⟩ | ⟨x, q, e, rfl, hf, h2⟩⟩
    · rw [hm] at hr; cases hr
    · rw [hm] at h2; cases h2
    · rw [hm] at h2
      cases h2
      rcases fetch_cases h hf with ⟨b, _, _, _, e⟩ | ⟨_, h3, _⟩
      · cases e
      · exact ⟨x, q, hs, h3⟩
  · rintro ⟨x, q, hs, hb⟩
    rcases hf : fetch db x with e | n
    · have hr := get_of_outcome hs (.inr ⟨x, q, e, rfl, hf, rfl⟩)
      rcases fetch_cases h hf with ⟨b, _, h3, h4, _⟩ | ⟨m, _, rfl⟩
      · exact absurd h4 (hb b h3).1
      · exact ⟨m, hr⟩
    · obtain ⟨b, hg, hd⟩ := fetch_ok_inv hf
      exact absurd ((C94_accepted (h _ _ hg) n).1 hd) ((hb b hg).2 n)

/-- **C107**, lost nodes: if entries are lost from a database, whatever is in it, `get` on every trie and key gives the same result as before, or
the error that a node is missing. -/
theorem C107_lost {db db' : Db} (h : ∀ x b, Spec.Stored db' x b → Spec.Stored db x b) (tr : Trie) (k : Bytes) :
    tr.get db' k = tr.get db k ∨ tr.get db' k = .error (.err "MissingTrieNode") := get_less h tr k

/-- **C107**, only the nodes on the way matter: databases that have the same bytes under the hashes to which the walk comes give the same result. -/
theorem C107_same {db db' : Db} (h : ∀ x b, db.get x = some b → b.length < 2 ^ 64) (tr : Trie) (k : Bytes)
    (hs : ∀ x q, Spec.Comes (Spec.Stored db) tr.root k (.hash x, q) → ∀ b, Spec.Stored db' x b ↔ Spec.Stored db x b) : tr.get db' k = tr.get db k :=
  get_same tr k (fun x q hx => Option.ext (hs x q ((comes_iff h).2 hx)))

theorem stored_part {root : H256} {proof : List Bytes} : Spec.Stored (proofDb K root proof) = Spec.PartOf K root proof := by
  funext x b
  exact propext (proofDb_part x b)

theorem proofDb_short {proof : List Bytes} (h : ∀ b ∈ proof, b.length < 2 ^ 64) (root : H256) (x : H256) (b : Bytes)
    (hb : (proofDb K root proof).get x = some b) : b.length < 2 ^ 64 := h b (proofDb_get hb).2

/-- **C106**, answers: `verify_proof` returns `Ok` with an answer if and only if the walk of the key through the proof ends with it. -/
theorem C106_answer {proof : List Bytes} (h : ∀ b ∈ proof, b.length < 2 ^ 64) (root : H256) (k : Bytes) (v : Option Bytes) :
    verifyProof K root k proof = .ok v ↔ ∃ s, Spec.Comes (Spec.PartOf K root proof) (.hash root) k s ∧ Spec.AnswersAt s v := by
  rw [← stored_part]
  refine Iff.trans ?_ (C107_answer (proofDb_short h root) (Trie.atRoot root) k v)
  unfold verifyProof
  rcases (Trie.atRoot root).get (proofDb K root proof) k with (e | e) | w
  · simp
  · simp
  · exact Iff.rfl

/-- **C106**, panics: `verify_proof` panics if and only if the walk comes to a part that breaks, or twice to the same place. -/
theorem C106_panic {proof : List Bytes} (h : ∀ b ∈ proof, b.length < 2 ^ 64) (root : H256) (k : Bytes) :
    (∃ m, verifyProof K root k proof = .error (.panic m)) ↔
      (∃ x q b, Spec.Comes (Spec.PartOf K root proof) (.hash root) k (.hash x, q) ∧ Spec.PartOf K root proof x b ∧ Spec.Breaks b) ∨
        ∃ s, Spec.Comes (Spec.PartOf K root proof) (.hash root) k s ∧ TransGen (Spec.Goes (Spec.PartOf K root proof)) s s := by
  rw [← stored_part]
  refine Iff.trans ?_ (C107_panic (proofDb_short h root) (Trie.atRoot root) k)
  unfold verifyProof
  rcases (Trie.atRoot root).get (proofDb K root proof) k with (e | e) | w
  · simp
  · simp
  · simp

/-- **C106**, errors: `verify_proof` returns an error, which is `InvalidProof`, if and only if the walk comes to a hash that no part has, or the
part that has it is neither accepted nor breaks. -/
theorem C106_invalid {proof : List Bytes} (h : ∀ b ∈ proof, b.length < 2 ^ 64) (root : H256) (k : Bytes) (m : String) :
    verifyProof K root k proof = .error (.err m) ↔ m = "InvalidProof" ∧
      ∃ x q, Spec.Comes (Spec.PartOf K root proof) (.hash root) k (.hash x, q) ∧
        ∀ b, Spec.PartOf K root proof x b → ¬ Spec.Breaks b ∧ ∀ n, ¬ Spec.Accepted b n := by
  rw [← stored_part]
  refine Iff.trans ?_ (and_congr_right (fun _ => C107_error (proofDb_short h root) (Trie.atRoot root) k))
  unfold verifyProof
  rcases (Trie.atRoot root).get (proofDb K root proof) k with (e | e) | w
  · simp [eq_comm]
  · simp
  · simp

theorem goes_more {p1 p2 : List Bytes} (hsub : p1 ⊆ p2) (hc : NoClash K p2) {root : H256} {s t : Spec.Place} (h : Spec.Goes (Spec.PartOf K root p1) s t) :
    Spec.Goes (Spec.PartOf K root p2) s t := by
  cases h with
  | ext => exact .ext
  | branch => exact .branch
  | @hash x b n p hb hn =>
    obtain ⟨l, r, rfl, rfl, h2, _⟩ := hb
    have hm : b ∈ p2 := hsub (by simp)
    have hs := proofDb_isSome (K := K) hm (h2.imp Eq.symm id)
    obtain ⟨c, hg⟩ := Option.isSome_iff_exists.1 hs
    obtain ⟨e, hm'⟩ := proofDb_get hg
    cases hc b hm c hm' e
    exact .hash ((proofDb_part _ _).1 hg) hn

/-- **C106**, more parts: an answer stays when other parts are added and when the parts are reordered or repeated, or two parts have the same
hash. The root hash need not be that of a trie. -/
theorem C106_more_parts {p1 p2 : List Bytes} (h : ∀ b ∈ p2, b.length < 2 ^ 64) (hsub : p1 ⊆ p2) {root : H256} {k : Bytes} {v : Option Bytes}
    (hv : verifyProof K root k p1 = .ok v) : Spec.Collision K p2 ∨ verifyProof K root k p2 = .ok v := by
  rcases collision_or K p2 with hc | hc
  · exact .inl hc
  · obtain ⟨s, hs, ha⟩ := (C106_answer (fun b hb => h b (hsub hb)) root k v).1 hv
    exact .inr ((C106_answer h root k v).2 ⟨s, ReflTransGen.mono (fun _ _ => goes_more hsub hc) _ _ hs, ha⟩)

/-- **C106**, one answer: two proofs for the same root hash and key give the same answer, or two of their parts have the same hash. -/
theorem C106_one_answer {p1 p2 : List Bytes} (h1 : ∀ b ∈ p1, b.length < 2 ^ 64) (h2 : ∀ b ∈ p2, b.length < 2 ^ 64) {root : H256} {k : Bytes}
    {v w : Option Bytes} (hv : verifyProof K root k p1 = .ok v) (hw : verifyProof K root k p2 = .ok w) : Spec.Collision K (p1 ++ p2) ∨ v = w := by
  have h : ∀ b ∈ p1 ++ p2, b.length < 2 ^ 64 := fun b hb => (List.mem_append.1 hb).elim (h1 b) (h2 b)
  rcases C106_more_parts h (List.subset_append_left _ _) hv with hc | e1
  · exact .inl hc
  · rcases C106_more_parts h (List.subset_append_right _ _) hw with hc | e2
    · exact .inl hc
    · rw [e1] at e2
      cases e2
      exact .inr rfl

/-- A branch of one child, which is a leaf inside it. -/
def walkPart : Bytes := [0xd3, 0x80, 0x80, 0x80, 0x80, 0x80, 0x80, 0xc2, 0x31, 0x05, 0x80, 0x80, 0x80, 0x80, 0x80, 0x80, 0x80, 0x80, 0x80, 0x80]

theorem walkPart_of (K : Keccak) : Spec.PartOf K (K walkPart) [walkPart] (K walkPart) walkPart :=
  ⟨[], [], rfl, rfl, .inl rfl, fun _ hc => (nomatch hc)⟩

set_option maxRecDepth 8000 in
/-- The walk goes from the hash to the branch and to the leaf, and ends with the value. -/
theorem walkPart_answer (K : Keccak) : verifyProof K (K walkPart) [0x61] [walkPart] = .ok (some [5]) := by
  have hd : ∃ n, decodeNode walkPart = .ok n := ⟨_, rfl⟩
  obtain ⟨n, hn⟩ := hd
  have ha : Spec.Accepted walkPart n := (C94_accepted (by decide) _).1 hn
  refine (C106_answer (by decide) _ _ _).2 ⟨_, .head (.hash (walkPart_of K) ha) ?_, .leaf [1, 16] [5]⟩
  cases hn
  exact .single (.branch (i := 6) (p := [1, 16]))

/-- Another part in front. -/
example (K : Keccak) (h : K [0x80] ≠ K walkPart) : verifyProof K (K walkPart) [0x61] [[0x80], walkPart] = .ok (some [5]) := by
  rcases C106_more_parts (p2 := [[0x80], walkPart]) (by decide) (by simp) (walkPart_answer K) with hc | hv
  · obtain ⟨a, ha, b, hb, hne, e⟩ := hc
    simp only [List.mem_cons, List.not_mem_nil, or_false] at ha hb
    rcases ha with rfl | rfl <;> rcases hb with rfl | rfl
    · exact absurd rfl hne
    · exact absurd e h
    · exact absurd e.symm h
    · exact absurd rfl hne
  · exact hv

/-- The same part twice is a different proof, with the same answer. -/
example (K : Keccak) (v : Option Bytes) (hv : verifyProof K (K walkPart) [0x61] [walkPart, walkPart] = .ok v) : v = some [5] := by
  rcases C106_one_answer (by decide) (by decide) hv (walkPart_answer K) with hc | e
  · obtain ⟨a, ha, b, hb, hne, _⟩ := hc
    simp only [List.mem_append, List.mem_cons, List.not_mem_nil, or_false, or_self] at ha hb
    exact absurd (ha.trans hb.symm) hne
  · exact e

/-- A trie of a database with one node, which is lost. -/
example (K : Keccak) (k : Bytes) (db' : Db) (h : ∀ x b, Spec.Stored db' x b → Spec.Stored (proofDb K (K walkPart) [walkPart]) x b)
    (hl : ¬ Spec.Stored db' (K walkPart) walkPart) : ∃ m, (Trie.atRoot (K walkPart)).get db' k = .error (.err m) := by
  have hdb : ∀ x b, db'.get x = some b → b.length < 2 ^ 64 := fun x b hb => proofDb_short (proof := [walkPart]) (by decide) _ x b (h x b hb)
  refine (C107_error hdb _ k).2 ⟨K walkPart, _, .refl, fun b hb => ?_⟩
  obtain ⟨e, hm⟩ := proofDb_get (h _ b hb)
  cases List.mem_singleton.1 hm
  exact absurd hb hl

/-- The same database with an entry more. -/
example (K : Keccak) (h : K [0x80] ≠ K walkPart) :
    (Trie.atRoot (K walkPart)).get ((proofDb K (K walkPart) [walkPart]).insert (K [0x80]) [0x80]) [0x61] = .ok (some [5]) := by
  have hold : (Trie.atRoot (K walkPart)).get (proofDb K (K walkPart) [walkPart]) [0x61] = .ok (some [5]) := by
    have := walkPart_answer K
    unfold verifyProof at this
    split at this
    · cases this
    · cases this
    · next e => rw [e]; exact this
  have hsub : ∀ x b, Spec.Stored (proofDb K (K walkPart) [walkPart]) x b →
      Spec.Stored ((proofDb K (K walkPart) [walkPart]).insert (K [0x80]) [0x80]) x b := by
    intro x b hb
    obtain ⟨e, hm⟩ := proofDb_get hb
    cases List.mem_singleton.1 hm
    unfold Spec.Stored
    rw [insert_get, if_neg (by rw [e]; exact Ne.symm h)]
    exact hb
  rcases C107_lost hsub (Trie.atRoot (K walkPart)) [0x61] with e | e
  · rw [← e, hold]
  · rw [hold] at e; cases e

/-- A part that breaks, and a part that is missing. -/
example (K : Keccak) (k : Bytes) : ∃ m, verifyProof K (K [0xc2, 0x07, 0x80]) k [[0xc2, 0x07, 0x80]] = .error (.panic m) :=
  (C106_panic (by decide) _ _).2 (.inl ⟨_, _, _, .refl, ⟨[], [], rfl, rfl, .inl rfl, fun _ hc => (nomatch hc)⟩, breaksEx⟩)

example (K : Keccak) (root : H256) (k : Bytes) (h : K [0x80] ≠ root) : verifyProof K root k [[0x80]] = .error (.err "InvalidProof") := by
  refine (C106_invalid (by decide) _ _ _).2 ⟨rfl, root, _, .refl, ?_⟩
  rintro b ⟨l, r, e, h1, h2, _⟩
  rcases l with _ | ⟨a, l⟩
  · injection e with e1 e2
    subst e1
    exact absurd h1 h
  · injection e with e1 e2
    cases l <;> cases e2

end Verif.Props
