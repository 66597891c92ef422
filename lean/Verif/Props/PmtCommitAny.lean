import Verif.Proofs.PmtCommitAny
import Verif.Proofs.PmtCommitHonest
import Verif.Props.PmtPuts
import Verif.Props.PmtTakes
import Verif.Props.PmtProofAny
/-! What `commit` does to what is read, on any archive database: C111. -/

set_option autoImplicit false

namespace Verif.Props
open Verif Verif.Pmt PmtEx

variable {K : Keccak}

/-- **C111**, reading: after a commit every key reads as before, be it a value, no value, an error or a panic; only a key whose node was missing may
read otherwise, for the commit may have written that node. The same is read from the trie opened at the returned root. What was stored stays. -/
theorem C111_reads {db db' : Db} {tr tr' : Trie} {root : H256} (ha : db.light = false)
    (hd : ∀ x b, Spec.Stored db x b → K b = x ∧ b ∈ db.log) (hn : Spec.NodeOk tr.root) (hcache : ∀ e ∈ tr.cache, e.1 = K e.2)
    (hc : tr.commit K db = .ok (tr', db', .ok root)) :
    Spec.Collision K db'.log ∨
      (∀ k, tr'.get db' k = tr.get db k ∨ tr.get db k = .error (.err "MissingTrieNode")) ∧
      (∀ k, tr'.get db' k = tr.get db' k) ∧
      (∀ k, (Trie.atRoot root).get db' k = tr'.get db' k) ∧
      ∀ x b, Spec.Stored db x b → Spec.Stored db' x b := by
  rcases collision_or K db'.log with h | h
  · exact .inl h
  · obtain ⟨h1, _, h3⟩ := commit_reads ha hd hn hcache hc h
    have hsame : ∀ k, tr'.get db' k = tr.get db' k := by
      intro k
      obtain ⟨p, hp⟩ := path_leafPath k
      refine (gives_get tr' k _).1 ?_
      have := (gives_get (db := db') tr k _).2 rfl
      rw [hp] at this ⊢
      exact (h1 p _).1 this
    refine .inr ⟨fun k => ?_, hsame, fun k => ?_, h3⟩
    · rw [hsame k]
      rcases get_less (db := db') (db' := db) h3 tr k with h | h
      · exact .inl h.symm
      · exact .inr h
    · obtain ⟨b, hb, hb'⟩ := fetch_ok_inv (C110_committed hc)
      refine (gives_get _ k _).1 ?_
      have := (gives_get (db := db') tr' k _).2 rfl
      exact (gives_step (.hash hb hb') _).2 this

/-- **C111**, also on a pruning database no key is read wrongly after a commit: a key reads as before, unless its node was missing before or is
missing afterwards. -/
theorem C111_pruning {db db' : Db} {tr tr' : Trie} {root : H256} (hd : ∀ x b, Spec.Stored db x b → K b = x ∧ b ∈ db.log)
    (hn : Spec.NodeOk tr.root) (hcache : ∀ e ∈ tr.cache, e.1 = K e.2) (hc : tr.commit K db = .ok (tr', db', .ok root)) :
    Spec.Collision K db'.log ∨
      ∀ k, tr'.get db' k = tr.get db k ∨ tr.get db k = .error (.err "MissingTrieNode") ∨ tr'.get db' k = .error (.err "MissingTrieNode") := by
  obtain ⟨dm, h1, h2, h3⟩ := commit_unpruned hc
  rcases C111_reads (db := unpruned db) rfl hd hn hcache h1 with h | ⟨h, _⟩
  · exact .inl (h2 ▸ h)
  · refine .inr fun k => ?_
    have hsame : tr.get (unpruned db) k = tr.get db k := get_same tr k fun _ _ _ => rfl
    have h := h k
    rw [hsame] at h
    rcases get_less h3 tr' k with h' | h'
    · rw [h']
      rcases h with h | h
      · exact .inl h
      · exact .inr (.inl h)
    · exact .inr (.inr h')

/-- **C111**, the hypotheses hold again: the next commit can be treated in the same way. -/
theorem C111_again {db db' : Db} {tr tr' : Trie} {root : H256} (ha : db.light = false)
    (hd : ∀ x b, Spec.Stored db x b → K b = x ∧ b ∈ db.log) (hcache : ∀ e ∈ tr.cache, e.1 = K e.2)
    (hc : tr.commit K db = .ok (tr', db', .ok root)) (hs : ∀ x b, Spec.Stored db' x b → b.length < 2 ^ 59) :
    db'.light = false ∧ (∀ x b, Spec.Stored db' x b → K b = x ∧ b ∈ db'.log) ∧ Spec.NodeOk tr'.root ∧ tr'.cache = [] := by
  obtain ⟨e, w, hw, _, hdb, hf, hcc⟩ := commit_inv ha hc
  have hb := batchOf_hashed (K := K) (e := e) hcache (writeNode_hashed _ _ _ hw)
  obtain ⟨b, h1, h2⟩ := fetch_ok_inv hf
  refine ⟨by rw [hdb, insertBatch_light, ha], ?_, C94_wellformed (hs _ b h1) h2, hcc⟩
  rw [hdb]
  exact Hashed.batch hd hb

/-- **C111**, a commit of a root that is not a hash succeeds, whatever is stored. The root returned is the hash of the encoding of the root. -/
theorem C111_succeeds (K : Keccak) {db : Db} {tr : Trie} (ha : db.light = false) (hn : Spec.NodeOk tr.root) (hh : Spec.NotHash tr.root) :
    ∃ b w tr' db', encodeRaw K tr.root = .ok (b, w) ∧ tr.commit K db = .ok (tr', db', .ok (K b)) ∧ tr'.root = Spec.collapse K tr.root :=
  commit_succeeds ha hn hh

/-- **C111**, a root that has not been read from the database is the root that is returned. -/
theorem C111_root {db db' : Db} {tr tr' : Trie} {x root : H256} (ha : db.light = false) (hr : tr.root = .hash x)
    (hc : tr.commit K db = .ok (tr', db', .ok root)) : root = x := by
  obtain ⟨e, w, hw, h, _⟩ := commit_inv ha hc
  rw [hr] at hw
  cases hw
  exact h

theorem triePath_length (k : Bytes) : (Trie.path k).length = 2 * k.length + 1 := by
  unfold Trie.path
  induction k with
  | nil => rfl
  | cons b t ih =>
    simp only [List.length_cons]
    simp only [Nibbles.fromRaw] at ih ⊢
    simp only [List.flatMap_cons, List.length_append] at ih ⊢
    simp at ih ⊢
    omega

/-- **C111**, `insert` and then `commit`: the commit succeeds, and from the trie opened at the returned root the key has the value, and every other
key reads as before the insertion, unless its node was missing. The database holds nodes of any tries, and perhaps not all of them. -/
theorem C111_insert {db : Db} {tr tr1 : Trie} {k v : Bytes} (ha : db.light = false)
    (hd : ∀ x b, Spec.Stored db x b → K b = x ∧ b ∈ db.log ∧ b.length < 2 ^ 64 ∧ ∀ n, decodeNode b = .ok n → Spec.Small n)
    (ht : Spec.Shaped tr.root) (hs : Spec.Small tr.root) (hcache : ∀ e ∈ tr.cache, e.1 = K e.2) (hk : k.length < 2 ^ 59) (hv : v.length < 2 ^ 60)
    (hi : tr.insert db k v = .ok (tr1, none)) :
    ∃ tr' db' root, tr1.commit K db = .ok (tr', db', .ok root) ∧
      (Spec.Collision K db'.log ∨
        (Trie.atRoot root).get db' k = .ok (some v) ∧
        ∀ k', k' ≠ k → (Trie.atRoot root).get db' k' = tr.get db k' ∨ tr.get db k' = .error (.err "MissingTrieNode")) := by
  have hl : ∀ x b, db.get x = some b → b.length < 2 ^ 64 := fun x b h => (hd x b h).2.2.1
  obtain ⟨p1, p2, p3⟩ := C108_inserted hl ht hi
  have hx : Spec.Small tr1.root ∧ Spec.NotHash tr1.root ∧ tr1.cache = tr.cache := by
    unfold Trie.insert at hi
    split at hi
    · cases hi
    · rename_i hve
      dsimp only at hi
      split at hi
      · cases hi
      · cases hi
      · rename_i m hm
        cases hi
        refine ⟨insertAt_small ⟨fun h => hve (by rw [h]; rfl), hv⟩ (fun x n hf => ?_) _ _ hs _ _ (by rw [triePath_length]; omega) hm,
          insertAt_notHash _ _ _ _ hm, rfl⟩
        obtain ⟨b, hb, hn⟩ := fetch_ok_inv hf
        exact (hd x b hb).2.2.2 n hn
  obtain ⟨x1, x2, x3⟩ := hx
  have hn := nodeOk_of p1 x1
  obtain ⟨b, w, tr', db', _, hc, _⟩ := C111_succeeds K ha hn x2
  refine ⟨tr', db', K b, hc, ?_⟩
  rcases C111_reads ha (fun x b h => ⟨(hd x b h).1, (hd x b h).2.1⟩) hn (by rw [x3]; exact hcache) hc with h | ⟨h1, _, h3, _⟩
  · exact .inl h
  · refine .inr ⟨?_, fun k' hk' => ?_⟩
    · rw [h3]
      rcases h1 k with h | h
      · rw [h, p2]
      · rw [p2] at h; cases h
    · rw [h3, ← p3 k' hk']
      exact h1 k'

theorem call_cache {db : Db} {tr tr' : Trie} {c : Change} {b : Bool} (hi : c.call db tr = .ok (tr', b)) : tr'.cache = tr.cache := by
  cases c with
  | insert k v =>
    simp only [Change.call] at hi
    obtain ⟨⟨t1, o⟩, h1, h2⟩ := resBind_ok hi
    cases h2
    unfold Trie.insert at h1
    split at h1
    · cases h1; rfl
    · dsimp only at h1
      split at h1 <;> cases h1 <;> rfl
  | remove k =>
    simp only [Change.call] at hi
    obtain ⟨⟨t1, o⟩, h1, h2⟩ := resBind_ok hi
    have : tr' = t1 := by cases o <;> cases h2 <;> rfl
    subst this
    unfold Trie.remove at h1
    dsimp only at h1
    split at h1 <;> cases h1 <;> rfl

theorem callAll_cache {db : Db} {tr tr' : Trie} {l : List Change} {bs : List Bool} (hi : callAll db tr l = .ok (tr', bs)) : tr'.cache = tr.cache := by
  induction l generalizing tr bs with
  | nil => cases hi; rfl
  | cons c l ih =>
    simp only [callAll] at hi
    obtain ⟨⟨t1, b⟩, h1, h2⟩ := resBind_ok hi
    obtain ⟨⟨t2, bs'⟩, h3, h4⟩ := resBind_ok h2
    cases h4
    exact (ih h3).trans (call_cache h1)

/-- **C111**, any calls of `insert` and `remove`, of which some may fail, and then `commit`: from the trie opened at the returned root every key is
read as the calls that returned `Ok` say, and like before if they say nothing about it, unless its node was missing. -/
theorem C111_calls {db db' : Db} {tr tr1 tr' : Trie} {l : List Change} {bs : List Bool} {root : H256} (ha : db.light = false)
    (hd : ∀ x b, Spec.Stored db x b → K b = x ∧ b ∈ db.log ∧ b.length < 2 ^ 64) (ht : Spec.Shaped tr.root) (hcache : ∀ e ∈ tr.cache, e.1 = K e.2)
    (hi : callAll db tr l = .ok (tr1, bs)) (hn : Spec.Small tr1.root) (hc : tr1.commit K db = .ok (tr', db', .ok root)) :
    Spec.Collision K db'.log ∨ ∀ k, (Trie.atRoot root).get db' k = readAfter (tr.get db) (l.zip bs) k ∨
      readAfter (tr.get db) (l.zip bs) k = .error (.err "MissingTrieNode") := by
  obtain ⟨_, h2, h3⟩ := C109_calls (fun x b h => (hd x b h).2.2) ht hi
  rcases C111_reads ha (fun x b h => ⟨(hd x b h).1, (hd x b h).2.1⟩) (nodeOk_of h2 hn) (by rw [callAll_cache hi]; exact hcache) hc with h | ⟨h1, _, h5, _⟩
  · exact .inl h
  · refine .inr fun k => ?_
    rw [h5, ← h3]
    exact h1 k

/-- Calls of `insert` and `remove`, with what they returned, and calls of `get_proof` and commits in between. These are made only if the paths and
values in memory can be encoded, and what is stored is of a size that fits into memory. -/
inductive Went (K : Keccak) (tr : Trie) (db : Db) : List (Change × Bool) → Trie → Db → Prop where
  | start : Went K tr db [] tr db
  | calls {cs : List (Change × Bool)} {tr1 tr2 : Trie} {db1 : Db} (h : Went K tr db cs tr1 db1) {l : List Change} {bs : List Bool}
      (hi : callAll db1 tr1 l = .ok (tr2, bs)) : Went K tr db (cs ++ l.zip bs) tr2 db1
  | commit {cs : List (Change × Bool)} {tr1 tr2 : Trie} {db1 db2 : Db} (h : Went K tr db cs tr1 db1) (hs : Spec.Small tr1.root) {root : H256}
      (hc : tr1.commit K db1 = .ok (tr2, db2, .ok root)) (hl : ∀ x b, Spec.Stored db2 x b → b.length < 2 ^ 64) : Went K tr db cs tr2 db2
  | proof {cs : List (Change × Bool)} {tr1 tr2 : Trie} {db1 : Db} (h : Went K tr db cs tr1 db1) (hs : Spec.Small tr1.root) {k : Bytes}
      {r : Except String (List Bytes)} (hp : tr1.getProof K db1 k = .ok (tr2, r)) : Went K tr db cs tr2 db1

theorem readAfter_append (r : Bytes → Res (Option Bytes)) (a b : List (Change × Bool)) : readAfter r (a ++ b) = readAfter (readAfter r a) b := by
  induction a generalizing r with
  | nil => rfl
  | cons x t ih =>
    obtain ⟨c, d⟩ := x
    cases d with
    | false => cases c <;> exact ih _
    | true => cases c <;> exact ih _

theorem readAfter_known {r r' : Bytes → Res (Option Bytes)} {e : Res (Option Bytes)} {k : Bytes} (h : r' k = r k ∨ r k = e) (l : List (Change × Bool)) :
    readAfter r' l k = readAfter r l k ∨ readAfter r l k = e := by
  induction l generalizing r r' with
  | nil => exact h
  | cons x t ih =>
    obtain ⟨c, d⟩ := x
    cases d with
    | false => cases c <;> exact ih h
    | true =>
      cases c with
      | insert k0 v =>
        refine ih ?_
        by_cases hk : k = k0
        · simp [hk]
        · simpa [hk] using h
      | remove k0 =>
        refine ih ?_
        by_cases hk : k = k0
        · simp [hk]
        · simpa [hk] using h

theorem collision_mono {l l' : List Bytes} (h : ∀ b ∈ l, b ∈ l') : Spec.Collision K l → Spec.Collision K l' :=
  fun ⟨a, ha, b, hb, hab⟩ => ⟨a, h a ha, b, h b hb, hab⟩

theorem went_inv {tr tr' : Trie} {db db' : Db} {cs : List (Change × Bool)} (ha : db.light = false)
    (hd : ∀ x b, Spec.Stored db x b → K b = x ∧ b ∈ db.log) (hl : ∀ x b, Spec.Stored db x b → b.length < 2 ^ 64) (ht : Spec.Shaped tr.root)
    (hcache : ∀ e ∈ tr.cache, e.1 = K e.2) (h : Went K tr db cs tr' db') :
    db'.light = false ∧ (∀ x b, Spec.Stored db' x b → K b = x ∧ b ∈ db'.log) ∧ (∀ x b, Spec.Stored db' x b → b.length < 2 ^ 64) ∧
      Spec.Shaped tr'.root ∧ (∀ e ∈ tr'.cache, e.1 = K e.2) ∧
      (Spec.Collision K db'.log ∨ ∀ k, tr'.get db' k = readAfter (tr.get db) cs k ∨ readAfter (tr.get db) cs k = .error (.err "MissingTrieNode")) := by
  induction h with
  | start => exact ⟨ha, hd, hl, ht, hcache, .inr fun k => .inl rfl⟩
  | calls _ hi ih =>
    obtain ⟨i1, i2, i3, i4, i5, i6⟩ := ih
    obtain ⟨_, h2, h3⟩ := C109_calls i3 i4 hi
    refine ⟨i1, i2, i3, h2, by rw [callAll_cache hi]; exact i5, i6.imp id fun i6 k => ?_⟩
    rw [h3, readAfter_append]
    exact readAfter_known (i6 k) _
  | commit _ hs hc hl2 ih =>
    obtain ⟨i1, i2, i3, i4, i5, i6⟩ := ih
    obtain ⟨e, w, hw, _, hdb, hf, hcc⟩ := commit_inv i1 hc
    have hb := batchOf_hashed (K := K) (e := e) i5 (writeNode_hashed _ _ _ hw)
    refine ⟨by rw [hdb, insertBatch_light, i1], by rw [hdb]; exact Hashed.batch i2 hb, hl2, fetch_shaped hl2 _ _ hf, (by rw [hcc]; intro e he; cases he), ?_⟩
    rcases i6 with i6 | i6
    · refine .inl (collision_mono (fun b hb => ?_) i6)
      rw [hdb]
      exact (insertBatch_log _ b).2 (.inl hb)
    · rcases C111_reads i1 i2 (nodeOk_of i4 hs) i5 hc with h | ⟨h, _⟩
      · exact .inl h
      · refine .inr fun k => ?_
        rcases h k with h | h
        · rw [h]; exact i6 k
        · rcases i6 k with g | g
          · exact .inr (g ▸ h)
          · exact .inr g
  | proof _ _ hp ih =>
    obtain ⟨i1, i2, i3, i4, i5, i6⟩ := ih
    have hr := Trie.getProof_root hp
    refine ⟨i1, i2, i3, hr ▸ i4, getProof_hashed hp i5, i6.imp id fun i6 k => ?_⟩
    have := i6 k
    unfold Trie.get at this ⊢
    rw [hr]
    exact this

/-- **C111**, any calls with any number of commits and proofs in between, on any archive database: at the end every key is read as the calls that returned `Ok`
say, and like at the beginning if they say nothing about it, unless its node was missing then. -/
theorem C111_program {tr tr' : Trie} {db db' : Db} {cs : List (Change × Bool)} (ha : db.light = false)
    (hd : ∀ x b, Spec.Stored db x b → K b = x ∧ b ∈ db.log ∧ b.length < 2 ^ 64) (ht : Spec.Shaped tr.root)
    (hcache : ∀ e ∈ tr.cache, e.1 = K e.2) (h : Went K tr db cs tr' db') :
    Spec.Collision K db'.log ∨ ∀ k, tr'.get db' k = readAfter (tr.get db) cs k ∨ readAfter (tr.get db) cs k = .error (.err "MissingTrieNode") :=
  (went_inv ha (fun x b h => ⟨(hd x b h).1, (hd x b h).2.1⟩) (fun x b h => (hd x b h).2.2) ht hcache h).2.2.2.2.2

/-- **C111**, an empty value (which no `insert` makes, but which a leaf in a database may have) that an insertion has moved into a branch is lost by
the commit: a branch with an empty value and one without a value have the same encoding. -/
theorem C111_empty {db db' : Db} {tr tr' : Trie} {root : H256} (ha : db.light = false) (hd : ∀ x b, Spec.Stored db x b → K b = x ∧ b ∈ db.log)
    {cs : Fin 16 → Node} (hr : tr.root = .branch cs (some [])) (hn : ∀ i, Spec.NodeOk (cs i)) (hcache : ∀ e ∈ tr.cache, e.1 = K e.2)
    (hc : tr.commit K db = .ok (tr', db', .ok root)) :
    tr.get db [] = .ok (some []) ∧ (Spec.Collision K db'.log ∨ tr'.get db' [] = .ok none) := by
  obtain ⟨r0, x0, c0, g0, p0⟩ := tr
  cases (hr : r0 = _)
  refine ⟨rfl, ?_⟩
  have hc' : Trie.commit K ⟨.branch cs none, x0, c0, g0, p0⟩ db = .ok (tr', db', .ok root) := by
    unfold Trie.commit Trie.writeRoot at hc ⊢
    have e : writeNode K (.branch cs none) = writeNode K (.branch cs (some [])) := rfl
    dsimp only at hc ⊢
    rw [e]
    rcases hw : writeNode K (.branch cs (some [])) with y | ⟨e, w⟩
    · rw [hw] at hc; cases hc
    · rw [hw] at hc
      cases e with
      | hash y =>
        simp only [Res.ok_bind, Res.pure_eq, Trie.addWritten] at hc ⊢
        split at hc
        · cases hc
        · cases hc
        · cases hc
        · exact hc
      | inline d =>
        simp only [Res.ok_bind, Res.pure_eq, Trie.addWritten] at hc ⊢
        split at hc
        · cases hc
        · cases hc
        · cases hc
        · exact hc
  have hok : Spec.NodeOk (.branch cs none) := ⟨hn, fun v h => by cases h⟩
  rcases C111_reads ha hd (tr := ⟨.branch cs none, x0, c0, g0, p0⟩) hok hcache hc' with h | ⟨h1, _⟩
  · exact .inl h
  · rcases h1 [] with h | h
    · exact .inr h
    · cases h

theorem halfNode_small (x : H256) : Spec.Small (halfNode x) := by
  refine ⟨fun i => ?_, fun v h => (nomatch h)⟩
  dsimp only
  split
  · exact ⟨by decide, by decide, by decide⟩
  · split <;> trivial

/-- A database with one node, a child of which is missing. A key is written beside the leaf and committed; the leaf is read as before, the lost keys
stay lost or can be read again. -/
example (K : Keccak) (x : H256) (hx : x = ⟨List.replicate 32 7, rfl⟩) : ∃ b, ∀ db, db = (Db.new false).insert (K b) b → ∃ tr1 tr' db' root,
    (Trie.atRoot (K b)).insert db [0x62, 0x01] [7] = .ok (tr1, none) ∧ tr1.commit K db = .ok (tr', db', .ok root) ∧
      (Spec.Collision K db'.log ∨
        (Trie.atRoot root).get db' [0x62, 0x01] = .ok (some [7]) ∧ (Trie.atRoot root).get db' [0x61] = .ok (some [5])) := by
  obtain ⟨b, w, hb, hd⟩ := C47_node_roundtrip (K := K) (halfNode_ok x) trivial
  have hcol : Spec.collapse K (halfNode x) = halfNode x := by
    unfold halfNode
    simp only [Spec.collapse]
    congr 1
    funext j
    by_cases h6 : j = 6
    · simp only [h6, if_true]
      rfl
    · by_cases h7 : j = 7
      · simp only [h7, show ¬ ((7 : Fin 16) = 6) by decide, if_false, if_true]
        rfl
      · simp only [h6, h7, if_false]
        rfl
  rw [hcol] at hd
  refine ⟨b, fun db hdb => ?_⟩
  have hg : ∀ y, db.get y = if y = K b then some b else none := by
    intro y
    rw [hdb, insert_get]
    rfl
  have hlen : b.length < 2 ^ 64 := by
    have hmem : (encodeRaw K (halfNode x)).map (fun r => r.1.length) = .ok 52 := by
      rw [hx]
      rfl
    rw [hb] at hmem
    have := Except.ok.inj hmem
    dsimp only at this
    omega
  have h61 : ∀ q r, Gives db (.leaf [1, 16] [5], q) r → Gives db (.hash (K b), 6 :: q) r := by
    intro q r h
    refine (gives_step (.hash (by rw [hg, if_pos rfl]) hd) _).2 ?_
    show Gives db (.branch _ _, (6 : Fin 16).val :: q) _
    rw [gives_branch]
    exact h
  have hd' : ∀ y c, Spec.Stored db y c → K c = y ∧ c ∈ db.log ∧ c.length < 2 ^ 64 ∧ ∀ n, decodeNode c = .ok n → Spec.Small n := by
    intro y c hc
    unfold Spec.Stored at hc
    rw [hg] at hc
    split at hc
    · rename_i e
      cases hc
      refine ⟨e.symm, by rw [hdb]; exact List.mem_cons_self, hlen, fun n hn => ?_⟩
      rw [hd] at hn
      cases hn
      exact halfNode_small x
    · cases hc
  have g1 : (Trie.atRoot (K b)).get db [0x62, 0x01] = .ok none := (gives_get _ _ _).1 (h61 [2, 0, 1, 16] _ ((gives_leaf _ _ _ _).2 rfl))
  have g2 : (Trie.atRoot (K b)).get db [0x61] = .ok (some [5]) := (gives_get _ _ _).1 (h61 [1, 16] _ ((gives_leaf _ _ _ _).2 rfl))
  obtain ⟨tr1, hi⟩ := (C108_succeeds (db := db) (fun y c h => (hd' y c h).2.2.1) (.hash _) [0x62, 0x01] (v := [7]) (by decide)).2 ⟨none, g1⟩
  obtain ⟨tr', db', root, hc, h⟩ := C111_insert (K := K) (tr := Trie.atRoot (K b)) (by rw [hdb]; rfl) hd' (.hash _) trivial (fun e he => by cases he) (by decide) (by decide) hi
  refine ⟨tr1, tr', db', root, hi, hc, h.imp id fun ⟨h1, h2⟩ => ⟨h1, ?_⟩⟩
  rcases h2 [0x61] (by decide) with h | h
  · rw [h, g2]
  · rw [g2] at h; cases h

/-- An insertion that moves the empty value of a leaf into a branch. -/
example (x : H256) : ∃ tr1, (⟨.leaf [16] [], x, [], [], []⟩ : Trie).insert (Db.new false) [0x61] [9] = .ok (tr1, none) ∧
    ∃ cs, tr1.root = .branch cs (some []) ∧ ∀ i, Spec.NodeOk (cs i) := by
  refine ⟨_, rfl, _, rfl, fun i => ?_⟩
  dsimp only
  split
  · exact ⟨⟨[1], rfl, by decide⟩, by decide⟩
  · trivial

/-- A value is replaced, a call fails, and the trie is committed. -/
example (K : Keccak) (x : H256) : ∃ tr1 tr' db' root,
    callAll (Db.new false) (lostSide x) [.insert [0x61] [9], .insert [0x70] [7]] = .ok (tr1, [true, false]) ∧
      tr1.commit K (Db.new false) = .ok (tr', db', .ok root) ∧
      (Spec.Collision K db'.log ∨ (Trie.atRoot root).get db' [0x61] = .ok (some [9])) := by
  have hi : ∃ tr1 : Trie, callAll (Db.new false) (lostSide x) [.insert [0x61] [9], .insert [0x70] [7]] = .ok (tr1, [true, false]) ∧
      Spec.Small tr1.root ∧ Spec.NotHash tr1.root := by
    refine ⟨_, rfl, ⟨fun i => ?_, fun v h => (nomatch h)⟩, trivial⟩
    dsimp only
    split
    · exact ⟨by decide, by decide, by decide⟩
    · split
      · exact ⟨by decide, by decide, by decide⟩
      · trivial
  obtain ⟨tr1, h1, h2, h3⟩ := hi
  obtain ⟨_, hs, _⟩ := C109_calls emptyDb_short (lostSide_shaped x) h1
  obtain ⟨b, w, tr', db', _, hc, _⟩ := C111_succeeds K (db := Db.new false) rfl (nodeOk_of hs h2) h3
  refine ⟨tr1, tr', db', K b, h1, hc, ?_⟩
  rcases C111_calls rfl (fun y c h => by cases h) (lostSide_shaped x) (fun e he => by cases he) h1 h2 hc with h | h
  · exact .inl h
  · rcases h [0x61] with h | h
    · exact .inr h
    · cases h

/-- A trie with a leaf of which a node has been passed. -/
def passedLeaf (x : H256) : Trie := ⟨.leaf [6, 1, 16] [5], x, [], [x], []⟩

/-- A commit to a pruning database. -/
example (x : H256) (hx : x = ⟨List.replicate 32 7, rfl⟩) : ∃ tr' db' root, (passedLeaf x).commit exK (Db.new true) = .ok (tr', db', .ok root) ∧
    (Spec.Collision exK db'.log ∨ tr'.get db' [0x61] = .ok (some [5]) ∨ tr'.get db' [0x61] = .error (.err "MissingTrieNode")) := by
  have hd : ((((passedLeaf x).commit exK (Db.new true)).toOption.map (fun r => r.2.2.toOption.isSome)).getD false) = true := by
    rw [hx]
    decide +kernel
  rcases hc : (passedLeaf x).commit exK (Db.new true) with e | ⟨tr', db', r⟩
  · rw [hc] at hd; cases hd
  · rw [hc] at hd
    rcases r with m | root
    · cases hd
    · refine ⟨tr', db', root, rfl, ?_⟩
      rcases C111_pruning (tr := passedLeaf x) (fun y b h => by cases h) ⟨⟨[6, 1], rfl, by decide⟩, by decide⟩ (fun e he => by cases he) hc with h | h
      · exact .inl h
      · rcases h [0x61] with h | h | h
        · exact .inr (.inl h)
        · cases h
        · exact .inr (.inr h)

/-- The hash of a node that is nowhere stored. -/
def nowhere : H256 := ⟨List.replicate 32 7, rfl⟩

/-- A value is replaced, a call fails, the trie is committed, and the value is replaced again. -/
example : ∃ tr' db', Went exK (lostSide nowhere) (Db.new false)
      ([(.insert [0x61] [9], true), (.insert [0x70] [7], false)] ++ [(.insert [0x61] [8], true)]) tr' db' ∧
    (Spec.Collision exK db'.log ∨ tr'.get db' [0x61] = .ok (some [8])) := by
  have hi : ∃ tr1 : Trie, callAll (Db.new false) (lostSide nowhere) [.insert [0x61] [9], .insert [0x70] [7]] = .ok (tr1, [true, false]) ∧
      Spec.Small tr1.root ∧ (((tr1.commit exK (Db.new false)).toOption.map fun r => r.2.2.toOption.isSome && r.2.1.log.all (·.length < 2 ^ 64) &&
        ((callAll r.2.1 r.1 [.insert [0x61] [8]]).toOption.map fun q => q.2 == [true]).getD false).getD false) = true := by
    refine ⟨_, rfl, ⟨fun i => ?_, fun v h => (nomatch h)⟩, by decide +kernel⟩
    dsimp only
    split
    · exact ⟨by decide, by decide, by decide⟩
    · split
      · exact ⟨by decide, by decide, by decide⟩
      · trivial
  obtain ⟨tr1, h1, h2, h3⟩ := hi
  rcases hc : tr1.commit exK (Db.new false) with e | ⟨tr2, db2, r⟩
  · rw [hc] at h3; cases h3
  · rw [hc] at h3
    rcases r with m | root
    · cases h3
    · have w1 : Went exK (lostSide nowhere) (Db.new false) _ tr1 (Db.new false) := .calls .start h1
      simp only [Except.toOption, Option.map_some, Option.getD_some, Bool.and_eq_true, List.all_eq_true, decide_eq_true_eq] at h3
      obtain ⟨⟨_, h4⟩, h5⟩ := h3
      obtain ⟨e, w, hw, _, hdb, _, _⟩ := commit_inv rfl hc
      have hh : ∀ x b, Spec.Stored db2 x b → exK b = x ∧ b ∈ db2.log := by
        rw [hdb]
        refine Hashed.batch (fun x b h => by cases h) (batchOf_hashed (K := exK) (e := e) ?_ (writeNode_hashed _ _ _ hw))
        rw [callAll_cache h1]
        exact fun e he => by cases he
      have w2 := Went.commit w1 h2 hc fun x b h => h4 b (hh x b h).2
      rcases hq : callAll db2 tr2 [.insert [0x61] [8]] with e | ⟨tr3, bs⟩
      · rw [hq] at h5; cases h5
      · rw [hq] at h5
        have hbs : bs = [true] := by simpa [Except.toOption] using h5
        subst hbs
        have w3 := Went.calls w2 hq
        refine ⟨tr3, db2, w3, ?_⟩
        rcases C111_program rfl (fun x b h => by cases h) (lostSide_shaped nowhere) (fun e he => by cases he) w3 with h | h
        · exact .inl h
        · rcases h [0x61] with h | h
          · exact .inr h
          · cases h

end Verif.Props
