import Verif.Proofs.PmtPuts
import Verif.Props.PmtWalk
/-! What `insert` does on any database: C108. -/

set_option autoImplicit false

namespace Verif.Props
open Verif Verif.Pmt PmtEx

/-- What is read from the database is well-formed. -/
theorem accepted_shaped {b : Bytes} {n : Node} (h : Spec.Accepted b n) : Spec.Shaped n := by
  induction h with
  | empty => exact .empty
  | cut => exact .empty
  | hash => exact .hash _
  | leaf => exact .leaf _ _
  | ext _ _ _ hne _ ih => exact .ext hne ih
  | branch _ _ _ ih => exact .branch _ ih

theorem fetch_shaped {db : Db} (h : ∀ x b, db.get x = some b → b.length < 2 ^ 64) (x : H256) (n : Node) (hf : fetch db x = .ok n) : Spec.Shaped n := by
  obtain ⟨b, hb, hn⟩ := fetch_ok_inv hf
  exact accepted_shaped ((C94_accepted (h x b hb) n).1 hn)

theorem path_leafPath (k : Bytes) : ∃ p : List Nib, Trie.path k = leafPath p := ⟨Yellow.nibbles k, (start_eq k).symm⟩

theorem keyPath_inj {a b : Bytes} (h : Trie.path a = Trie.path b) : a = b := by
  rw [← start_eq, ← start_eq] at h
  have h' := leafPath_inj.1 h
  rw [Yellow.nibbles_eq, Yellow.nibbles_eq] at h'
  exact nibsOf_inj h'

/-- **C108**, success: the key has the value, every other key reads as before, be it a value, no value, an error or a panic; and the trie is
again one of which this holds. -/
theorem C108_inserted {db : Db} (h : ∀ x b, db.get x = some b → b.length < 2 ^ 64) {tr tr' : Trie} (ht : Spec.Shaped tr.root) {k v : Bytes}
    (hi : tr.insert db k v = .ok (tr', none)) :
    Spec.Shaped tr'.root ∧ tr'.get db k = .ok (some v) ∧ ∀ k', k' ≠ k → tr'.get db k' = tr.get db k' := by
  unfold Trie.insert at hi
  split at hi
  · cases hi
  · obtain ⟨p, hp⟩ := path_leafPath k
    dsimp only at hi
    split at hi
    · cases hi
    · cases hi
    · rename_i m hm
      cases hi
      have hput := insertAt_puts (fetch_shaped h) v _ ht p m (hp ▸ hm)
      refine ⟨hput.1, (gives_get _ k _).1 ?_, fun k' hk => ?_⟩
      · rw [hp]
        exact hput.2.1
      · obtain ⟨q, hq⟩ := path_leafPath k'
        refine (gives_get _ k' _).1 ?_
        rw [hq]
        refine (hput.2.2 q ?_ _).2 ?_
        · rintro rfl
          exact hk (keyPath_inj (hq.trans hp.symm))
        · rw [← hq]
          exact (gives_get tr k' _).2 rfl

theorem insert_fate {db : Db} (h : ∀ x b, db.get x = some b → b.length < 2 ^ 64) {tr : Trie} (ht : Spec.Shaped tr.root) (k v : Bytes) (e : Err) :
    (insertAt db v (hops db (Trie.path k)) tr.root (Trie.path k)).2 = .error e ↔ tr.get db k = .error e := by
  obtain ⟨p, hp⟩ := path_leafPath k
  unfold Trie.get
  rw [hp]
  exact insertAt_fate (fetch_shaped h) v _ ht p e

/-- **C108**, failure: `insert` returns an error exactly if `get` of the key does, and the same error; the root is then the same as before. -/
theorem C108_error {db : Db} (h : ∀ x b, db.get x = some b → b.length < 2 ^ 64) {tr : Trie} (ht : Spec.Shaped tr.root) (k : Bytes) {v : Bytes} (hv : v ≠ [])
    (m : String) : (∃ tr', tr.insert db k v = .ok (tr', some m) ∧ tr'.root = tr.root) ↔ tr.get db k = .error (.err m) := by
  rw [← insert_fate h ht k v]
  unfold Trie.insert
  rw [if_neg (by simpa using hv)]
  dsimp only
  constructor
  · rintro ⟨tr', h1, _⟩
    split at h1
    · cases h1
    · rename_i hm
      cases h1
      exact hm
    · cases h1
  · intro hm
    rw [hm]
    exact ⟨_, rfl, rfl⟩

/-- **C108**, panics: `insert` panics exactly if `get` of the key does. -/
theorem C108_panic {db : Db} (h : ∀ x b, db.get x = some b → b.length < 2 ^ 64) {tr : Trie} (ht : Spec.Shaped tr.root) (k : Bytes) {v : Bytes} (hv : v ≠ [])
    (m : String) : tr.insert db k v = .error (.panic m) ↔ tr.get db k = .error (.panic m) := by
  rw [← insert_fate h ht k v]
  unfold Trie.insert
  rw [if_neg (by simpa using hv)]
  dsimp only
  constructor
  · intro h1
    split at h1
    · rename_i hm
      cases h1
      exact hm
    · cases h1
    · cases h1
  · intro hm
    rw [hm]

/-- **C108**: `insert` succeeds exactly if the key can be read. -/
theorem C108_succeeds {db : Db} (h : ∀ x b, db.get x = some b → b.length < 2 ^ 64) {tr : Trie} (ht : Spec.Shaped tr.root) (k : Bytes) {v : Bytes}
    (hv : v ≠ []) : (∃ tr', tr.insert db k v = .ok (tr', none)) ↔ ∃ w, tr.get db k = .ok w := by
  constructor
  · rintro ⟨tr', hi⟩
    rcases hg : tr.get db k with e | w
    · cases e with
      | panic m => rw [(C108_panic h ht k hv m).2 hg] at hi; cases hi
      | err m =>
        obtain ⟨_, h1, _⟩ := (C108_error h ht k hv m).2 hg
        rw [h1] at hi
        cases hi
    · exact ⟨w, rfl⟩
  · rintro ⟨w, hw⟩
    unfold Trie.insert
    rw [if_neg (by simpa using hv)]
    dsimp only
    rcases hm : (insertAt db v (hops db (Trie.path k)) tr.root (Trie.path k)).2 with e | n
    · rw [(insert_fate h ht k v e).1 hm] at hw; cases hw
    · exact ⟨_, rfl⟩

/-- Inserting many, whatever errors are returned on the way. -/
def insertAll (db : Db) : Trie → List (Bytes × Bytes) → Res Trie
  | tr, [] => .ok tr
  | tr, (k, v) :: l => do
    let (tr', _) ← tr.insert db k v
    insertAll db tr' l

/-- **C108**, many insertions, of which some may fail: afterwards a key that could be read before has the last value inserted for it, and every
other key reads as before. -/
theorem C108_many {db : Db} (h : ∀ x b, db.get x = some b → b.length < 2 ^ 64) {tr tr' : Trie} (ht : Spec.Shaped tr.root) {l : List (Bytes × Bytes)}
    (hl : ∀ e ∈ l, e.2 ≠ []) (hi : insertAll db tr l = .ok tr') (k : Bytes) :
    Spec.Shaped tr'.root ∧ ((∀ w, tr.get db k ≠ .ok w) → tr'.get db k = tr.get db k) ∧
      ((∀ e ∈ l, e.1 ≠ k) → tr'.get db k = tr.get db k) ∧
      ∀ l1 l2 v, l = l1 ++ (k, v) :: l2 → (∀ e ∈ l2, e.1 ≠ k) → (∃ w, tr.get db k = .ok w) → tr'.get db k = .ok (some v) := by
  induction l generalizing tr with
  | nil =>
    cases hi
    exact ⟨ht, fun _ => rfl, fun _ => rfl, fun l1 l2 v e => by cases l1 <;> cases e⟩
  | cons a l ih =>
    obtain ⟨k0, v0⟩ := a
    have hv0 : v0 ≠ [] := hl (k0, v0) (by simp)
    have hl' : ∀ e ∈ l, e.2 ≠ [] := fun e he => hl e (List.mem_cons_of_mem _ he)
    simp only [insertAll] at hi
    rcases hr : tr.insert db k0 v0 with e | ⟨t1, o⟩
    · rw [hr] at hi; cases hi
    · rw [hr, Res.ok_bind] at hi
      cases o with
      | none =>
        obtain ⟨s1, s2, s3⟩ := C108_inserted h ht hr
        obtain ⟨i1, i2, i3, i4⟩ := ih s1 hl' hi
        have hg : ∃ w, tr.get db k0 = .ok w := (C108_succeeds h ht k0 hv0).1 ⟨_, hr⟩
        by_cases hk : k = k0
        · subst hk
          refine ⟨i1, fun hno => ?_, fun hno => absurd rfl (hno _ List.mem_cons_self), fun l1 l2 v e hl2 _ => ?_⟩
          · obtain ⟨w, hw⟩ := hg
            exact absurd hw (hno w)
          · cases l1 with
            | nil =>
              cases e
              rw [i3 hl2]
              exact s2
            | cons b l1 =>
              injection e with _ e
              exact i4 l1 l2 v e hl2 ⟨_, s2⟩
        · have e0 := s3 k hk
          rw [e0] at i2 i3 i4
          refine ⟨i1, i2, fun hno => i3 (fun e he => hno e (List.mem_cons_of_mem _ he)), fun l1 l2 v e hl2 hw => ?_⟩
          cases l1 with
          | nil => cases e; exact absurd rfl hk
          | cons b l1 =>
            injection e with _ e
            exact i4 l1 l2 v e hl2 hw
      | some m =>
        have hroot : t1.root = tr.root := by
          unfold Trie.insert at hr
          rw [if_neg (by simpa using hv0)] at hr
          dsimp only at hr
          split at hr
          · cases hr
          · cases hr; rfl
          · cases hr
        have hget : ∀ k', t1.get db k' = tr.get db k' := fun k' => by unfold Trie.get; rw [hroot]
        have hbad : tr.get db k0 = .error (.err m) := (C108_error h ht k0 hv0 m).1 ⟨t1, hr, hroot⟩
        obtain ⟨i1, i2, i3, i4⟩ := ih (hroot ▸ ht) hl' hi
        rw [hget k] at i2 i3 i4
        refine ⟨i1, i2, fun hno => i3 (fun e he => hno e (List.mem_cons_of_mem _ he)), fun l1 l2 v e hl2 hw => ?_⟩
        cases l1 with
        | nil =>
          cases e
          obtain ⟨w, hw⟩ := hw
          rw [hbad] at hw
          cases hw
        | cons b l1 =>
          injection e with _ e
          exact i4 l1 l2 v e hl2 hw

/-- A hash that is not in the database, and beside it a leaf. -/
def lostSide (x : H256) : Trie := ⟨.branch (fun j => if j = 6 then .leaf [1, 16] [5] else .hash x) none, x, [], [], []⟩

theorem lostSide_shaped (x : H256) : Spec.Shaped (lostSide x).root := by
  refine .branch _ fun i => ?_
  split
  · exact .leaf [1] [5]
  · exact .hash x

/-- The leaf makes way for a branch of two; the lost keys stay lost. -/
example (x : H256) : ∃ tr', (lostSide x).insert (Db.new false) [0x62, 0x01] [7] = .ok (tr', none) ∧ tr'.get (Db.new false) [0x61] = .ok (some [5]) ∧
    tr'.get (Db.new false) [0x62, 0x01] = .ok (some [7]) ∧ tr'.get (Db.new false) [0x70] = .error (.err "MissingTrieNode") := by
  obtain ⟨tr', hi⟩ := (C108_succeeds (db := Db.new false) (fun _ _ h => by cases h) (lostSide_shaped x) [0x62, 0x01] (v := [7]) (by decide)).2 ⟨none, rfl⟩
  obtain ⟨_, h2, h3⟩ := C108_inserted (fun _ _ h => by cases h) (lostSide_shaped x) hi
  exact ⟨tr', hi, (h3 _ (by decide)).trans rfl, h2, (h3 _ (by decide)).trans rfl⟩

example (x : H256) : ∃ tr', (lostSide x).insert (Db.new false) [0x70] [7] = .ok (tr', some "MissingTrieNode") ∧ tr'.root = (lostSide x).root :=
  (C108_error (fun _ _ h => by cases h) (lostSide_shaped x) [0x70] (by decide) _).2 rfl

/-- Bytes on which decoding panics. -/
example (K : Keccak) (k : Bytes) : ∃ m, (Trie.atRoot (K [0xc2, 0x07, 0x80])).insert (proofDb K (K [0xc2, 0x07, 0x80]) [[0xc2, 0x07, 0x80]]) k [1] = .error (.panic m) := by
  have h := proofDb_short (K := K) (proof := [[0xc2, 0x07, 0x80]]) (by decide) (K [0xc2, 0x07, 0x80])
  obtain ⟨m, hm⟩ := (C107_panic h (Trie.atRoot (K [0xc2, 0x07, 0x80])) k).2 (.inl ⟨_, _, _, .refl, by
    rw [stored_part]
    exact ⟨[], [], rfl, rfl, .inl rfl, fun _ hc => (nomatch hc)⟩, breaksEx⟩)
  exact ⟨m, (C108_panic h (.hash _) k (by decide) m).2 hm⟩

example (x : H256) {tr' : Trie} (h : insertAll (Db.new false) (lostSide x) [([0x61], [1]), ([0x70], [2]), ([0x61], [3])] = .ok tr') :
    tr'.get (Db.new false) [0x61] = .ok (some [3]) :=
  (C108_many (fun _ _ h => by cases h) (lostSide_shaped x) (by decide) h [0x61]).2.2.2 [([0x61], [1]), ([0x70], [2])] [] [3] rfl (by decide) ⟨_, rfl⟩

end Verif.Props
