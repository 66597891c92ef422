import Verif.Proofs.PmtTakes
import Verif.Props.PmtPuts
/-! What `remove`, and calls of `insert` and `remove`, do on any database: C109. -/

set_option autoImplicit false

namespace Verif.Props
open Verif Verif.Pmt PmtEx

/-- **C109**, success: the key has no value, every other key reads as before, be it a value, no value, an error or a panic; `false` is returned
only if the key had none before. -/
theorem C109_removed {db : Db} (h : ∀ x b, db.get x = some b → b.length < 2 ^ 64) {tr tr' : Trie} (ht : Spec.Shaped tr.root) {k : Bytes} {b : Bool}
    (hi : tr.remove db k = .ok (tr', .ok b)) :
    Spec.Shaped tr'.root ∧ tr'.get db k = .ok none ∧ (∀ k', k' ≠ k → tr'.get db k' = tr.get db k') ∧ (b = false → tr.get db k = .ok none) := by
  unfold Trie.remove at hi
  obtain ⟨p, hp⟩ := path_leafPath k
  dsimp only at hi
  split at hi
  · cases hi
  · cases hi
  · rename_i m b' hm
    cases hi
    have htk := deleteAt_takes (fetch_shaped h) _ ht p m b (hp ▸ hm)
    refine ⟨htk.1, (gives_get _ k _).1 ?_, fun k' hk => ?_, fun hb => (gives_get _ k _).1 ?_⟩
    · rw [hp]
      exact htk.2.1
    · obtain ⟨q, hq⟩ := path_leafPath k'
      refine (gives_get _ k' _).1 ?_
      rw [hq]
      refine (htk.2.2.1 q ?_ _).2 ?_
      · rintro rfl
        exact hk (keyPath_inj (hq.trans hp.symm))
      · rw [← hq]
        exact (gives_get tr k' _).2 rfl
    · rw [hp]
      exact htk.2.2.2 hb

/-- **C109**, a failure changes nothing that is read. -/
theorem C109_failed {db : Db} {tr tr' : Trie} {k : Bytes} {m : String} (hi : tr.remove db k = .ok (tr', .error m)) (db' : Db) (k' : Bytes) :
    tr'.get db' k' = tr.get db' k' := by
  unfold Trie.remove at hi
  dsimp only at hi
  split at hi
  · cases hi
  · cases hi; rfl
  · cases hi

/-- **C109**, `remove` returns an error if `get` of the key does, and the same. -/
theorem C109_error {db : Db} {tr : Trie} {k : Bytes} {m : String} (hg : tr.get db k = .error (.err m)) :
    ∃ tr', tr.remove db k = .ok (tr', .error m) := by
  have := deleteAt_fate db _ _ _ _ hg
  unfold Trie.remove
  dsimp only
  rw [this]
  exact ⟨_, rfl⟩

/-- **C109**, `remove` panics if `get` of the key does. -/
theorem C109_panic {db : Db} {tr : Trie} {k : Bytes} {m : String} (hg : tr.get db k = .error (.panic m)) :
    tr.remove db k = .error (.panic m) := by
  have := deleteAt_fate db _ _ _ _ hg
  unfold Trie.remove
  dsimp only
  rw [this]

/-- A call that changes a trie. -/
inductive Change where
  | insert (k v : Bytes)
  | remove (k : Bytes)

/-- Make a call: the trie afterwards, and whether `Ok` was returned. -/
def Change.call (db : Db) (tr : Trie) : Change → Res (Trie × Bool)
  | .insert k v => do
    let (tr', o) ← tr.insert db k v
    pure (tr', o.isNone)
  | .remove k => do
    let (tr', r) ← tr.remove db k
    pure (tr', match r with | .ok _ => true | .error _ => false)

/-- Make calls one after the other, whatever they return: the trie afterwards, and which of them returned `Ok`. -/
def callAll (db : Db) : Trie → List Change → Res (Trie × List Bool)
  | tr, [] => .ok (tr, [])
  | tr, c :: l => do
    let (tr1, b) ← c.call db tr
    let (tr2, bs) ← callAll db tr1 l
    pure (tr2, b :: bs)

/-- What is read after the calls of which the marked ones returned `Ok`, from what was read before. -/
def readAfter : (Bytes → Res (Option Bytes)) → List (Change × Bool) → Bytes → Res (Option Bytes)
  | read, [] => read
  | read, (_, false) :: l => readAfter read l
  | read, (.insert k v, true) :: l => readAfter (fun k' => if k' = k then .ok (some v) else read k') l
  | read, (.remove k, true) :: l => readAfter (fun k' => if k' = k then .ok none else read k') l

theorem one_call {db : Db} (h : ∀ x b, db.get x = some b → b.length < 2 ^ 64) {tr tr' : Trie} (ht : Spec.Shaped tr.root) {c : Change} {b : Bool}
    (hi : c.call db tr = .ok (tr', b)) : Spec.Shaped tr'.root ∧ tr'.get db = readAfter (tr.get db) [(c, b)] := by
  cases c with
  | insert k v =>
    simp only [Change.call] at hi
    rcases hr : tr.insert db k v with e | ⟨t1, o⟩
    · rw [hr] at hi; cases hi
    · rw [hr] at hi
      simp only [Res.ok_bind, Res.pure_eq] at hi
      cases hi
      cases o with
      | none =>
        obtain ⟨h1, h2, h3⟩ := C108_inserted h ht hr
        refine ⟨h1, funext fun k' => ?_⟩
        show _ = if k' = k then .ok (some v) else tr.get db k'
        split
        · rename_i e; rw [e]; exact h2
        · rename_i e; exact h3 k' e
      | some m =>
        have hroot : tr'.root = tr.root := by
          unfold Trie.insert at hr
          split at hr
          · cases hr; rfl
          · dsimp only at hr
            split at hr
            · cases hr
            · cases hr; rfl
            · cases hr
        refine ⟨hroot ▸ ht, funext fun k' => ?_⟩
        show tr'.get db k' = tr.get db k'
        unfold Trie.get
        rw [hroot]
  | remove k =>
    simp only [Change.call] at hi
    rcases hr : tr.remove db k with e | ⟨t1, o⟩
    · rw [hr] at hi; cases hi
    · rw [hr] at hi
      simp only [Res.ok_bind, Res.pure_eq] at hi
      cases hi
      cases o with
      | ok b =>
        obtain ⟨h1, h2, h3, _⟩ := C109_removed h ht hr
        refine ⟨h1, funext fun k' => ?_⟩
        show _ = if k' = k then .ok none else tr.get db k'
        split
        · rename_i e; rw [e]; exact h2
        · rename_i e; exact h3 k' e
      | error m =>
        have hroot : tr'.root = tr.root := by
          unfold Trie.remove at hr
          dsimp only at hr
          split at hr
          · cases hr
          · cases hr; rfl
          · cases hr
        exact ⟨hroot ▸ ht, funext fun k' => C109_failed hr db k'⟩

/-- **C109**, any calls, of which some may fail: afterwards every key is read as the calls that returned `Ok` say, and like before if they say nothing
about it. -/
theorem C109_calls {db : Db} (h : ∀ x b, db.get x = some b → b.length < 2 ^ 64) {tr tr' : Trie} (ht : Spec.Shaped tr.root) {l : List Change} {bs : List Bool}
    (hi : callAll db tr l = .ok (tr', bs)) : bs.length = l.length ∧ Spec.Shaped tr'.root ∧ tr'.get db = readAfter (tr.get db) (l.zip bs) := by
  induction l generalizing tr bs with
  | nil => cases hi; exact ⟨rfl, ht, rfl⟩
  | cons c l ih =>
    simp only [callAll] at hi
    rcases hr : c.call db tr with e | ⟨t1, b⟩
    · rw [hr] at hi; cases hi
    · rw [hr] at hi
      simp only [Res.ok_bind] at hi
      rcases hr2 : callAll db t1 l with e | ⟨t2, bs2⟩
      · rw [hr2] at hi; cases hi
      · rw [hr2] at hi
        simp only [Res.ok_bind, Res.pure_eq] at hi
        cases hi
        obtain ⟨h1, h2⟩ := one_call h ht hr
        obtain ⟨i1, i2, i3⟩ := ih h1 hr2
        refine ⟨by simp [i1], i2, ?_⟩
        rw [i3, h2, List.zip_cons_cons]
        cases b with
        | false => cases c <;> rfl
        | true => cases c <;> rfl

/-- **C108**, **C109**, the tries in question: new ones, opened ones, and those left by a commit. (By `C109_calls` also what calls make of them.) -/
theorem C109_wellformed (K : Keccak) : Spec.Shaped (Trie.new K).root ∧ (∀ root, Spec.Shaped (Trie.atRoot root).root) ∧
    ∀ (tr tr' : Trie) (db db' : Db) (root : H256), (∀ x b, db'.get x = some b → b.length < 2 ^ 64) → tr.commit K db = .ok (tr', db', .ok root) →
      Spec.Shaped tr'.root := by
  refine ⟨.empty, fun root => .hash root, fun tr tr' db db' root h hc => ?_⟩
  unfold Trie.commit at hc
  rcases hw : tr.writeRoot K with e | ⟨t, x⟩
  · rw [hw] at hc; cases hc
  · rw [hw] at hc
    simp only [Res.ok_bind] at hc
    split at hc
    · cases hc
    · cases hc
    · cases hc
    · rename_i n hn
      cases hc
      refine fetch_shaped h root n ?_
      unfold fetch
      rw [hn]

/-- A branch with a leaf, and a child that is not in the database. -/
def lostChild (x : H256) : Trie := ⟨.branch (fun j => if j = 6 then .leaf [1, 16] [5] else if j = 7 then .hash x else .empty) none, x, [], [], []⟩

theorem lostChild_shaped (x : H256) : Spec.Shaped (lostChild x).root := by
  refine .branch _ fun i => ?_
  split
  · exact .leaf [1] [5]
  · split
    · exact .hash x
    · exact .empty

theorem emptyDb_short (x : H256) (b : Bytes) (h : (Db.new false).get x = some b) : b.length < 2 ^ 64 := by cases h

/-- **C109**: `remove` may fail although the key can be read, when a branch is left with one child and this child cannot be read. -/
theorem C109_may_fail (x : H256) : (lostChild x).get (Db.new false) [0x61] = .ok (some [5]) ∧
    ∃ tr', (lostChild x).remove (Db.new false) [0x61] = .ok (tr', .error "MissingTrieNode") := ⟨rfl, _, rfl⟩

/-- Calls of which one fails. -/
example (x : H256) : ∃ tr', callAll (Db.new false) (lostChild x) [.insert [0x61] [9], .insert [0x71] [8], .remove [0x62], .insert [0x51] [3], .remove [0x61]] =
    .ok (tr', [true, false, true, true, true]) ∧ tr'.get (Db.new false) [0x61] = .ok none ∧ tr'.get (Db.new false) [0x51] = .ok (some [3]) ∧
      tr'.get (Db.new false) [0x71] = .error (.err "MissingTrieNode") := by
  have hr : ∃ tr', callAll (Db.new false) (lostChild x) [.insert [0x61] [9], .insert [0x71] [8], .remove [0x62], .insert [0x51] [3], .remove [0x61]] =
    .ok (tr', [true, false, true, true, true]) := ⟨_, rfl⟩
  obtain ⟨tr', hr⟩ := hr
  obtain ⟨_, _, e⟩ := C109_calls emptyDb_short (lostChild_shaped x) hr
  exact ⟨tr', hr, by rw [e]; rfl, by rw [e]; rfl, by rw [e]; rfl⟩

example (x : H256) : ∃ tr', (lostChild x).remove (Db.new false) [0x71] = .ok (tr', .error "MissingTrieNode") := C109_error rfl

example (x : H256) {tr' : Trie} {b : Bool} (h : (lostChild x).remove (Db.new false) [0x62] = .ok (tr', .ok b)) :
    tr'.get (Db.new false) [0x71] = .error (.err "MissingTrieNode") :=
  ((C109_removed emptyDb_short (lostChild_shaped x) h).2.2.1 _ (by decide)).trans rfl

end Verif.Props
