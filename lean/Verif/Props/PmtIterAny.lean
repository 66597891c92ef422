import Verif.Spec.PmtHeld
import Verif.Proofs.PmtIter
import Verif.Proofs.PmtIterAny
import Verif.Proofs.PmtIterEnds
import Verif.Props.PmtPuts
/-! What iterating yields on any database: C112. -/

set_option autoImplicit false

namespace Verif.Props
open Verif Verif.Pmt PmtEx

theorem keyBytes_eq : ∀ l : List Nib, Spec.keyBytes l = pack l
  | [] => rfl
  | [_] => rfl
  | a :: b :: t => by
    simp only [Spec.keyBytes, pack]
    rw [keyBytes_eq t]

theorem heldAt_iff {db : Db} (h : ∀ x b, db.get x = some b → b.length < 2 ^ 64) {n : Node} {l : List (Fin 16)} {v : Bytes} :
    Spec.HeldAt db n l v ↔ Bears db n l v := by
  unfold Spec.HeldAt
  rw [goes_eq h]
  constructor
  · rintro ⟨s, hs, ha⟩
    exact .inr ⟨s, hs, .inl ⟨_, ha, rfl⟩⟩
  · rintro (⟨_, he⟩ | ⟨s, hs, ⟨w, ha, he⟩ | ⟨_, _, _, _, _, he⟩⟩)
    · cases he
    · cases he
      exact ⟨s, hs, ha⟩
    · cases he

/-- **C112**: if iterating ends, it has yielded what the trie holds at the paths that can be walked, each once and in
lexicographic order of the paths, under the bytes of the path. Nothing is left out before what was yielded last, and nothing at all unless bytes are
stored that are no node. -/
theorem C112_values {db : Db} (h : ∀ x b, Spec.Stored db x b → b.length < 2 ^ 64) {tr : Trie} (ht : Spec.Shaped tr.root) {fuel : Nat}
    {L : List (Bytes × Bytes)} (hr : tr.values fuel db = .ok L) :
    ∃ ps : List (List (Fin 16) × Bytes), L = ps.map (fun x => (Spec.keyBytes x.1, x.2)) ∧ (ps.map Prod.fst).Pairwise (· < ·) ∧
      (∀ x ∈ ps, Spec.HeldAt db tr.root x.1 x.2) ∧
      (∀ l v, Spec.HeldAt db tr.root l v → (l, v) ∈ ps ∨ ∀ x ∈ ps, x.1 < l) ∧
      ((∀ l v, Spec.HeldAt db tr.root l v → (l, v) ∈ ps) ∨ ∃ x b m, Spec.Stored db x b ∧ decodeNode b = .error (.err m)) := by
  obtain ⟨ps, h1, h2, h3, h5, h4⟩ := values_given (fetch_shaped h) ht hr
  refine ⟨ps, ?_, h2, fun x hx => (heldAt_iff h).2 (h3 x hx), fun l v hl => h5 l v ((heldAt_iff h).1 hl), h4.imp (fun h4 l v hl => h4 l v ((heldAt_iff h).1 hl)) id⟩
  rw [h1]
  simp only [keyBytes_eq]

theorem nibbles_keyBytes {l : List (Fin 16)} (h : l.length % 2 = 0) : Yellow.nibbles (Spec.keyBytes l) = l := by
  rw [keyBytes_eq, Yellow.nibbles_eq]
  exact nibsOf_pack h

theorem held_get {db : Db} (h : ∀ x b, db.get x = some b → b.length < 2 ^ 64) (tr : Trie) (k v : Bytes) :
    Spec.HeldAt db tr.root (Yellow.nibbles k) v ↔ tr.get db k = .ok (some v) := by
  rw [heldAt_iff h, ← gives_get]
  unfold Bears
  rw [show leafPath (Yellow.nibbles k) = Trie.path k from start_eq k]

/-- **C112**, tries with keys of bytes: every pair yielded is what `get` returns, the keys are yielded in ascending order
(so none twice), and unless bytes are stored that are no
node, every key that can be read is yielded. -/
theorem C112_pairs {db : Db} (h : ∀ x b, Spec.Stored db x b → b.length < 2 ^ 64) {tr : Trie} (ht : Spec.Shaped tr.root)
    (he : ∀ l v, Spec.HeldAt db tr.root l v → l.length % 2 = 0) {fuel : Nat} {L : List (Bytes × Bytes)} (hr : tr.values fuel db = .ok L) :
    (L.map Prod.fst).Pairwise (· < ·) ∧ (∀ k v, (k, v) ∈ L → tr.get db k = .ok (some v)) ∧
      ((∀ k v, tr.get db k = .ok (some v) → (k, v) ∈ L) ∨ ∃ x b m, Spec.Stored db x b ∧ decodeNode b = .error (.err m)) := by
  obtain ⟨ps, h1, h2, h3, _, h4⟩ := C112_values h ht hr
  have hnib : ∀ x ∈ ps, Yellow.nibbles (Spec.keyBytes x.1) = x.1 := fun x hx => nibbles_keyBytes (he _ _ (h3 x hx))
  refine ⟨?_, ?_, h4.imp (fun h4 k v hk => ?_) id⟩
  · rw [h1, List.map_map]
    refine List.pairwise_map.2 ((List.pairwise_map.1 h2).imp_of_mem fun {a b} ha hb hab => lt_of_nibsOf_lt ?_)
    rw [← hnib a ha, ← hnib b hb, Yellow.nibbles_eq, Yellow.nibbles_eq] at hab
    exact hab
  · intro k v hk
    rw [h1] at hk
    obtain ⟨x, hx, e⟩ := List.mem_map.1 hk
    cases e
    rw [← held_get h, hnib x hx]
    exact h3 x hx
  · have := h4 _ _ ((held_get h tr k v).2 hk)
    rw [h1]
    refine List.mem_map.2 ⟨_, this, ?_⟩
    have e : Spec.keyBytes (Yellow.nibbles k) = k := by
      rw [keyBytes_eq, Yellow.nibbles_eq]
      exact pack_nibsOf k
    rw [e]

/-- **C112**, if iterating fails, then the rounds are used up (as those of a cycle among the stored nodes always are), or bytes are stored on which
decoding panics, or the empty key has a value. -/
theorem C112_fails {db : Db} (h : ∀ x b, Spec.Stored db x b → b.length < 2 ^ 64) {tr : Trie} (ht : Spec.Shaped tr.root) {fuel : Nat} {e : Err}
    (hr : tr.values fuel db = .error e) :
    e = .panic "out of fuel" ∨ (∃ x b m, Spec.Stored db x b ∧ decodeNode b = .error (.panic m) ∧ e = .panic m) ∨ ∃ v, tr.get db [] = .ok (some v) := by
  rcases values_fails (fetch_shaped h) ht hr with h1 | h1 | ⟨v, h1⟩
  · exact .inl h1
  · exact .inr (.inl h1)
  · exact .inr (.inr ⟨v, (held_get h tr [] v).1 ((heldAt_iff h).2 h1)⟩)

/-- **C112**, iterating ends, after a number of rounds that depends on the trie and the database only, if no walk along the stored nodes is endless;
unless decoding panics or the empty key has a value. -/
theorem C112_ends {db : Db} (h : ∀ x b, Spec.Stored db x b → b.length < 2 ^ 64) {tr : Trie} (ht : Spec.Shaped tr.root) (he : Spec.Ending db tr.root) :
    ∃ N, ∀ fuel, N ≤ fuel → (∃ L, tr.values fuel db = .ok L) ∨
      (∃ x b m, Spec.Stored db x b ∧ decodeNode b = .error (.panic m) ∧ tr.values fuel db = .error (.panic m)) ∨ ∃ v, tr.get db [] = .ok (some v) := by
  obtain ⟨N, hN⟩ := values_end (fetch_shaped h) ht he
  refine ⟨N, fun fuel hf => ?_⟩
  rcases hN fuel hf with h1 | h1 | ⟨v, h1⟩
  · exact .inl h1
  · exact .inr (.inl h1)
  · exact .inr (.inr ⟨v, (held_get h tr [] v).1 ((heldAt_iff h).2 h1)⟩)

/-- **C112**, a path with an odd number of digits: the pair is yielded under the bytes of the other digits, which `get` does not find. -/
theorem C112_odd (x : H256) (v : Bytes) (db : Db) : (⟨.leaf [6, 1, 7, 16] v, x, [], [], []⟩ : Trie).values 9 db = .ok [([0x61], v)] ∧
    (⟨.leaf [6, 1, 7, 16] v, x, [], [], []⟩ : Trie).get db [0x61] = .ok none := ⟨rfl, rfl⟩

/-- A branch with a leaf behind a child that is stored as bytes that are no node. -/
def noNodeSide (x : H256) : Trie := ⟨.branch (fun j => if j = 6 then .leaf [1, 16] [5] else if j = 3 then .hash x else .empty) none, x, [], [], []⟩

def sevens : H256 := ⟨List.replicate 32 7, rfl⟩

/-- **C112**, stored bytes that are no node: iterating ends there without an error, although a key behind can be read. -/
theorem C112_stops : (noNodeSide sevens).values 50 ((Db.new false).insert sevens [1]) = .ok [] ∧
    (noNodeSide sevens).get ((Db.new false).insert sevens [1]) [0x61] = .ok (some [5]) := ⟨by rfl, by rfl⟩

/-- The bytes of an extension by the digit 1 to the hash `sevens`. -/
def loopBytes : Bytes := 0xe2 :: 0x11 :: 0xa0 :: List.replicate 32 7

/-- An extension that refers to itself. -/
def loopDb : Db := (Db.new false).insert sevens loopBytes

set_option maxRecDepth 8000 in
theorem loop_decodes : decodeNode loopBytes = .ok (.ext [1] (.hash sevens)) := by rfl

theorem loop_next (fuel : Nat) : ∀ (nib : Nibbles) (rest : List (Node × Status)),
    (∀ s, s = .start ∨ s = .doing → Iter.next loopDb fuel ⟨nib, (.hash sevens, s) :: rest⟩ = .error (.panic "out of fuel")) ∧
    (∀ s, s = .start ∨ s = .doing → Iter.next loopDb fuel ⟨nib, (.ext [1] (.hash sevens), s) :: rest⟩ = .error (.panic "out of fuel")) := by
  induction fuel with
  | zero => exact fun _ _ => ⟨fun _ _ => rfl, fun _ _ => rfl⟩
  | succ f ih =>
    intro nib rest
    have hrec : recover loopDb sevens = .ok (some (.ext [1] (.hash sevens))) := by
      unfold recover
      rw [show loopDb.get sevens = some loopBytes by rfl]
      simp only [loop_decodes]
      rfl
    refine ⟨?_, ?_⟩
    · rintro s (rfl | rfl)
      · exact (ih nib rest).1 .doing (.inr rfl)
      · simp only [Iter.next, Iter.round, hrec]
        exact (ih nib rest).2 .start (.inl rfl)
    · rintro s (rfl | rfl)
      · exact (ih nib rest).2 .doing (.inr rfl)
      · exact (ih _ _).1 .start (.inl rfl)

/-- **C112**, a stored node that leads back to itself: iterating never ends, although `get` returns. -/
theorem C112_cycle : (∀ fuel, (Trie.atRoot sevens).values fuel loopDb = .error (.panic "out of fuel")) ∧
    (Trie.atRoot sevens).get loopDb [0x61] = .ok none ∧ ∀ x b, Spec.Stored loopDb x b → b.length < 2 ^ 64 := by
  have hshort : ∀ x b, Spec.Stored loopDb x b → b.length < 2 ^ 64 := by
    intro x b h
    by_cases hx : x = sevens
    · rw [hx] at h
      rw [← Option.some.inj ((show loopDb.get sevens = some loopBytes by rfl).symm.trans h)]
      decide
    · exact absurd h (by simp [Spec.Stored, loopDb, Db.get, Db.insert, Db.new, hx])
  refine ⟨fun fuel => ?_, ?_, hshort⟩
  · cases fuel with
    | zero => rfl
    | succ f =>
      have := (loop_next (f + 1) [] []).1 .start (.inl rfl)
      unfold Trie.values Iter.collect
      rw [show Iter.new (Trie.atRoot sevens) = ⟨[], [(.hash sevens, .start)]⟩ from rfl, this]
  · refine (gives_get _ _ _).1 ((gives_step (.hash (show loopDb.get sevens = some loopBytes by rfl) loop_decodes) _).2 ?_)
    exact .inr ⟨_, .refl, .inl ⟨none, .otherExt _ (by decide), rfl⟩⟩

/-- A lost child is passed over; this happens. -/
example : (noNodeSide sevens).values 50 (Db.new false) = .ok [([0x61], [5])] := by rfl

theorem noNodeSide_shaped (x : H256) : Spec.Shaped (noNodeSide x).root := by
  refine .branch _ fun i => ?_
  split
  · exact .leaf [1] [5]
  · split
    · exact .hash x
    · exact .empty

/-- The hypotheses are met, whatever the limit of the rounds. -/
example (x : H256) (fuel : Nat) (L : List (Bytes × Bytes)) (hr : (noNodeSide x).values fuel (Db.new false) = .ok L) :
    (L.map Prod.fst).Pairwise (· < ·) ∧ ∀ k v, (k, v) ∈ L ↔ k = [0x61] ∧ v = [5] := by
  have hshort : ∀ x b, (Db.new false).get x = some b → b.length < 2 ^ 64 := fun _ _ h => by cases h
  have held : ∀ l v, Spec.HeldAt (Db.new false) (noNodeSide x).root l v → l = [6, 1] ∧ v = [5] := by
    intro l v h
    rcases bears_branch.1 ((heldAt_iff hshort).1 h) with ⟨_, h2⟩ | ⟨i, l', e, h2⟩
    · cases h2
    · split at h2
      · rename_i h6
        obtain ⟨e1, e2⟩ := (bears_leaf (k := [1])).1 h2
        rw [e, h6, e1]
        exact ⟨rfl, e2⟩
      · split at h2
        · exact (bears_lost (fetch_missing rfl) h2).elim
        · exact (bears_empty h2).elim
  obtain ⟨h1, h2, h3⟩ := C112_pairs hshort (noNodeSide_shaped x) (fun l v h => by rw [(held l v h).1]; rfl) hr
  refine ⟨h1, fun k v => ⟨fun h => ?_, ?_⟩⟩
  · obtain ⟨e1, e2⟩ := held _ _ ((held_get hshort _ k v).2 (h2 k v h))
    refine ⟨?_, e2⟩
    rw [Yellow.nibbles_eq] at e1
    exact nibsOf_inj (b := [0x61]) e1
  · rintro ⟨rfl, rfl⟩
    rcases h3 with h3 | ⟨_, _, _, h, _⟩
    · exact h3 _ _ rfl
    · cases h

/-- A branch with a lost child: iterating ends with the one pair. -/
example (x : H256) : ∃ N, ∀ fuel, N ≤ fuel → ∃ L, (noNodeSide x).values fuel (Db.new false) = .ok L := by
  have he : Spec.Ending (Db.new false) (noNodeSide x).root := by
    refine .branch fun i => ?_
    split
    · exact .leaf _ _
    · split
      · exact .hash fun b n h => by cases h
      · exact .empty
  obtain ⟨N, hN⟩ := C112_ends (fun _ _ h => by cases h) (noNodeSide_shaped x) he
  refine ⟨N, fun fuel hf => ?_⟩
  rcases hN fuel hf with h | ⟨_, _, _, h, _⟩ | ⟨v, h⟩
  · exact h
  · cases h
  · cases h

/-- The empty key has a value in a branch. -/
example (x : H256) (db : Db) : (∃ m, (⟨.branch (fun _ => .empty) (some [5]), x, [], [], []⟩ : Trie).values 9 db = .error (.panic m) ∧ m ≠ "out of fuel") ∧
    (⟨.branch (fun _ => .empty) (some [5]), x, [], [], []⟩ : Trie).get db [] = .ok (some [5]) := ⟨⟨_, rfl, by decide⟩, rfl⟩

end Verif.Props
