import Mathlib.Data.List.Sort
import Verif.Props.PmtCommitAny
import Verif.Props.PmtIterAny
/-! What iterating yields after any calls on any database: C113. -/

set_option autoImplicit false

namespace Verif.Props
open Verif Verif.Pmt PmtEx

variable {K : Keccak}

theorem nibbles_even (k : Bytes) : (Yellow.nibbles k).length % 2 = 0 := by
  rw [Yellow.nibbles_eq, nibsOf_length]
  omega

/-- One call leaves what is held at paths that are not of keys. -/
theorem call_odd {db : Db} (h : ∀ x b, db.get x = some b → b.length < 2 ^ 64) {tr tr' : Trie} (ht : Spec.Shaped tr.root) {c : Change} {b : Bool}
    (hi : c.call db tr = .ok (tr', b)) {l : List (Fin 16)} (hl : l.length % 2 = 1) (v : Bytes) :
    Spec.HeldAt db tr'.root l v ↔ Spec.HeldAt db tr.root l v := by
  rw [heldAt_iff h, heldAt_iff h]
  have hne : ∀ k, l ≠ Yellow.nibbles k := by
    intro k e
    have := nibbles_even k
    rw [← e] at this
    omega
  cases c with
  | insert k w =>
    simp only [Change.call] at hi
    rcases hr : tr.insert db k w with e | ⟨t1, o⟩
    · rw [hr] at hi; cases hi
    · rw [hr] at hi
      simp only [Res.ok_bind, Res.pure_eq] at hi
      cases hi
      unfold Trie.insert at hr
      split at hr
      · cases hr; exact Iff.rfl
      · dsimp only at hr
        split at hr
        · cases hr
        · cases hr; exact Iff.rfl
        · rename_i m hm
          cases hr
          exact (insertAt_puts (fetch_shaped h) w _ ht (Yellow.nibbles k) m ((start_eq k).symm ▸ hm)).2.2 l (hne k) _
  | remove k =>
    simp only [Change.call] at hi
    rcases hr : tr.remove db k with e | ⟨t1, o⟩
    · rw [hr] at hi; cases hi
    · rw [hr] at hi
      simp only [Res.ok_bind, Res.pure_eq] at hi
      cases hi
      unfold Trie.remove at hr
      dsimp only at hr
      split at hr
      · cases hr
      · cases hr; exact Iff.rfl
      · rename_i m b' hm
        cases hr
        exact (deleteAt_takes (fetch_shaped h) _ ht (Yellow.nibbles k) m _ ((start_eq k).symm ▸ hm)).2.2.1 l (hne k) _

/-- **C113**, paths with an odd number of digits, which are not of keys: whatever calls are made, they hold what they held. -/
theorem C113_odd {db : Db} (h : ∀ x b, Spec.Stored db x b → b.length < 2 ^ 64) {tr tr' : Trie} (ht : Spec.Shaped tr.root) {cs : List Change} {bs : List Bool}
    (hi : callAll db tr cs = .ok (tr', bs)) {l : List (Fin 16)} (hl : l.length % 2 = 1) (v : Bytes) :
    Spec.HeldAt db tr'.root l v ↔ Spec.HeldAt db tr.root l v := by
  induction cs generalizing tr bs with
  | nil => cases hi; exact Iff.rfl
  | cons c cs ih =>
    simp only [callAll] at hi
    rcases hr : c.call db tr with e | ⟨t1, b⟩
    · rw [hr] at hi; cases hi
    · rw [hr] at hi
      simp only [Res.ok_bind] at hi
      rcases hr2 : callAll db t1 cs with e | ⟨t2, bs2⟩
      · rw [hr2] at hi; cases hi
      · rw [hr2] at hi
        simp only [Res.ok_bind, Res.pure_eq] at hi
        cases hi
        exact (ih (one_call h ht hr).1 hr2).trans (call_odd h ht hr hl v)

/-- **C113**, any calls, of which some may fail: iterating afterwards yields exactly the keys that have a value according to the calls that returned
`Ok`, or according to what was read before if they say nothing about the key; each with this value, and in ascending order. -/
theorem C113_calls {db : Db} (h : ∀ x b, Spec.Stored db x b → b.length < 2 ^ 64) (hn : ∀ x b m, Spec.Stored db x b → decodeNode b ≠ .error (.err m))
    {tr tr' : Trie} (ht : Spec.Shaped tr.root) (he : ∀ l v, Spec.HeldAt db tr.root l v → l.length % 2 = 0) {cs : List Change} {bs : List Bool}
    (hi : callAll db tr cs = .ok (tr', bs)) {fuel : Nat} {L : List (Bytes × Bytes)} (hr : tr'.values fuel db = .ok L) :
    (L.map Prod.fst).Pairwise (· < ·) ∧ ∀ k v, (k, v) ∈ L ↔ readAfter (tr.get db) (cs.zip bs) k = .ok (some v) := by
  obtain ⟨_, h2, h3⟩ := C109_calls h ht hi
  have he' : ∀ l v, Spec.HeldAt db tr'.root l v → l.length % 2 = 0 := by
    intro l v hl
    rcases Nat.mod_two_eq_zero_or_one l.length with h0 | h1
    · exact h0
    · exact he l v ((C113_odd h ht hi h1 v).1 hl)
  obtain ⟨p1, p2, p3⟩ := C112_pairs h h2 he' hr
  refine ⟨p1, fun k v => ?_⟩
  rw [← h3]
  refine ⟨p2 k v, fun hk => ?_⟩
  rcases p3 with p3 | ⟨x, b, m, hs, hb⟩
  · exact p3 k v hk
  · exact absurd hb (hn x b m hs)

/-- **C113**, the same by what iterating yields before the calls: if it ends then, the keys that no call was about are yielded again, with the same
values, and no others of them. -/
theorem C113_rest {db : Db} (h : ∀ x b, Spec.Stored db x b → b.length < 2 ^ 64) (hn : ∀ x b m, Spec.Stored db x b → decodeNode b ≠ .error (.err m))
    {tr tr' : Trie} (ht : Spec.Shaped tr.root) (he : ∀ l v, Spec.HeldAt db tr.root l v → l.length % 2 = 0) {cs : List Change} {bs : List Bool}
    (hi : callAll db tr cs = .ok (tr', bs)) {fuel fuel' : Nat} {L L' : List (Bytes × Bytes)} (hr : tr.values fuel db = .ok L)
    (hr' : tr'.values fuel' db = .ok L') {k : Bytes} (hk : ∀ c ∈ cs, (∀ v, c ≠ .insert k v) ∧ c ≠ .remove k) (v : Bytes) :
    (k, v) ∈ L' ↔ (k, v) ∈ L := by
  rw [(C113_calls h hn ht he hi hr').2, (C113_calls h hn ht he (cs := []) rfl hr).2]
  have : ∀ (bs : List Bool) (r : Bytes → Res (Option Bytes)), readAfter r (cs.zip bs) k = r k := by
    clear hi
    induction cs with
    | nil => exact fun _ _ => rfl
    | cons c cs ih =>
      intro bs r
      have ih := ih (fun c hc => hk c (List.mem_cons_of_mem _ hc))
      obtain ⟨h1, h2⟩ := hk c List.mem_cons_self
      cases bs with
      | nil => rfl
      | cons b bs =>
        cases b with
        | false => cases c <;> exact ih bs r
        | true =>
          cases c with
          | insert k0 v0 =>
            rw [List.zip_cons_cons]
            refine (ih bs _).trans (if_neg ?_)
            rintro rfl
            exact h1 v0 rfl
          | remove k0 =>
            rw [List.zip_cons_cons]
            refine (ih bs _).trans (if_neg ?_)
            rintro rfl
            exact h2 rfl
  rw [this]
  rfl

theorem sortedPairs_eq {L L' : List (Bytes × Bytes)} (h : (L.map Prod.fst).Pairwise (· < ·)) (h' : (L'.map Prod.fst).Pairwise (· < ·))
    (hm : ∀ e, e ∈ L ↔ e ∈ L') : L = L' := by
  have : Std.Antisymm fun a b : Bytes × Bytes => a.1 < b.1 := ⟨fun a b h1 h2 => absurd h2 (List.lt_asymm h1)⟩
  have : Std.Irrefl fun a b : Bytes × Bytes => a.1 < b.1 := ⟨fun a => List.lt_irrefl a.1⟩
  exact (List.pairwise_map.1 h).eq_of_mem_iff (List.pairwise_map.1 h') hm

theorem ending_of {db : Db} (hw : ∀ x b n, Spec.Stored db x b → decodeNode b = .ok n → Spec.Ending db n) (n : Node) : Spec.Ending db n := by
  induction n with
  | empty => exact .empty
  | leaf key v => exact .leaf key v
  | ext pre n ih => exact .ext pre ih
  | branch cs w ih => exact .branch ih
  | hash x => exact .hash fun b n => hw x b n

/-- **C113**, altogether: if the stored bytes are nodes of which no walk is endless, then iterating after any calls ends, with exactly the pairs that
the calls say, in ascending order; unless the empty key has a value. -/
theorem C113_total {db : Db} (h : ∀ x b, Spec.Stored db x b → b.length < 2 ^ 64)
    (hw : ∀ x b, Spec.Stored db x b → ∃ n, decodeNode b = .ok n ∧ Spec.Ending db n) {tr tr' : Trie} (ht : Spec.Shaped tr.root)
    (he : ∀ l v, Spec.HeldAt db tr.root l v → l.length % 2 = 0) {cs : List Change} {bs : List Bool} (hi : callAll db tr cs = .ok (tr', bs)) :
    (∃ v, readAfter (tr.get db) (cs.zip bs) [] = .ok (some v)) ∨
      ∃ (N : Nat) (L : List (Bytes × Bytes)), (∀ fuel, N ≤ fuel → tr'.values fuel db = .ok L) ∧ (L.map Prod.fst).Pairwise (· < ·) ∧
        ∀ k v, (k, v) ∈ L ↔ readAfter (tr.get db) (cs.zip bs) k = .ok (some v) := by
  obtain ⟨_, h2, h3⟩ := C109_calls h ht hi
  have hn : ∀ x b m, Spec.Stored db x b → decodeNode b ≠ .error m := by
    intro x b m hs hb
    obtain ⟨n, hn, _⟩ := hw x b hs
    rw [hn] at hb
    cases hb
  obtain ⟨N, hN⟩ := C112_ends h h2 (ending_of (fun x b n hs hb => by
    obtain ⟨n', hn', hend⟩ := hw x b hs
    rw [hb] at hn'
    cases hn'
    exact hend) tr'.root)
  by_cases h0 : ∃ v, tr'.get db [] = .ok (some v)
  · exact .inl (h3 ▸ h0)
  · have hL : ∀ fuel, N ≤ fuel → ∃ L, tr'.values fuel db = .ok L := by
      intro fuel hf
      rcases hN fuel hf with h1 | ⟨x, b, m, hs, hb, _⟩ | h1
      · exact h1
      · exact absurd hb (hn x b _ hs)
      · exact absurd h1 h0
    have hC : ∀ fuel L, tr'.values fuel db = .ok L → _ := fun fuel L hr => C113_calls h (fun x b m hs => hn x b _ hs) ht he hi hr
    obtain ⟨L, hr⟩ := hL N (Nat.le_refl N)
    refine .inr ⟨N, L, fun fuel hf => ?_, hC N L hr⟩
    obtain ⟨L', hr'⟩ := hL fuel hf
    rw [hr']
    congr 1
    exact sortedPairs_eq (hC fuel L' hr').1 (hC N L hr).1 fun e => ((hC fuel L' hr').2 e.1 e.2).trans ((hC N L hr).2 e.1 e.2).symm

/-- **C113**, with any number of commits in between, on an archive database: if the paths have an even number of digits at the end, then every key
that has a value according to the calls that returned `Ok` (or was read at the beginning) is yielded, in ascending order; and what is yielded is right, unless
the node of the key was missing at the beginning. -/
theorem C113_program {tr tr' : Trie} {db db' : Db} {cs : List (Change × Bool)} (ha : db.light = false)
    (hd : ∀ x b, Spec.Stored db x b → K b = x ∧ b ∈ db.log ∧ b.length < 2 ^ 64) (ht : Spec.Shaped tr.root)
    (hcache : ∀ e ∈ tr.cache, e.1 = K e.2) (h : Went K tr db cs tr' db') (hn : ∀ x b m, Spec.Stored db' x b → decodeNode b ≠ .error (.err m))
    (he : ∀ l v, Spec.HeldAt db' tr'.root l v → l.length % 2 = 0) {fuel : Nat} {L : List (Bytes × Bytes)} (hr : tr'.values fuel db' = .ok L) :
    Spec.Collision K db'.log ∨ (L.map Prod.fst).Pairwise (· < ·) ∧ (∀ k v, readAfter (tr.get db) cs k = .ok (some v) → (k, v) ∈ L) ∧
      ∀ k v, (k, v) ∈ L → readAfter (tr.get db) cs k = .ok (some v) ∨ readAfter (tr.get db) cs k = .error (.err "MissingTrieNode") := by
  obtain ⟨_, _, i3, i4, _, i6⟩ := went_inv ha (fun x b h => ⟨(hd x b h).1, (hd x b h).2.1⟩) (fun x b h => (hd x b h).2.2) ht hcache h
  refine i6.imp id fun i6 => ?_
  obtain ⟨p1, p2⟩ := C113_calls i3 hn i4 he (cs := []) rfl hr
  refine ⟨p1, fun k v hk => (p2 k v).2 ?_, fun k v hk => ?_⟩
  · rcases i6 k with h | h
    · exact h.trans hk
    · rw [h] at hk; cases hk
  · have := (p2 k v).1 hk
    exact (i6 k).imp (fun h => h.symm.trans this) id

/-- One key is written beside a lost child, another is removed, and a third call fails; the first is yielded. -/
example (x : H256) : ∃ tr', callAll (Db.new false) (noNodeSide x) [.insert [0x62] [9], .remove [0x61], .insert [0x31] [7]] = .ok (tr', [true, true, false]) ∧
    ∀ fuel L, tr'.values fuel (Db.new false) = .ok L → ∀ k v, (k, v) ∈ L ↔ k = [0x62] ∧ v = [9] := by
  have hshort : ∀ x b, (Db.new false).get x = some b → b.length < 2 ^ 64 := fun _ _ h => by cases h
  have held : ∀ l v, Spec.HeldAt (Db.new false) (noNodeSide x).root l v → l = [6, 1] := by
    intro l v h
    rcases bears_branch.1 ((heldAt_iff hshort).1 h) with ⟨_, h2⟩ | ⟨i, l', e, h2⟩
    · cases h2
    · split at h2
      · rename_i h6
        obtain ⟨e1, _⟩ := (bears_leaf (k := [1])).1 h2
        rw [e, h6, e1]
      · split at h2
        · exact (bears_lost (fetch_missing rfl) h2).elim
        · exact (bears_empty h2).elim
  have hc : ∃ tr', callAll (Db.new false) (noNodeSide x) [.insert [0x62] [9], .remove [0x61], .insert [0x31] [7]] = .ok (tr', [true, true, false]) := ⟨_, rfl⟩
  obtain ⟨tr', hc⟩ := hc
  refine ⟨tr', hc, fun fuel L hr k v => ?_⟩
  rw [(C113_calls hshort (fun _ _ _ h => by cases h) (noNodeSide_shaped x) (fun l v h => by rw [held l v h]; rfl) hc hr).2]
  show (if k = [0x61] then _ else if k = [0x62] then _ else (noNodeSide x).get _ k) = _ ↔ _
  constructor
  · intro h
    split at h
    · cases h
    · split at h
      · rename_i e
        cases h
        exact ⟨e, rfl⟩
      · rename_i h1 _
        have := held _ _ ((held_get hshort _ k v).2 h)
        rw [Yellow.nibbles_eq] at this
        exact absurd (nibsOf_inj (b := [0x61]) this) h1
  · rintro ⟨rfl, rfl⟩
    rfl

set_option maxRecDepth 20000 in
/-- A key is written and committed, another is written; both are yielded. -/
example : ∃ tr' db', Went exK (Trie.new exK) (Db.new false) ([(.insert [0x61] [5], true)] ++ [(.insert [0x62] [6], true)]) tr' db' ∧
    ∀ fuel L, tr'.values fuel db' = .ok L → Spec.Collision exK db'.log ∨ ([0x61], [5]) ∈ L ∧ ([0x62], [6]) ∈ L := by
  have hc : ∃ tr1 tr2 db2 root tr3 b, callAll (Db.new false) (Trie.new exK) [.insert [0x61] [5]] = .ok (tr1, [true]) ∧ Spec.Small tr1.root ∧
      tr1.commit exK (Db.new false) = .ok (tr2, db2, .ok root) ∧ db2 = (Db.new false).insert root b ∧ b.length < 2 ^ 64 ∧
      decodeNode b = .ok (.leaf [6, 1, 16] [5]) ∧ tr2.root = .leaf [6, 1, 16] [5] ∧ callAll db2 tr2 [.insert [0x62] [6]] = .ok (tr3, [true]) := by
    refine ⟨_, _, _, _, _, _, rfl, ⟨by decide, by decide, by decide⟩, rfl, rfl, by decide, rfl, rfl, rfl⟩
  obtain ⟨tr1, tr2, db2, root, tr3, b, c1, c2, c3, c4, c5, c6, c7, c8⟩ := hc
  have hst : ∀ x c, Spec.Stored db2 x c → c = b := by
    intro x c h
    rw [c4] at h
    by_cases hx : x = root
    · simp only [Spec.Stored, Db.get, Db.insert, Db.new, hx, FMap.get_set, if_true, Option.some.injEq] at h
      exact h.symm
    · exact absurd h (by simp [Spec.Stored, Db.get, Db.insert, Db.new, hx])
  have hshort : ∀ x c, Spec.Stored db2 x c → c.length < 2 ^ 64 := fun x c h => by rw [hst x c h]; exact c5
  have w1 : Went exK (Trie.new exK) (Db.new false) _ tr1 (Db.new false) := .calls .start c1
  have w3 := Went.calls (Went.commit w1 c2 c3 hshort) c8
  have ht2 : Spec.Shaped tr2.root := by rw [c7]; exact .leaf [6, 1] [5]
  have held : ∀ l v, Spec.HeldAt db2 tr2.root l v → l = [6, 1] := by
    intro l v h
    rw [c7] at h
    exact ((bears_leaf (k := [6, 1])).1 ((heldAt_iff hshort).1 h)).1
  refine ⟨tr3, db2, w3, fun fuel L hr => ?_⟩
  rcases C113_program rfl (fun x b h => by cases h) (C109_wellformed exK).1 (fun e he => by cases he) w3
    (fun x c m h => by rw [hst x c h, c6]; exact fun h => by cases h)
    (fun l v hl => by
      rcases Nat.mod_two_eq_zero_or_one l.length with h0 | h1
      · exact h0
      · rw [held l v ((C113_odd hshort ht2 c8 h1 v).1 hl)]; rfl) hr with h | ⟨_, h, _⟩
  · exact .inl h
  · exact .inr ⟨h _ _ rfl, h _ _ rfl⟩

/-- The bytes of a leaf for the key 61. -/
def oneLeafBytes : Bytes := [0xc4, 0x82, 0x20, 0x61, 0x05]

set_option maxRecDepth 20000 in
/-- A database of one leaf is opened, and a key is written: iterating ends, with both. -/
example (x : H256) (hx : x = sevens) : ∃ tr', callAll ((Db.new false).insert x oneLeafBytes) (Trie.atRoot x) [.insert [0x62] [9]] = .ok (tr', [true]) ∧
    ∃ (N : Nat) (L : List (Bytes × Bytes)), (∀ fuel, N ≤ fuel → tr'.values fuel ((Db.new false).insert x oneLeafBytes) = .ok L) ∧
      ([0x61], [5]) ∈ L ∧ ([0x62], [9]) ∈ L := by
  have hst : ∀ y c, Spec.Stored ((Db.new false).insert x oneLeafBytes) y c → c = oneLeafBytes := by
    intro y c h
    by_cases hy : y = x
    · simp only [Spec.Stored, Db.get, Db.insert, Db.new, hy, FMap.get_set, if_true, Option.some.injEq] at h
      exact h.symm
    · exact absurd h (by simp [Spec.Stored, Db.get, Db.insert, Db.new, hy])
  have hdec : decodeNode oneLeafBytes = .ok (.leaf [6, 1, 16] [5]) := by rfl
  have hshort : ∀ y c, Spec.Stored ((Db.new false).insert x oneLeafBytes) y c → c.length < 2 ^ 64 := fun y c h => by
    rw [hst y c h]
    decide
  have hf : fetch ((Db.new false).insert x oneLeafBytes) x = .ok (.leaf [6, 1, 16] [5]) := by
    refine fetch_ok ?_ hdec
    simp [Db.get, Db.insert, Db.new]
  have hc : ∃ tr', callAll ((Db.new false).insert x oneLeafBytes) (Trie.atRoot x) [.insert [0x62] [9]] = .ok (tr', [true]) := by
    rw [hx]
    exact ⟨_, rfl⟩
  obtain ⟨tr', hc⟩ := hc
  have g1 : (Trie.atRoot x).get ((Db.new false).insert x oneLeafBytes) [0x61] = .ok (some [5]) := by
    rw [hx]
    rfl
  have g2 : (Trie.atRoot x).get ((Db.new false).insert x oneLeafBytes) [] = .ok none := by
    rw [hx]
    rfl
  refine ⟨tr', hc, ?_⟩
  rcases C113_total hshort (fun y c h => ⟨.leaf [6, 1, 16] [5], by rw [hst y c h]; exact hdec, .leaf _ _⟩) (tr := Trie.atRoot x) (.hash x)
    (fun l v h => by rw [((bears_leaf (k := [6, 1])).1 ((bears_hash hf).1 ((heldAt_iff hshort).1 h))).1]; rfl) hc with ⟨v, h⟩ | ⟨N, L, h1, _, h3⟩
  · have : (Trie.atRoot x).get ((Db.new false).insert x oneLeafBytes) [] = .ok (some v) := h
    rw [g2] at this
    cases this
  · exact ⟨N, L, h1, (h3 _ _).2 g1, (h3 _ _).2 rfl⟩

end Verif.Props
