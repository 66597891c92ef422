import Verif.Proofs.PmtFault
import Verif.Props.PmtExamples
import Verif.Proofs.PmtLight
import Mathlib.Tactic.SplitIfs
/-! Failing operations of the Patricia trie, and the pruning database: C48, C41. -/

set_option autoImplicit false

namespace Verif.Props
open Verif Verif.Pmt PmtEx

variable {K : Keccak}

/-- A commit keeps what can be read: if `tr'` is committed to `d`, every key that `tr` could read from `d` is read with the same result, and no
key is read with another value than that of the map `m`; or two of the byte strings stored have the same hash. -/
def CommitKeeps (K : Keccak) (tr tr' : Trie) (d : Db) (m : Spec.Map) : Prop :=
  ∃ tr'' d' h, tr'.commit K d = .ok (tr'', d', .ok h) ∧
    (Spec.Collision K d'.log ∨ ∀ k, (∀ v, tr.get d k = .ok v → tr''.get d' k = .ok v) ∧
      (tr''.get d' k = .ok (m k) ∨ tr''.get d' k = .error (.err "MissingTrieNode")))

theorem commitKeeps_of {tr tr' : Trie} {d : Db} {m : Spec.Map} (ha : d.light = false) (hd : Holed K d) (h : HandleInv K False d tr m) (h1 : tr'.root = tr.root)
    (h2 : tr'.cache = tr.cache) : (∃ h msg, tr.root = .hash h ∧ d.get h = none ∧ tr'.commit K d = .error (.panic msg)) ∨ CommitKeeps K tr tr' d m := by
  have h' : HandleInv K False d tr' m := by
    unfold HandleInv HandleQ
    rw [h1, h2]
    exact h
  have hget : ∀ k, tr'.get d k = tr.get d k := fun k => by unfold Trie.get; rw [h1]
  rcases Trie.commit_holed ha hd h' with ⟨x, msg, e1, e2, e3⟩ | ⟨tr'', d', x, e1, e2⟩
  · exact .inl ⟨x, msg, h1 ▸ e1, e2, e3⟩
  · refine .inr ⟨tr'', d', x, e1, ?_⟩
    rcases collision_or K d'.log with hc | hc
    · exact .inl hc
    · exact .inr fun k => ⟨fun v hv => ((e2 hc k).1 v (by rw [hget]; exact hv)).2, (e2 hc k).2⟩

/-- **C48** for `insert` on an archive database. After any program some of the stored nodes are lost (`st` has what is left), and an `insert` on
some trie then fails. `get` gives the same answer for every key as before. Also after a `commit` of the trie, every key that could be read is read
with the same result; keys that could not be read are read right or still cannot be read. Missing from the full statement: a view whose root node
itself is lost, on which `commit` panics (`C48_lost_root_panics`), and the pruning database, for which the claim is false (`C48_light_false`). -/
theorem C48_failed_insert_partial {ops : List Op} (hfit : ∀ op ∈ ops, Spec.Fits op) {s : Sys} {rs : List Ret}
    (hrun : (Sys.new false).run K ops = .ok (s, rs)) {i : Nat} {tr : Trie} {m : Spec.Map} (htr : s.tries[i]? = some tr)
    (hm : (Spec.run ops).maps[i]? = some m) {st : FMap H256 Bytes} (hst : ∀ h b, st.get h = some b → s.db.storage.get h = some b)
    {k v : Bytes} {tr' : Trie} {msg : String} (hfail : tr.insert { s.db with storage := st } k v = .ok (tr', some msg)) :
    (∀ k, tr'.get { s.db with storage := st } k = tr.get { s.db with storage := st } k) ∧
    (Spec.Collision K s.db.log ∨ (∃ h msg, tr.root = .hash h ∧ st.get h = none ∧ tr'.commit K { s.db with storage := st } = .error (.panic msg)) ∨
      CommitKeeps K tr tr' { s.db with storage := st } m) := by
  have hsame : tr'.root = tr.root ∧ tr'.cache = tr.cache := by
    unfold Trie.insert at hfail
    split at hfail
    · cases hfail; exact ⟨rfl, rfl⟩
    · dsimp only at hfail
      split at hfail
      · cases hfail
      · cases hfail; exact ⟨rfl, rfl⟩
      · cases hfail
  refine ⟨fun k => by unfold Trie.get; rw [hsame.1], ?_⟩
  rcases collision_or K s.db.log with hc | hc
  · exact .inl hc
  have g := SysInv.new (K := K) (P := False) |>.run hfit (fun p => p.elim) hrun hc
  exact .inr (commitKeeps_of (d := { s.db with storage := st }) g.db.archive (g.db.holed hst) (g.tries.2 i tr m htr hm) hsame.1 hsame.2)

/-- **C48** for `remove`, with the same limits as `C48_failed_insert_partial`. -/
theorem C48_failed_remove_partial {ops : List Op} (hfit : ∀ op ∈ ops, Spec.Fits op) {s : Sys} {rs : List Ret}
    (hrun : (Sys.new false).run K ops = .ok (s, rs)) {i : Nat} {tr : Trie} {m : Spec.Map} (htr : s.tries[i]? = some tr)
    (hm : (Spec.run ops).maps[i]? = some m) {st : FMap H256 Bytes} (hst : ∀ h b, st.get h = some b → s.db.storage.get h = some b)
    {k : Bytes} {tr' : Trie} {msg : String} (hfail : tr.remove { s.db with storage := st } k = .ok (tr', .error msg)) :
    (∀ k, tr'.get { s.db with storage := st } k = tr.get { s.db with storage := st } k) ∧
    (Spec.Collision K s.db.log ∨ (∃ h msg, tr.root = .hash h ∧ st.get h = none ∧ tr'.commit K { s.db with storage := st } = .error (.panic msg)) ∨
      CommitKeeps K tr tr' { s.db with storage := st } m) := by
  have hsame : tr'.root = tr.root ∧ tr'.cache = tr.cache := by
    unfold Trie.remove at hfail
    dsimp only at hfail
    split at hfail
    · cases hfail
    · cases hfail; exact ⟨rfl, rfl⟩
    · cases hfail
  refine ⟨fun k => by unfold Trie.get; rw [hsame.1], ?_⟩
  rcases collision_or K s.db.log with hc | hc
  · exact .inl hc
  have g := SysInv.new (K := K) (P := False) |>.run hfit (fun p => p.elim) hrun hc
  exact .inr (commitKeeps_of (d := { s.db with storage := st }) g.db.archive (g.db.holed hst) (g.tries.2 i tr m htr hm) hsame.1 hsame.2)

/-- Three long leaves, two of them below an extension and a branch. -/
def faultOps : List Op :=
  [.new, .insert 0 [0x12, 0x34] (long 1), .insert 0 [0x12, 0x44] (long 2), .insert 0 [0x22, 0x34] (long 3), .commit 0, .insert 0 [0x22] [7]]

theorem faultOps_run (light : Bool) : (Sys.new light).run exK faultOps = .ok ((result light faultOps).1, (result light faultOps).2) :=
  result_eq (by cases light <;> decide +kernel)

theorem faultOps_fits : ∀ op ∈ faultOps, Spec.Fits op := by
  intro op hop
  simp only [faultOps, List.mem_cons, List.not_mem_nil, or_false] at hop
  rcases hop with rfl | rfl | rfl | rfl | rfl | rfl <;> simp [Spec.Fits, long]

/-- The hash of the leaf of the first key. -/
def lost : H256 := exK ([0xe3, 0x34, 0xa1] ++ long 1)

/-- The database without the leaf of the first key. -/
def lossy (light : Bool) : Db := { (result light faultOps).1.db with storage := (result light faultOps).1.db.storage.erase lost }

/-- The trie after the insertion for the first key, which fails. -/
def failed (light : Bool) : Trie :=
  (((handle light faultOps 0).insert (lossy light) [0x12, 0x34] [5]).toOption.getD (Trie.new exK, none)).1

theorem failed_eq (light : Bool) :
    (handle light faultOps 0).insert (lossy light) [0x12, 0x34] [5] = .ok (failed light, some "MissingTrieNode") := by
  have h : (((handle light faultOps 0).insert (lossy light) [0x12, 0x34] [5]).toOption.map Prod.snd) = some (some "MissingTrieNode") := by
    cases light <;> decide +kernel
  unfold failed
  generalize (handle light faultOps 0).insert (lossy light) [0x12, 0x34] [5] = x at *
  rcases x with e | ⟨a, b⟩
  · cases h
  · have h2 : b = some "MissingTrieNode" := Option.some.inj h
    rw [h2]
    rfl

/-- The hypotheses of the theorem are met. -/
example : CommitKeeps exK (handle false faultOps 0) (failed false) (lossy false) (mapOf faultOps 0) := by
  have h := (C48_failed_insert_partial (i := 0) (m := mapOf faultOps 0) (st := (result false faultOps).1.db.storage.erase lost) faultOps_fits
    (faultOps_run false) (handle_eq (light := false) (ops := faultOps) (i := 0) (by decide +kernel)) (mapOf_eq (by decide)) (by
      intro h b hb
      rw [FMap.get_erase] at hb
      split at hb
      · cases hb
      · exact hb) (failed_eq false)).2
  rcases h with h | ⟨x, msg, h, -⟩ | h
  · exact absurd h (by decide +kernel)
  · have : (match (handle false faultOps 0).root with | .hash _ => true | _ => false) = false := by decide +kernel
    rw [h] at this
    cases this
  · exact h

/-- A `get` that finds a node missing. -/
def isMissing (x : Res (Option Bytes)) : Bool :=
  match x with
  | .error (.err m) => m = "MissingTrieNode"
  | _ => false

/-- **C48 is false** on the pruning database: an insertion fails since a node is missing, and after a commit another key, which could be read
before, cannot be read any more. The commit has deleted the nodes that the failed insertion had passed. -/
theorem C48_light_false : ((handle true faultOps 0).get (lossy true) [0x12, 0x44]).toOption = some (some (long 2)) ∧
    (handle true faultOps 0).insert (lossy true) [0x12, 0x34] [5] = .ok (failed true, some "MissingTrieNode") ∧
    (((failed true).commit exK (lossy true)).toOption.map (fun x => isMissing (x.1.get x.2.1 [0x12, 0x44]))) = some true :=
  ⟨by decide +kernel, failed_eq true, by decide +kernel⟩

/-- **C48**, a view whose root node is lost: every `insert` of a value and every `remove` fails, and a `commit` then panics. -/
theorem C48_lost_root_panics (K : Keccak) (d : Db) (h : H256) (hd : d.get h = none) (k v : Bytes) (hv : v ≠ []) :
    (∃ tr msg, (Trie.atRoot h).insert d k v = .ok (tr, some msg) ∧ ∃ msg', tr.commit K d = .error (.panic msg')) ∧
    (∃ tr msg, (Trie.atRoot h).remove d k = .ok (tr, .error msg) ∧ ∃ msg', tr.commit K d = .error (.panic msg')) := by
  have hr : recover d h = .ok none := by unfold recover; rw [hd]
  have hf : fetch d h = missing := by unfold fetch; rw [hr]
  obtain ⟨n, hn⟩ : ∃ n, hops d (Trie.path k) = n + 1 := ⟨hops d (Trie.path k) - 1, by
    have := hops_ge (db := d) (nibsOf k)
    rw [← path_eq] at this
    omega⟩
  have hc : ∀ l : List H256, ∃ msg, ({ Trie.atRoot h with passingKeys := l } : Trie).commit K d = .error (.panic msg) := by
    intro l
    have hw : ({ Trie.atRoot h with passingKeys := l } : Trie).writeRoot K = .ok ({ Trie.atRoot h with passingKeys := l }, h) := rfl
    unfold Trie.commit
    rw [hw]
    simp only [Res.ok_bind]
    have e : recover ((d.insertBatch ({ Trie.atRoot h with passingKeys := l } : Trie).cache).removeBatch
        (l.filter (fun k => !(({ Trie.atRoot h with passingKeys := l } : Trie).genKeys.contains k)))) h = .ok none := by
      unfold recover
      rw [removeBatch_none _ (d := d.insertBatch ({ Trie.atRoot h with passingKeys := l } : Trie).cache) hd]
    rw [e]
    exact ⟨_, rfl⟩
  constructor
  · have e : insertAt d v (hops d (Trie.path k)) (.hash h) (Trie.path k) = ([h], missing) := by
      rw [hn, insertAt_hash, hf]
      rfl
    refine ⟨{ Trie.atRoot h with passingKeys := [h] }, "MissingTrieNode", ?_, hc _⟩
    unfold Trie.insert
    rw [if_neg (by simpa using hv)]
    dsimp only [Trie.atRoot]
    rw [e]
    rfl
  · have e : deleteAt d (hops d (Trie.path k)) (.hash h) (Trie.path k) = ([h], missing) := by
      rw [hn, deleteAt_hash, hf]
      rfl
    refine ⟨{ Trie.atRoot h with passingKeys := [h] }, "MissingTrieNode", ?_, hc _⟩
    unfold Trie.remove
    dsimp only [Trie.atRoot]
    rw [e]
    rfl

/-- The hypotheses are met: the lost leaf as a root. -/
example : (lossy false).get lost = none := by decide +kernel

/-! ### The pruning database -/

/-- Two keys, a commit, the removal of a third key that is absent, another commit. -/
def pruneAbsent : List Op :=
  [.new, .insert 0 [0x12, 0x34] (long 1), .insert 0 [0x22, 0x34] (long 2), .commit 0, .remove 0 [0x12, 0x35], .commit 0]

/-- **C41 is false**: removing an absent key (which reports that nothing was removed) and committing makes a key that is present unreadable. -/
theorem C41_absent_removal_false : (Sys.new true).run exK pruneAbsent = .ok ((result true pruneAbsent).1, (result true pruneAbsent).2) ∧
    mapOf pruneAbsent 0 [0x12, 0x34] = some (long 1) ∧
    isMissing ((handle true pruneAbsent 0).get (result true pruneAbsent).1.db [0x12, 0x34]) = true ∧
    ¬ Spec.Collision exK (result true pruneAbsent).1.db.log :=
  ⟨result_eq (by decide +kernel), by decide +kernel, by decide +kernel, by decide +kernel⟩

/-- Two keys with the same value, a commit, another value for one of them, another commit. -/
def pruneShared : List Op :=
  [.new, .insert 0 [0x12, 0x34] (long 1), .insert 0 [0x22, 0x34] (long 1), .commit 0, .insert 0 [0x12, 0x34] [7], .commit 0]

/-- **C41 is false**: two keys share a stored leaf; changing the value of one of them and committing makes the other one unreadable. -/
theorem C41_shared_leaf_false : (Sys.new true).run exK pruneShared = .ok ((result true pruneShared).1, (result true pruneShared).2) ∧
    mapOf pruneShared 0 [0x22, 0x34] = some (long 1) ∧
    isMissing ((handle true pruneShared 0).get (result true pruneShared).1.db [0x22, 0x34]) = true ∧
    ¬ Spec.Collision exK (result true pruneShared).1.db.log :=
  ⟨result_eq (by decide +kernel), by decide +kernel, by decide +kernel, by decide +kernel⟩

/-- The map of this program has twins when it is committed first: the leaves of the two keys. -/
example : Spec.Twins (mapOf (pruneShared.take 3) 0) := by
  have e : ∀ k, mapOf (pruneShared.take 3) 0 k = if k = [0x22, 0x34] then some (long 1) else if k = [0x12, 0x34] then some (long 1) else none := fun k => rfl
  have h1 : Spec.Entry (mapOf (pruneShared.take 3) 0) [1, 2, 3, 4] (long 1) := ⟨[0x12, 0x34], by decide, rfl⟩
  have h2 : Spec.Entry (mapOf (pruneShared.take 3) 0) [2, 2, 3, 4] (long 1) := ⟨[0x22, 0x34], by decide, rfl⟩
  have hj : Spec.Junction (mapOf (pruneShared.take 3) 0) [] := ⟨_, _, _, _, by decide, h1, h2⟩
  refine ⟨[1], [2], by decide, .inr ⟨[], 1, rfl, hj⟩, .inr ⟨[], 2, rfl, hj⟩, .inr ⟨[2, 3, 4], long 1, h1, by decide⟩, fun x v => ?_⟩
  constructor
  · rintro ⟨k, hk, hv⟩
    rw [e] at hv
    split_ifs at hv with g1 g2
    · subst g1
      exact absurd (List.cons.inj hk).1 (by decide)
    · subst g2
      cases hv
      have hx : x = [2, 3, 4] := (List.cons.inj hk).2.symm
      exact ⟨[0x22, 0x34], by rw [hx]; decide, rfl⟩
  · rintro ⟨k, hk, hv⟩
    rw [e] at hv
    split_ifs at hv with g1 g2
    · subst g1
      cases hv
      have hx : x = [2, 3, 4] := (List.cons.inj hk).2.symm
      exact ⟨[0x12, 0x34], by rw [hx]; decide, rfl⟩
    · subst g2
      exact absurd (List.cons.inj hk).1 (by decide)

/-- A path that many bytes follow. -/
def tail20 : Bytes := List.replicate 20 0x33

/-- Two keys, each with one that extends it; first the shorter, then the longer one is removed of each pair. A commit, then one of the removed keys is
inserted again, another commit, and then the other one is inserted again. -/
def pruneGhosts : List Op :=
  [.new, .insert 0 (0x11 :: tail20) [5], .insert 0 (0x11 :: tail20 ++ [1]) [6], .insert 0 (0x21 :: tail20) [7], .insert 0 (0x21 :: tail20 ++ [1]) [8],
   .insert 0 [0x44] [9],
   .remove 0 (0x11 :: tail20), .remove 0 (0x11 :: tail20 ++ [1]), .remove 0 (0x21 :: tail20), .remove 0 (0x21 :: tail20 ++ [1]), .commit 0,
   .insert 0 (0x11 :: tail20) [5], .commit 0, .insert 0 (0x21 :: tail20) [7]]

/-- Whether a removal is of a present key. -/
def presentRemoval (before : List Op) : Op → Bool
  | .remove i k => (mapOf before i k).isSome
  | _ => true

/-- The messages of the calls that failed. -/
def messages (rs : List Ret) : List String := rs.filterMap fun r => match r with | .failed m => some m | _ => none

/-- **C41 is false** also if only present keys are removed and all values are different: what is left of the two pairs of keys are two equal nodes without
any value, which are stored once; when one of them is changed the other one is deleted, so that an insertion fails which succeeds on an archive database. -/
theorem C41_removed_prefix_false : (Sys.new true).run exK pruneGhosts = .ok ((result true pruneGhosts).1, (result true pruneGhosts).2) ∧
    (∀ n, ∀ h : n < pruneGhosts.length, presentRemoval (pruneGhosts.take n) pruneGhosts[n] = true) ∧
    (∀ n, pruneGhosts[n]? = some (.commit 0) → ∀ a b, (mapOf (pruneGhosts.take n) 0 a).isSome → mapOf (pruneGhosts.take n) 0 a = mapOf (pruneGhosts.take n) 0 b → a = b) ∧
    messages (result false pruneGhosts).2 = [] ∧ messages (result true pruneGhosts).2 = ["MissingTrieNode"] ∧
    ¬ Spec.Collision exK (result false pruneGhosts).1.db.log := by
  refine ⟨result_eq (by decide +kernel), by decide +kernel, ?_, by decide +kernel, by decide +kernel, by decide +kernel⟩
  intro n hn
  have hlt : n < 14 := (List.getElem?_eq_some_iff.1 hn).1
  have hn' : n = 10 ∨ n = 12 := by
    match n, hlt with
    | 0, _ | 1, _ | 2, _ | 3, _ | 4, _ | 5, _ | 6, _ | 7, _ | 8, _ | 9, _ | 11, _ | 13, _ => cases hn
    | 10, _ => exact .inl rfl
    | 12, _ => exact .inr rfl
  have h1 : ∀ a, mapOf (pruneGhosts.take 10) 0 a = if a = [0x44] then some [9] else none := by
    intro a
    simp only [mapOf, Spec.run, pruneGhosts, List.take_succ_cons, List.take_zero, Spec.step, Spec.State.update, List.foldl_cons, List.foldl_nil,
      List.nil_append, List.getElem?_cons_zero, List.set_cons_zero, Option.getD_some, reduceCtorEq, if_false, Spec.Map.set]
    split_ifs <;> simp_all [tail20]
  have h2 : ∀ a, mapOf (pruneGhosts.take 12) 0 a = if a = 0x11 :: tail20 then some [5] else if a = [0x44] then some [9] else none := by
    intro a
    simp only [mapOf, Spec.run, pruneGhosts, List.take_succ_cons, List.take_zero, Spec.step, Spec.State.update, List.foldl_cons, List.foldl_nil,
      List.nil_append, List.getElem?_cons_zero, List.set_cons_zero, Option.getD_some, reduceCtorEq, if_false, Spec.Map.set]
    split_ifs <;> simp_all [tail20]
  rcases hn' with rfl | rfl
  · intro a b
    rw [h1, h1]
    split_ifs <;> simp_all
  · intro a b
    rw [h2, h2]
    split_ifs <;> simp_all

/-- **C41 (partial).** A program on one trie whose removals are of present keys that are a proper prefix of no present key or at which other entries
part, and at whose commits the map does not go on in the same way at two places (`Spec.Twins`), works on a pruning database: no call panics, every call returns the same as on an archive database, and
afterwards every key gives the value of the map the trie stands for; or else, after some of the calls on the archive database, two different
stored byte strings have the same hash. Missing: programs that remove absent keys, keep equal parts that are stored once, or remove a key all of whose
proper extensions that are present go on with the same half byte, for all of which the claim is false (`C41_absent_removal_false`, `C41_shared_leaf_false`, `C41_removed_prefix_false`). -/
theorem C41_pruning_safe_partial {ops : List Op} (hfit : ∀ op ∈ ops, Spec.Fits op) (hg : Spec.GentleFrom (Spec.run [.new]) ops) :
    (∃ sl sa rs tr m, (Sys.new true).run K (.new :: ops) = .ok (sl, rs) ∧ (Sys.new false).run K (.new :: ops) = .ok (sa, rs) ∧
      Spec.AnswersFrom ⟨[], []⟩ (.new :: ops) rs ∧ sl.tries = [tr] ∧ (Spec.run (.new :: ops)).maps = [m] ∧
      ∀ k, tr.get sl.db k = .ok (m k) ∧ tr.contains sl.db k = .ok (m k).isSome) ∨
    ∃ pre s rs, pre <+: ops ∧ (Sys.new false).run K (.new :: pre) = .ok (s, rs) ∧ Spec.Collision K s.db.log := by
  have hrun : ∀ (light : Bool) (ops : List Op) (s : Sys) (rs : List Ret), ({ Sys.new light with tries := [Trie.new K] } : Sys).run K ops = .ok (s, rs) →
      (Sys.new light).run K (.new :: ops) = .ok (s, .done :: rs) := by
    intro light ops s rs h
    have e : (Sys.new light).step K .new = .ok ({ Sys.new light with tries := [Trie.new K] }, .done) := rfl
    unfold Sys.run
    rw [e]
    simp only [h]
  rcases (Twin.new (P := False)).total hfit hg False.elim (fun a ha => by cases ha) with ⟨sl, sa, rs, h1, h2, h3, h4⟩ | ⟨pre, s, rs, h1, h2, h3⟩
  · obtain ⟨tr, m, g1, g2, g3⟩ := h3.one
    refine .inl ⟨sl, sa, .done :: rs, tr, m, hrun _ _ _ _ h1, hrun _ _ _ _ h2, ⟨.done, rs, rfl, rfl, h4⟩, by rw [h3.tries, g1], g2, fun k => ⟨g3.get k, ?_⟩⟩
    have := g3.get k
    unfold Trie.get at this
    unfold Trie.contains
    rw [this]
    rfl
  · exact .inr ⟨pre, s, .done :: rs, h1, hrun _ _ _ _ h2, not_noClash h3⟩

/-- Three keys, a commit, a removal that makes the trie collapse, a change, a proof, and another commit. -/
def pruneOps : List Op :=
  [.insert 0 [0x12, 0x34] (long 1), .insert 0 [0x12, 0x44] (long 2), .insert 0 [0x22, 0x34] (long 3), .commit 0, .remove 0 [0x12, 0x44],
   .insert 0 [0x22, 0x34] (long 4), .proof 0 [0x12, 0x34], .commit 0]

theorem result_of {light : Bool} {ops : List Op} {s : Sys} {rs : List Ret} (h : (Sys.new light).run exK ops = .ok (s, rs)) :
    result light ops = (s, rs) := by
  unfold result
  rw [h]
  rfl

theorem long_ne (a : UInt8) : long a ≠ [] := fun h => by cases h

theorem long_inj {a b : UInt8} : long a = long b ↔ a = b := ⟨fun h => (List.cons.inj h).1, fun h => by rw [h]⟩

theorem pruneOps_gentle : Spec.GentleFrom (Spec.run [.new]) pruneOps := by
  refine ⟨rfl, rfl, rfl, ⟨rfl, ?_⟩, ⟨rfl, ?_⟩, rfl, rfl, ⟨rfl, ?_⟩, trivial⟩
  · intro m hm
    cases hm
    refine noTwins_of_distinct fun a b ha hab => ?_
    revert ha hab
    simp only [long_ne, if_false, Spec.Map.set]
    split_ifs <;> simp_all [long_inj]
  · intro m hm
    cases hm
    refine ⟨rfl, .inr (.inl ?_)⟩
    rintro k ⟨x, hx, rfl⟩
    simp [Spec.Map.set, long, hx]
  · intro m hm
    cases hm
    refine noTwins_of_distinct fun a b ha hab => ?_
    revert ha hab
    simp only [long_ne, if_false, Spec.Map.set]
    split_ifs <;> simp_all [long_inj]

/-- A program that removes a stored prefix of two keys that part at it, which leaves a branch, then one of the two keys, which dissolves the branch, and
then the other one. -/
def pruneParted : List Op :=
  [.insert 0 [0x12] (long 1), .insert 0 [0x12, 0x44] (long 2), .insert 0 [0x12, 0x54] (long 3), .insert 0 [0x22] (long 4), .commit 0, .remove 0 [0x12],
   .commit 0, .remove 0 [0x12, 0x44], .commit 0, .remove 0 [0x12, 0x54], .commit 0]

theorem pruneParted_gentle : Spec.GentleFrom (Spec.run [.new]) pruneParted := by
  refine ⟨rfl, rfl, rfl, rfl, ⟨rfl, ?_⟩, ⟨rfl, ?_⟩, ⟨rfl, ?_⟩, ⟨rfl, ?_⟩, ⟨rfl, ?_⟩, ⟨rfl, ?_⟩, ⟨rfl, ?_⟩, trivial⟩
  · intro m hm
    cases hm
    refine noTwins_of_distinct fun a b ha hab => ?_
    revert ha hab
    simp only [long_ne, if_false, Spec.Map.set]
    split_ifs <;> simp_all [long_inj]
  · intro m hm
    cases hm
    exact ⟨rfl, .inr (.inr ⟨0x44, 0x54, [], [], by decide, rfl, rfl⟩)⟩
  · intro m hm
    cases hm
    refine noTwins_of_distinct fun a b ha hab => ?_
    revert ha hab
    simp only [long_ne, if_false, Spec.Map.set]
    split_ifs <;> simp_all [long_inj]
  · intro m hm
    cases hm
    refine ⟨rfl, .inr (.inl ?_)⟩
    rintro k ⟨x, hx, rfl⟩
    simp [Spec.Map.set, long, hx]
  · intro m hm
    cases hm
    refine noTwins_of_distinct fun a b ha hab => ?_
    revert ha hab
    simp only [long_ne, if_false, Spec.Map.set]
    split_ifs <;> simp_all [long_inj]
  · intro m hm
    cases hm
    refine ⟨rfl, .inr (.inl ?_)⟩
    rintro k ⟨x, hx, rfl⟩
    simp [Spec.Map.set, long, hx]
  · intro m hm
    cases hm
    refine noTwins_of_distinct fun a b ha hab => ?_
    revert ha hab
    simp only [long_ne, if_false, Spec.Map.set]
    split_ifs <;> simp_all [long_inj]

/-- A program on entries with equal values: two long ones whose keys end differently, and two short ones. -/
def pruneEqual : List Op :=
  [.insert 0 [0x12, 0x34] (long 1), .insert 0 [0x22, 0x35] (long 1), .insert 0 [0x32, 0x36] [7], .insert 0 [0x42, 0x36] [7], .commit 0,
   .insert 0 [0x12, 0x34] (long 2), .remove 0 [0x42, 0x36], .commit 0]

theorem pruneEqual_gentle : Spec.GentleFrom (Spec.run [.new]) pruneEqual := by
  refine ⟨rfl, rfl, rfl, rfl, ⟨rfl, ?_⟩, rfl, ⟨rfl, ?_⟩, ⟨rfl, ?_⟩, trivial⟩
  · intro m hm
    cases hm
    refine noTwins_of_list [[0x42, 0x36], [0x32, 0x36], [0x22, 0x35], [0x12, 0x34]] (fun k hk => ?_) (by decide +kernel)
    revert hk
    simp only [long_ne, if_false, Spec.Map.set, reduceCtorEq]
    split_ifs <;> simp_all
  · intro m hm
    cases hm
    refine ⟨rfl, .inr (.inl ?_)⟩
    rintro k ⟨x, hx, rfl⟩
    simp [Spec.Map.set, long, hx]
  · intro m hm
    cases hm
    refine noTwins_of_list [[0x42, 0x36], [0x32, 0x36], [0x22, 0x35], [0x12, 0x34]] (fun k hk => ?_) (by decide +kernel)
    revert hk
    simp only [long_ne, if_false, Spec.Map.set, reduceCtorEq]
    split_ifs <;> simp_all

/-- It works on a pruning database. -/
example : messages (result true (.new :: pruneEqual)).2 = [] ∧ (result true (.new :: pruneEqual)).1.roots = (result false (.new :: pruneEqual)).1.roots ∧
    (handle true (.new :: pruneEqual) 0).get (result true (.new :: pruneEqual)).1.db [0x22, 0x35] = .ok (some (long 1)) := by
  refine ⟨by decide +kernel, by decide +kernel, by decide +kernel⟩

/-- It works on a pruning database. -/
example : messages (result true (.new :: pruneParted)).2 = [] ∧ (result true (.new :: pruneParted)).1.roots = (result false (.new :: pruneParted)).1.roots ∧
    (handle true (.new :: pruneParted) 0).get (result true (.new :: pruneParted)).1.db [0x22] = .ok (some (long 4)) := by
  refine ⟨by decide +kernel, by decide +kernel, by decide +kernel⟩

example : (handle true (.new :: pruneOps) 0).get (result true (.new :: pruneOps)).1.db [0x22, 0x34] = .ok (some (long 4)) ∧
    0 < ((result false (.new :: pruneOps)).1.db.len - (result true (.new :: pruneOps)).1.db.len) := by
  refine ⟨?_, by decide +kernel⟩
  rcases C41_pruning_safe_partial (K := exK) (ops := pruneOps) (by
      intro op hop
      simp only [pruneOps, List.mem_cons, List.not_mem_nil, or_false] at hop
      rcases hop with rfl | rfl | rfl | rfl | rfl | rfl | rfl | rfl <;> simp [Spec.Fits, long]) pruneOps_gentle with
    ⟨sl, sa, rs, tr, m, h1, -, -, h2, h3, h4⟩ | ⟨pre, s, rs, h1, h2, a, ha, b, hb, hab, hk⟩
  · have h5 : (result true (.new :: pruneOps)).1 = sl := by rw [result_of h1]
    rw [← h5] at h2 h4
    have e2 : handle true (.new :: pruneOps) 0 = tr := by
      unfold handle
      rw [h2]
      rfl
    rw [e2, (h4 _).1]
    have e3 : m = mapOf (.new :: pruneOps) 0 := by
      unfold mapOf
      rw [h3]
      rfl
    rw [e3, show mapOf (.new :: pruneOps) 0 [0x22, 0x34] = some (long 4) by decide +kernel]
  · -- the logs only grow
    exfalso
    obtain ⟨rest, hrest⟩ := h1
    have e := result_eq (light := false) (ops := .new :: pruneOps) (by decide +kernel)
    have hlog : ∀ b ∈ s.db.log, b ∈ (result false (.new :: pruneOps)).1.db.log := by
      rw [← hrest, ← List.cons_append] at e ⊢
      obtain ⟨s1, rs1, rs2, e1, e2⟩ := run_append e
      rw [h2] at e1
      cases e1
      exact Sys.run_log e2
    exact (show ¬ Spec.Collision exK (result false (.new :: pruneOps)).1.db.log by decide +kernel) ⟨a, hlog a ha, b, hlog b hb, hab, hk⟩

end Verif.Props
