import Verif.Proofs.PmtCostRun
import Verif.Props.PmtFailedCommit
/-! Property C81: what calls on tries cost. -/

set_option autoImplicit false

namespace Verif.Props
open Verif Verif.Pmt PmtEx
variable {K : Keccak}

/-- What the calls on a trie for one key read from the database. -/
def Cheap (K : Keccak) (db : Db) (tr : Trie) (k : Bytes) : Prop :=
  Spec.ReadsAtMost (2 * k.length + 1) db (fun d => tr.get d k) ∧
  Spec.ReadsAtMost (2 * k.length + 1) db (fun d => tr.contains d k) ∧
  (∀ v, Spec.ReadsAtMost (2 * k.length + 1) db (fun d => tr.insert d k v)) ∧
  Spec.ReadsAtMost (6 * k.length + 3) db (fun d => tr.remove d k) ∧
  Spec.ReadsAtMost (2 * k.length + 1) db (fun d => tr.getProof K d k) ∧
  ∀ tr' l, tr.getProof K db k = .ok (tr', .ok l) → l.length ≤ 2 * k.length + 2

/-- **C81.** However many keys a trie holds, what a call for a key of `n` bytes does to it and returns depends on few entries of the database: at most
`2n + 1` for `get`, `contains`, `insert` and `get_proof`, and `6n + 3` for `remove`; a proof has at most `2n + 2` nodes. This is for every trie of every
program on an archive database, or else two different stored byte strings have the same hash. -/
theorem C81_calls_read_little {ops : List Op} (hfit : ∀ op ∈ ops, Spec.Fits op) {s : Sys} {rs : List Ret} (hrun : (Sys.new false).run K ops = .ok (s, rs)) :
    Spec.Collision K s.db.log ∨ ∀ tr ∈ s.tries, ∀ k, Cheap K s.db tr k := by
  rcases collision_or K s.db.log with hc | hc
  · exact .inl hc
  · refine .inr fun tr ht k => ?_
    have hs : SysInv K False s (Spec.run ops) := SysInv.new.run hfit False.elim hrun hc
    obtain ⟨i, hi⟩ := List.mem_iff_getElem?.1 ht
    obtain ⟨m, hm, h0, t, h1, h2, -⟩ := hs.tries.some hi
    have hR := hs.db.reads hc
    have hF : Fetches K s.db := fetches_of hs.db.sound hs.db.encs
    exact ⟨Trie.get_reads hR h2 h1 k, Trie.contains_reads hR h2 h1 k, fun v => (Trie.insert_cost hR hF h2 h1 k v).1, (Trie.remove_cost hR hF h2 h1 k).1,
      (Trie.proof_cost hR h2 h1 k).1, fun tr' l h => ((Trie.proof_cost hR h2 h1 k).2 tr' _ h).2.2.2 l rfl⟩

/-- **C81.** A commit writes and removes few nodes: at most `kept + changed + 1` and `passed`, where since the last commit of the trie every insertion of
a key of `n` bytes adds `2n + 4` to `changed` and `2n + 1` to `passed`, every removal adds `4n + 2` and `6n + 3`, and every proof adds what has changed to
`kept`. This is for every trie of every program on an archive database, or else two different stored byte strings have the same hash. -/
theorem C81_commit_writes_little {ops : List Op} (hfit : ∀ op ∈ ops, Spec.Fits op) {s : Sys} {rs : List Ret}
    (hrun : (Sys.new false).run K ops = .ok (s, rs)) :
    Spec.Collision K s.db.log ∨ ∀ (i : Nat) (tr : Trie), s.tries[i]? = some tr →
      ∃ tr' db' h batch gone, tr.commit K s.db = .ok (tr', db', .ok h) ∧ db' = (s.db.insertBatch batch).removeBatch gone ∧
        batch.length ≤ (Spec.meter i ops).kept + (Spec.meter i ops).changed + 1 ∧ gone.length ≤ (Spec.meter i ops).passed := by
  rcases collision_or K s.db.log with hc | hc
  · exact .inl hc
  · refine .inr fun i tr hi => ?_
    have hs : SysInv K False s (Spec.run ops) := SysInv.new.run hfit False.elim hrun hc
    obtain ⟨m, hm, hinv⟩ := hs.tries.some hi
    obtain ⟨tr', db', t, e, -⟩ := Trie.commit_ok hs.db hinv
    obtain ⟨-, -, -, batch, gone, h1, h2, h3⟩ := Trie.commit_cost e
    obtain ⟨g1, g2, g3⟩ : Metered K tr (Spec.meter i ops) := AllMetered.run (P := False) SysInv.new metered_none hfit False.elim hrun hc i tr hi
    exact ⟨tr', db', _, batch, gone, e, h1, h2.trans (by omega), h3.trans g3⟩

/-- **C81.** In particular, whatever a program does before a commit, the commit after one insertion writes at most `2n + 5` nodes and removes at most
`2n + 1`, and the one after one removal `4n + 3` and `6n + 3`. -/
theorem C81_one_update {ops : List Op} {i : Nat} {k v : Bytes} {op : Op} (hop : op = .insert i k v ∧ v ≠ [] ∨ op = .remove i k)
    (hfit : ∀ op' ∈ ops ++ [.commit i, op], Spec.Fits op') {s : Sys} {rs : List Ret} (hrun : (Sys.new false).run K (ops ++ [.commit i, op]) = .ok (s, rs)) :
    Spec.Collision K s.db.log ∨ ∀ tr, s.tries[i]? = some tr →
      ∃ tr' db' h batch gone, tr.commit K s.db = .ok (tr', db', .ok h) ∧ db' = (s.db.insertBatch batch).removeBatch gone ∧
        (op = .insert i k v → batch.length ≤ 2 * k.length + 5 ∧ gone.length ≤ 2 * k.length + 1) ∧
        (op = .remove i k → batch.length ≤ 4 * k.length + 3 ∧ gone.length ≤ 6 * k.length + 3) := by
  rcases C81_commit_writes_little hfit hrun with h | h
  · exact .inl h
  · refine .inr fun tr hi => ?_
    obtain ⟨tr', db', x, batch, gone, h1, h2, h3, h4⟩ := h i tr hi
    have hm : Spec.meter i (ops ++ [.commit i, op]) = Spec.Meter.zero.step i op := by
      unfold Spec.meter
      rw [List.foldl_append]
      simp only [List.foldl_cons, List.foldl_nil]
      congr 1
      exact if_pos rfl
    rw [hm] at h3 h4
    refine ⟨tr', db', x, batch, gone, h1, h2, fun e => ?_, fun e => ?_⟩
    · rcases hop with ⟨rfl, hv⟩ | rfl
      · simp only [Spec.Meter.step, hv, ne_eq, not_false_eq_true, and_true, if_true, Spec.Meter.zero, Nat.zero_add] at h3 h4
        exact ⟨h3, h4⟩
      · cases e
    · rcases hop with ⟨rfl, hv⟩ | rfl
      · cases e
      · simp only [Spec.Meter.step, if_true, Spec.Meter.zero, Nat.zero_add] at h3 h4
        exact ⟨h3, h4⟩

/-- **C81 (pruning).** The same on a pruning database, for the programs of C41 (one trie; removals of present keys that are a proper prefix of no present
key or at which other entries part; commits at which the map does not go on in the same way at two places); other programs may panic on it. -/
theorem C81_pruning {ops : List Op} (hfit : ∀ op ∈ ops, Spec.Fits op) (hg : Spec.GentleFrom (Spec.run [.new]) ops) :
    (∃ s rs tr, (Sys.new true).run K (.new :: ops) = .ok (s, rs) ∧ s.tries = [tr] ∧ (∀ k, Cheap K s.db tr k) ∧
      ∀ tr' db' x, tr.commit K s.db = .ok (tr', db', x) → ∃ batch gone, db' = (s.db.insertBatch batch).removeBatch gone ∧
        batch.length ≤ (Spec.meter 0 ops).kept + (Spec.meter 0 ops).changed + 1 ∧ gone.length ≤ (Spec.meter 0 ops).passed) ∨
    ∃ pre s rs, pre <+: ops ∧ (Sys.new false).run K (.new :: pre) = .ok (s, rs) ∧ Spec.Collision K s.db.log := by
  have hrun : ∀ (light : Bool) (ops : List Op) (s : Sys) (rs : List Ret), ({ Sys.new light with tries := [Trie.new K] } : Sys).run K ops = .ok (s, rs) →
      (Sys.new light).run K (.new :: ops) = .ok (s, .done :: rs) := by
    intro light ops s rs h
    have e : (Sys.new light).step K .new = .ok ({ Sys.new light with tries := [Trie.new K] }, .done) := rfl
    unfold Sys.run
    rw [e]
    simp only [h]
  rcases (Twin.new (P := False)).total hfit hg False.elim (fun a ha => by cases ha) with ⟨sl, sa, rs, h1, h2, h3, -⟩ | ⟨pre, s, rs, h1, h2, h3⟩
  · obtain ⟨tr, m, g1, g2, g3⟩ := h3.one
    obtain ⟨t, L, a1, a2, a3, -⟩ := g3
    rcases collision_or K sa.db.log with hc | hc
    · exact .inr ⟨ops, sa, _, List.prefix_refl _, hrun _ _ _ _ h2, hc⟩
    · have hR := reads_has (K := K) sl.db
      have hF : Fetches K sl.db := fetches_of h3.holed.sound h3.holed.encs
      have hr : RepRoot K (Has K sl.db) tr.root t := .node a1
      refine .inl ⟨sl, .done :: rs, tr, hrun _ _ _ _ h1, by rw [h3.tries, g1], fun k => ?_, fun tr' db' x hx => ?_⟩
      · exact ⟨Trie.get_reads hR a3 hr k, Trie.contains_reads hR a3 hr k, fun v => (Trie.insert_cost hR hF a3 hr k v).1, (Trie.remove_cost hR hF a3 hr k).1,
          (Trie.proof_cost hR a3 hr k).1, fun tr' l h => ((Trie.proof_cost hR a3 hr k).2 tr' _ h).2.2.2 l rfl⟩
      · have hm : Metered K tr (Spec.meter 0 ops) := AllMetered.run (P := False) SysInv.new metered_none (ops := .new :: ops) (by
          intro op hop
          rcases List.mem_cons.1 hop with rfl | hop
          · trivial
          · exact hfit op hop) False.elim (hrun _ _ _ _ h2) hc 0 tr (by rw [g1]; rfl)
        obtain ⟨b1, b2, b3⟩ := hm
        obtain ⟨-, -, -, batch, gone, c1, c2, c3⟩ := Trie.commit_cost hx
        exact ⟨batch, gone, c1, by omega, c3.trans b3⟩
  · exact .inr ⟨pre, s, .done :: rs, h1, hrun _ _ _ _ h2, not_noClash h3⟩

/-! ### Examples -/

/-- Eight keys and a commit, then changes of two of them with a proof in between. -/
def costOps : List Op :=
  [.new, .insert 0 [0x12, 0x34] (long 1), .insert 0 [0x12, 0x35] (long 2), .insert 0 [0x12, 0x45] (long 3), .insert 0 [0x22, 0x45] (long 4),
   .insert 0 [0x23, 0x45] (long 5), .insert 0 [0x33, 0x45] (long 6), .insert 0 [0x34, 0x45] (long 7), .insert 0 [0x44, 0x45] (long 8), .commit 0,
   .insert 0 [0x12, 0x34] (long 9), .proof 0 [0x33, 0x45], .remove 0 [0x34, 0x45]]

theorem costOps_fits : ∀ op ∈ costOps, Spec.Fits op := by
  intro op hop
  simp only [costOps, List.mem_cons, List.not_mem_nil, or_false] at hop
  rcases hop with rfl | rfl | rfl | rfl | rfl | rfl | rfl | rfl | rfl | rfl | rfl | rfl | rfl <;> simp [Spec.Fits, long]

/-- The meter allows 27 nodes to be written and 20 to be removed; 6 new ones are written, and 7 have been passed. -/
example : Spec.meter 0 costOps = ⟨18, 8, 20⟩ ∧ ¬ Spec.Collision exK (result false costOps).1.db.log ∧
    (result false (costOps ++ [.commit 0])).1.db.len = (result false costOps).1.db.len + 6 ∧
    (handle false costOps 0).passingKeys.length = 7 := ⟨rfl, by decide +kernel, by decide +kernel, by decide +kernel⟩

/-- The theorems apply to it. -/
example : ∃ tr' db' h batch gone, (handle false costOps 0).commit exK (result false costOps).1.db = .ok (tr', db', .ok h) ∧
    db' = ((result false costOps).1.db.insertBatch batch).removeBatch gone ∧ batch.length ≤ 27 ∧ gone.length ≤ 20 := by
  rcases C81_commit_writes_little costOps_fits (result_eq (by decide +kernel)) with h | h
  · exact absurd h (by decide +kernel)
  · exact h 0 _ (handle_eq (by decide +kernel))

example : Cheap exK (result false costOps).1.db (handle false costOps 0) [0x12, 0x34] := by
  rcases C81_calls_read_little costOps_fits (result_eq (by decide +kernel)) with h | h
  · exact absurd h (by decide +kernel)
  · exact h _ (List.mem_of_getElem? (handle_eq (i := 0) (by decide +kernel))) _

/-- A call does depend on the database: without its entries the value is not found. -/
example : ((handle false costOps 0).get (result false costOps).1.db [0x22, 0x45]).toOption = some (some (long 4)) ∧
    ((handle false costOps 0).get (Db.new false) [0x22, 0x45]).toOption.isSome = false := ⟨by decide +kernel, by decide +kernel⟩

example : Spec.GentleFrom (Spec.run [.new]) pruneOps ∧ (∀ op ∈ pruneOps, Spec.Fits op) ∧ Spec.meter 0 (pruneOps.take 7) = ⟨18, 18, 20⟩ :=
  ⟨pruneOps_gentle, pruneOps_fits, rfl⟩

end Verif.Props
