import Verif.Proofs.PmtFaultyLight
import Verif.Proofs.PmtIterHoles
import Mathlib.Data.List.Perm.Subperm
import Mathlib.Data.List.Dedup
/-!
How many entries a database has, and what reading does in a larger database.
-/

set_option autoImplicit false

namespace Verif.Pmt

variable {K : Keccak} {d d' : Db}

theorem insertBatch_nodup (l : Written) (h : d.storage.NodupKeys) : (d.insertBatch l).storage.NodupKeys := by
  unfold Db.insertBatch
  induction l generalizing d with
  | nil => exact h
  | cons e t ih =>
    rw [List.foldl_cons]
    exact ih (d := d.insert e.1 e.2) (h.set e.1 e.2)

theorem removeBatch_nodup (l : List H256) (h : d.storage.NodupKeys) : (d.removeBatch l).storage.NodupKeys := by
  unfold Db.removeBatch
  induction l generalizing d with
  | nil => exact h
  | cons e t ih =>
    rw [List.foldl_cons]
    refine ih ?_
    unfold Db.remove
    split
    · exact FMap.NodupKeys.erase h e
    · exact h

theorem Trie.commit_nodup {tr tr' : Trie} {x : Except String H256} (h : tr.commit K d = .ok (tr', d', x)) (hn : d.storage.NodupKeys) :
    d'.storage.NodupKeys := by
  unfold Trie.commit at h
  rcases hw : tr.writeRoot K with e | ⟨tr1, hh⟩
  · rw [hw] at h; cases h
  · rw [hw] at h
    simp only [Res.ok_bind] at h
    have key := removeBatch_nodup (tr1.passingKeys.filter (fun k => !(tr1.genKeys.contains k))) (insertBatch_nodup tr1.cache hn)
    split at h
    · cases h
    · cases h; exact key
    · cases h
    · cases h; exact key

theorem Trie.failCommit_nodup {tr tr' : Trie} {f : Fault} (h : tr.failCommit K d f = .ok (tr', d')) (hn : d.storage.NodupKeys) :
    d'.storage.NodupKeys := by
  unfold Trie.failCommit at h
  rcases hw : tr.writeRoot K with e | ⟨tr1, hh⟩
  · rw [hw] at h; cases h
  · rw [hw] at h
    simp only [Res.ok_bind] at h
    cases f with
    | inserting done => cases h; exact insertBatch_nodup _ hn
    | removing done => cases h; exact removeBatch_nodup _ (insertBatch_nodup _ hn)

/-- What a call does to the database: nothing, unless it is a commit. -/
theorem Sys.step_db {s s' : Sys} {op : Op} {r : Ret} (h : s.step K op = .ok (s', r)) :
    s'.db = s.db ∨ ∃ i tr tr' x, op = .commit i ∧ s.tries[i]? = some tr ∧ tr.commit K s.db = .ok (tr', s'.db, x) := by
  cases op with
  | new => cases h; exact .inl rfl
  | openAt j =>
    simp only [Sys.step] at h
    split at h <;> (cases h; exact .inl rfl)
  | commit i =>
    simp only [Sys.step] at h
    split at h
    · cases h; exact .inl rfl
    · next tr ht =>
      unfold Sys.commit at h
      split at h
      · cases h
      · next e => cases h; exact .inr ⟨i, tr, _, _, rfl, ht, e⟩
      · next e => cases h; exact .inr ⟨i, tr, _, _, rfl, ht, e⟩
  | _ =>
    simp only [Sys.step] at h
    split at h
    · cases h; exact .inl rfl
    · first | unfold Sys.insert at h | unfold Sys.remove at h | unfold Sys.proof at h
      split at h
      · cases h
      · cases h; exact .inl rfl
      · cases h; exact .inl rfl

theorem Sys.step_nodup {s s' : Sys} {op : Op} {r : Ret} (h : s.step K op = .ok (s', r)) (hn : s.db.storage.NodupKeys) : s'.db.storage.NodupKeys := by
  rcases Sys.step_db h with e | ⟨i, tr, tr', x, _, _, e⟩
  · rw [e]; exact hn
  · exact Trie.commit_nodup e hn

theorem Sys.run_nodup {s s' : Sys} {ops : List Op} {rs : List Ret} (h : s.run K ops = .ok (s', rs)) (hn : s.db.storage.NodupKeys) :
    s'.db.storage.NodupKeys := by
  induction ops generalizing s rs with
  | nil => cases h; exact hn
  | cons op t ih =>
    obtain ⟨s1, r, rs', h1, h2, _⟩ := Sys.run_cons h
    exact ih h2 (Sys.step_nodup h1 hn)

theorem Sys.stepF_nodup {s s' : Sys} {op : FOp} {r : Ret} (h : s.stepF K op = .ok (s', r)) (hn : s.db.storage.NodupKeys) : s'.db.storage.NodupKeys := by
  cases op with
  | call op => exact Sys.step_nodup h hn
  | fail i f =>
    simp only [Sys.stepF] at h
    split at h
    · cases h; exact hn
    · split at h
      · cases h
      · next e => cases h; exact Trie.failCommit_nodup e hn

theorem Sys.runF_nodup {s s' : Sys} {ops : List FOp} {rs : List Ret} (h : s.runF K ops = .ok (s', rs)) (hn : s.db.storage.NodupKeys) :
    s'.db.storage.NodupKeys := by
  induction ops generalizing s rs with
  | nil => cases h; exact hn
  | cons op t ih =>
    obtain ⟨s1, r, rs', h1, h2, _⟩ := Sys.runF_cons h
    exact ih h2 (Sys.stepF_nodup h1 hn)

theorem new_nodup (light : Bool) : (Sys.new light).db.storage.NodupKeys := FMap.nodupKeys_empty

theorem get_ne_none {h : H256} : d.get h ≠ none ↔ h ∈ d.storage.entries.map Prod.fst := by
  unfold Db.get
  rw [Ne, FMap.get_eq_none_iff, not_not]

theorem len_le (hn : d.storage.NodupKeys) (h : ∀ x, d.get x ≠ none → d'.get x ≠ none) : d.len ≤ d'.len := by
  have := (List.subperm_of_subset hn (fun x hx => get_ne_none.1 (h x (get_ne_none.2 hx)))).length_le
  simpa [Db.len, FMap.size] using this

/-- Reading goes on to succeed in a larger database. -/
theorem getAt_within (hd : Within d d') (f : Nat) {n : Node} {p : Nibbles} {v : Option Bytes} (h : getAt d f n p = .ok v) : getAt d' f n p = .ok v := by
  have step : ∀ {hop hop' : H256 → Nibbles → Res (Option Bytes)} (hh : ∀ h p v, hop h p = .ok v → hop' h p = .ok v) {n : Node} {p : Nibbles}
      {v : Option Bytes}, getStep hop n p = .ok v → getStep hop' n p = .ok v := by
    intro hop hop' hh n p v h
    induction n generalizing p with
    | empty => exact h
    | leaf k v => exact h
    | ext q n ih =>
      unfold getStep at h ⊢
      split at h
      · next e => rw [if_pos e]; exact ih h
      · next e => rw [if_neg e]; exact h
    | branch cs v ih =>
      unfold getStep at h ⊢
      cases p with
      | nil => exact h
      | cons x t =>
        dsimp only at h ⊢
        by_cases e : x = 16
        · rw [if_pos e] at h ⊢; exact h
        · rw [if_neg e] at h ⊢
          by_cases e' : x < 16
          · rw [dif_pos e'] at h ⊢; exact ih _ h
          · rw [dif_neg e'] at h ⊢; exact h
    | hash x => exact hh x p _ h
  induction f generalizing n p v with
  | zero => exact h
  | succ f ih =>
    refine step (fun x q w e => ?_) h
    cases e1 : fetch d x with
    | error y => rw [e1] at e; cases e
    | ok n =>
      rw [e1] at e
      have e2 : fetch d' x = .ok n := by
        unfold fetch recover at e1 ⊢
        cases hg : d.get x with
        | none => rw [hg] at e1; cases e1
        | some b => rw [hg] at e1; rw [hd _ _ hg]; exact e1
      rw [e2]
      exact ih e

theorem Trie.get_within (hn : d.storage.NodupKeys) (hd : Within d d') {tr : Trie} {k : Bytes} {v : Option Bytes} (h : tr.get d k = .ok v) :
    tr.get d' k = .ok v := by
  have hle : d.len ≤ d'.len := len_le hn fun x hx => by
    cases hg : d.get x with
    | none => exact absurd hg hx
    | some b => rw [hd _ _ hg]; simp
  refine getAt_mono (f := hops d (Trie.path k)) ?_ (getAt_within hd _ h) (fun m h => by cases h)
  exact Nat.mul_le_mul_left _ (by omega)

/-! ### Counting -/

/-- The entries of an archive database are the byte strings stored, by their hashes. -/
theorem DbInv.len (hd : DbInv K d) (hn : d.storage.NodupKeys) (hc : NoClash K d.log) : d.len = d.log.dedup.length := by
  have h1 : (d.log.dedup.map K).Nodup := (List.nodup_dedup _).map_on fun a ha b hb => hc a (List.mem_dedup.1 ha) b (List.mem_dedup.1 hb)
  have h2 : ∀ x, x ∈ d.storage.entries.map Prod.fst ↔ x ∈ d.log.dedup.map K := by
    intro x
    rw [← get_ne_none, List.mem_map]
    constructor
    · intro hx
      cases hg : d.get x with
      | none => exact absurd hg hx
      | some b =>
        obtain ⟨e1, e2⟩ := hd.sound x b hg
        exact ⟨b, List.mem_dedup.2 e2, e1.symm⟩
    · rintro ⟨b, hb, rfl⟩
      have := hd.complete b (List.mem_dedup.1 hb)
      intro hg
      rw [hg] at this
      cases this
  have := ((List.perm_ext_iff_of_nodup hn h1).2 h2).length_eq
  simpa [Db.len, FMap.size] using this

/-- After a commit the database has an entry. -/
theorem Trie.commit_len {tr tr' : Trie} {x : Except String H256} (h : tr.commit K d = .ok (tr', d', x)) : d'.len ≠ 0 := by
  have ne : ∀ {db : Db} {y : H256}, db.get y ≠ none → db.len ≠ 0 := by
    intro db y hy
    have := List.length_pos_of_mem (get_ne_none.1 hy)
    rw [List.length_map] at this
    exact Nat.pos_iff_ne_zero.1 this
  unfold Trie.commit at h
  rcases hw : tr.writeRoot K with e | ⟨tr1, hh⟩
  · rw [hw] at h; cases h
  · rw [hw] at h
    simp only [Res.ok_bind] at h
    have key : ∀ {db : Db}, recover db hh ≠ .ok none → db.len ≠ 0 := by
      intro db hr
      refine ne (y := hh) fun hg => hr ?_
      unfold recover
      rw [hg]
    split at h
    · cases h
    · next e => cases h; exact key (by rw [e]; exact fun h => by cases h)
    · cases h
    · next e => cases h; exact key (by rw [e]; exact fun h => by cases h)

end Verif.Pmt
