import Verif.Pmt.Size
import Verif.Proofs.PmtCount
import Verif.Props.PmtExamples
/-! Property C78: what `is_empty` and `len` of a trie tell. -/

set_option autoImplicit false

namespace Verif.Props
open Verif Verif.Pmt PmtEx
variable {K : Keccak}

/-- A commit was made on a trie of the program: there was such a trie. -/
def Committed (op : Op) (r : Ret) : Prop := (∃ i, op = .commit i) ∧ r ≠ .none

theorem step_len {s s' : Sys} {op : Op} {r : Ret} (h : s.step K op = .ok (s', r)) :
    (Committed op r → s'.db.len ≠ 0) ∧ (¬ Committed op r → s'.db = s.db) := by
  refine ⟨fun hc => ?_, fun hc => ?_⟩
  · obtain ⟨⟨i, rfl⟩, hr⟩ := hc
    simp only [Sys.step] at h
    split at h
    · cases h; exact absurd rfl hr
    · unfold Sys.commit at h
      split at h
      · cases h
      · next e => cases h; exact Trie.commit_len e
      · next e => cases h; exact Trie.commit_len e
  · rcases Sys.step_db h with e | ⟨i, tr, tr', x, rfl, ht, e⟩
    · exact e
    · refine absurd ⟨⟨i, rfl⟩, ?_⟩ hc
      rintro rfl
      simp only [Sys.step, ht] at h
      unfold Sys.commit at h
      rw [e] at h
      rcases x with x | x <;> (simp only [Except.ok.injEq, Prod.mk.injEq] at h; cases h.2)

theorem run_len {s s' : Sys} {ops : List Op} {rs : List Ret} (h : s.run K ops = .ok (s', rs)) :
    s'.db.len = 0 ↔ s.db.len = 0 ∧ ∀ x ∈ ops.zip rs, ¬ Committed x.1 x.2 := by
  induction ops generalizing s rs with
  | nil => cases h; simp
  | cons op t ih =>
    obtain ⟨s1, r, rs', h1, h2, rfl⟩ := Sys.run_cons h
    rw [ih h2]
    obtain ⟨g1, g2⟩ := step_len h1
    rw [List.zip_cons_cons, List.forall_mem_cons]
    by_cases hc : Committed op r
    · exact ⟨fun h => absurd h.1 (g1 hc), fun h => absurd hc h.2.1⟩
    · rw [g2 hc]
      exact ⟨fun h => ⟨h.1, hc, h.2⟩, fun h => ⟨h.1, h.2.2⟩⟩

/-- **C78.** After any program on a new database (of either kind), `is_empty` of every trie returns whether no commit was made, by this or any
other trie. -/
theorem C78_is_empty {light : Bool} {ops : List Op} {s : Sys} {rs : List Ret} (hrun : (Sys.new light).run K ops = .ok (s, rs)) (tr : Trie) :
    tr.isEmpty s.db = true ↔ ∀ x ∈ ops.zip rs, ¬ ((∃ i, x.1 = .commit i) ∧ x.2 ≠ .none) := by
  have h := run_len hrun
  unfold Trie.isEmpty Trie.len
  rw [beq_iff_eq, h]
  exact ⟨fun h => h.2, fun h => ⟨rfl, h⟩⟩

/-- The program of the examples, up to its first commit and with it. -/
example : ((handle false (exOps.take 5) 0).isEmpty (result false (exOps.take 5)).1.db = true) ∧
    ((handle false (exOps.take 6) 0).isEmpty (result false (exOps.take 6)).1.db = false) ∧
    ((Sys.new false).run exK (exOps.take 6)).toOption.isSome = true := ⟨by decide +kernel, by decide +kernel, by decide +kernel⟩

/-- **C78.** After any program on a new archive database, `len` of every trie is the number of different byte strings that have been stored, or two
of them have the same hash. -/
theorem C78_len {ops : List Op} (hfit : ∀ op ∈ ops, Spec.Fits op) {s : Sys} {rs : List Ret} (hrun : (Sys.new false).run K ops = .ok (s, rs)) (tr : Trie) :
    Spec.Collision K s.db.log ∨ tr.len s.db = s.db.log.dedup.length := by
  rcases collision_or K s.db.log with hc | hc
  · exact .inl hc
  · have h := SysInv.new (K := K) (P := False) |>.run hfit (fun p => p.elim) hrun hc
    exact .inr (h.db.len (Sys.run_nodup hrun (new_nodup false)) hc)

example : (handle false exOps 0).len (result false exOps).1.db = 10 := by
  rcases C78_len exOps_fits exOps_run (handle false exOps 0) with h | h
  · exact absurd h exOps_noCollision
  · rw [h]; decide +kernel

/-- **C78.** On an archive database `len` never decreases: after more calls it is at least what it was, or two different stored byte strings have the
same hash. -/
theorem C78_len_grows {ops more : List Op} (hfit : ∀ op ∈ ops ++ more, Spec.Fits op) {s s' : Sys} {rs rs' : List Ret}
    (hrun : (Sys.new false).run K ops = .ok (s, rs)) (hmore : s.run K more = .ok (s', rs')) (tr : Trie) :
    Spec.Collision K s'.db.log ∨ tr.len s.db ≤ tr.len s'.db := by
  rcases collision_or K s'.db.log with hc | hc
  · exact .inl hc
  · have hc0 : NoClash K s.db.log := hc.subset (Sys.run_log hmore)
    have h := SysInv.new (K := K) (P := False) |>.run (fun o ho => hfit o (List.mem_append_left _ ho)) (fun p => p.elim) hrun hc0
    have h' := h.run (fun o ho => hfit o (List.mem_append_right _ ho)) (fun p => p.elim) hmore hc
    refine .inr (len_le (Sys.run_nodup hrun (new_nodup false)) fun x hx => ?_)
    cases hg : s.db.get x with
    | none => exact absurd hg hx
    | some b =>
      obtain ⟨e1, e2⟩ := h.db.sound x b hg
      have := h'.db.complete b (Sys.run_log hmore b e2)
      rw [← e1] at this
      exact Option.isSome_iff_ne_none.1 this

/-- The hypotheses are met by the example cut after its first commit. -/
example : ∃ s rs s' rs', (Sys.new false).run exK (exOps.take 6) = .ok (s, rs) ∧ s.run exK (exOps.drop 6) = .ok (s', rs') ∧ s.db.len < s'.db.len :=
  ⟨_, _, ((result false (exOps.take 6)).1.run exK (exOps.drop 6)).toOption.getD (Sys.new false, []) |>.1,
    ((result false (exOps.take 6)).1.run exK (exOps.drop 6)).toOption.getD (Sys.new false, []) |>.2, result_eq (by decide +kernel), by
      have h : ((result false (exOps.take 6)).1.run exK (exOps.drop 6)).toOption.isSome = true := by decide +kernel
      generalize (result false (exOps.take 6)).1.run exK (exOps.drop 6) = x at *
      cases x with
      | error => cases h
      | ok => rfl, by decide +kernel⟩

/-- **What C78 does not say**: `is_empty` does not tell whether the trie has entries. It is `true` for a trie with an entry that has not been committed,
and `false` for an empty trie after a commit; and `len` is not the number of entries. -/
theorem C78_not_contents :
    ((handle false [.new, .insert 0 [1] [5]] 0).isEmpty (result false [.new, .insert 0 [1] [5]]).1.db = true ∧
      mapOf [.new, .insert 0 [1] [5]] 0 [1] = some [5]) ∧
    ((handle false [.new, .commit 0] 0).isEmpty (result false [.new, .commit 0]).1.db = false ∧ ∀ k, mapOf [.new, .commit 0] 0 k = none) ∧
    ((handle false [.new, .insert 0 [1] [5], .insert 0 [2] [6], .commit 0] 0).len (result false [.new, .insert 0 [1] [5], .insert 0 [2] [6], .commit 0]).1.db
      = 1) := ⟨⟨by decide +kernel, by decide +kernel⟩, ⟨by decide +kernel, fun _ => rfl⟩, by decide +kernel⟩

end Verif.Props
