import Verif.Proofs.SmtPath
/-! A path that ends at the root of a sparse Merkle tree is the path of its key, or there is a clash. -/

set_option autoImplicit false

namespace Verif.Jmt
variable {D : Type}
open Verif.Spec

theorem climb_unique (H : Hasher D) (k : Key) (n : Nat) (hn : n ≤ 256) {l : List (Key × D)} (hl : Agree n l) (sibs : List D)
    (hs : sibs.length ≤ n) (x : Option (Key × D))
    (h : climb H sibs (k.bits.drop (256 - n)) (leafHash H x) = smt H n l) :
    smtPath H k n l = (sibs, x) ∨
    Clash H (climbInputs H sibs (k.bits.drop (256 - n)) (leafHash H x) ++ (x.map (fun e => HashInput.leaf e.1 e.2)).toList) (smtInputs H n l) := by
  classical
  induction sibs generalizing n l with
  | nil =>
    simp only [climb] at h
    rcases list_cases l with rfl | ⟨⟨k', v'⟩, rfl⟩ | h2
    · cases x with
      | none => left; simp
      | some e =>
        right; right
        refine ⟨.leaf e.1 e.2, by simp, ?_⟩
        simpa [HashInput.digest, leafHash] using h
    · cases x with
      | none =>
        right; right
        refine ⟨.leaf k' v', by simp, ?_⟩
        simpa [HashInput.digest, leafHash] using h.symm
      | some e =>
        obtain ⟨a, b⟩ := e
        by_cases heq : (a, b) = (k', v')
        · left; cases heq; simp
        · right; left
          refine ⟨.leaf a b, by simp, .leaf k' v', by simp, by simpa using heq, ?_⟩
          simpa [HashInput.digest, leafHash] using h
    · match n with
      | 0 => have := hl.zero; omega
      | n + 1 =>
        rw [smt_two H n l h2] at h
        cases x with
        | none =>
          right; right
          refine ⟨.node _ _, List.mem_append_right _ (by rw [smtInputs_two H n l h2]; exact List.mem_cons_self), ?_⟩
          exact h.symm
        | some e =>
          right; left
          refine ⟨.leaf e.1 e.2, by simp, .node _ _, by rw [smtInputs_two H n l h2]; exact List.mem_cons_self, by simp, ?_⟩
          exact h
  | cons s sibs ih =>
    match n with
    | 0 => simp at hs
    | n + 1 =>
      rw [drop_bits k n (by omega)] at h ⊢
      simp only [climb] at h
      generalize hd : climb H sibs (k.bits.drop (256 - n)) (leafHash H x) = d at h
      have htop : ∃ a b, (if k.bit (256 - (n + 1)) = true then H.node s d else H.node d s) = H.node a b ∧
          (HashInput.node a b) ∈ climbInputs H (s :: sibs) (k.bit (256 - (n + 1)) :: k.bits.drop (256 - n)) (leafHash H x) ∧
          (if k.bit (256 - (n + 1)) = true then a = s ∧ b = d else a = d ∧ b = s) := by
        cases hb : k.bit (256 - (n + 1)) with
        | true => exact ⟨s, d, by simp, by simp [climbInputs, hd], by simp⟩
        | false => exact ⟨d, s, by simp, by simp [climbInputs, hd], by simp⟩
      obtain ⟨a, b, e1, e2, e3⟩ := htop
      rw [e1] at h
      rcases list_cases l with rfl | ⟨⟨k', v'⟩, rfl⟩ | h2
      · right; right
        refine ⟨.node a b, List.mem_append_left _ (List.mem_append_left _ e2), ?_⟩
        simpa [HashInput.digest] using h
      · right; left
        refine ⟨.node a b, List.mem_append_left _ e2, .leaf k' v', by simp, by simp, ?_⟩
        simpa [HashInput.digest] using h
      · rw [smt_two H n l h2] at h
        by_cases heq : HashInput.node a b = HashInput.node (smt H n (l.filter (fun e => !e.1.bit (256 - (n + 1))))) (smt H n (l.filter (fun e => e.1.bit (256 - (n + 1)))))
        · simp only [HashInput.node.injEq] at heq
          have hrec : climb H sibs (k.bits.drop (256 - n)) (leafHash H x) =
                smt H n (l.filter (fun e => e.1.bit (256 - (n + 1)) == k.bit (256 - (n + 1)))) ∧
              s = smt H n (l.filter (fun e => e.1.bit (256 - (n + 1)) != k.bit (256 - (n + 1)))) := by
            rw [hd]
            cases hb : k.bit (256 - (n + 1)) with
            | true =>
              rw [hb] at e3; simp only [if_true] at e3
              rw [← e3.2, ← e3.1, heq.2, heq.1]; simp
            | false =>
              rw [hb] at e3; simp only [Bool.false_eq_true, if_false] at e3
              rw [← e3.1, ← e3.2, heq.1, heq.2]; simp
          rcases ih n (by omega) (hl.half _ (k.bit (256 - (n + 1))) (by intro e he; simpa using he)) (by simpa using hs) hrec.1 with r | r
          · left
            rw [smtPath_two H k n l h2, r, hrec.2]
          · right
            refine r.mono ?_ ?_
            · intro y hy
              rw [List.mem_append] at hy ⊢
              rcases hy with hy | hy
              · left; simp [climbInputs, hy]
              · right; exact hy
            · intro y hy
              rw [smtInputs_two H n l h2]
              apply List.mem_cons_of_mem
              rw [List.mem_append]
              cases hb : k.bit (256 - (n + 1)) with
              | true => right; rw [hb] at hy; simpa only [beq_true] using hy
              | false => left; rw [hb] at hy; simpa only [beq_false] using hy
        · right; left
          refine ⟨.node a b, List.mem_append_left _ e2, _, by rw [smtInputs_two H n l h2]; exact List.mem_cons_self, heq, ?_⟩
          exact h

end Verif.Jmt
