import Verif.Proofs.Range
/-! How far down a path of the sparse Merkle tree goes, and what is found at its end. -/

set_option autoImplicit false

namespace Verif.Jmt
open Verif.Spec
variable {D : Type}

theorem filter_agree_succ (k : Key) (L : List (Key × D)) (i : Nat) :
    (L.filter (fun e => agreeTo i e.1 k)).filter (fun e => e.1.bit i == k.bit i) = L.filter (fun e => agreeTo (i + 1) e.1 k) := by
  rw [List.filter_filter]
  congr 1
  funext e
  rw [agreeTo_succ, Bool.and_comm]

/-- The path ends at the first depth at which at most one entry is left, with that entry. -/
theorem smtPath_ends (H : Hasher D) (k : Key) (L : List (Key × D)) (hL : (L.map Prod.fst).Nodup) (n : Nat) (hn : n ≤ 256) :
    (∀ i, i < (smtPath H k n (L.filter (fun e => agreeTo (256 - n) e.1 k))).1.length → 2 ≤ (L.filter (fun e => agreeTo (256 - n + i) e.1 k)).length) ∧
    L.filter (fun e => agreeTo (256 - n + (smtPath H k n (L.filter (fun e => agreeTo (256 - n) e.1 k))).1.length) e.1 k)
      = (smtPath H k n (L.filter (fun e => agreeTo (256 - n) e.1 k))).2.toList := by
  induction n with
  | zero =>
    have hag : Agree 0 (L.filter (fun e => agreeTo (256 - 0) e.1 k)) := by
      refine ⟨(List.filter_sublist.map _).nodup hL, fun e he e' he' j hj => ?_⟩
      rw [agreeTo_iff.1 (List.mem_filter.1 he).2 j hj, agreeTo_iff.1 (List.mem_filter.1 he').2 j hj]
    have hz := smtPath_length H k 0 (L.filter (fun e => agreeTo (256 - 0) e.1 k))
    have h0 : (smtPath H k 0 (L.filter (fun e => agreeTo (256 - 0) e.1 k))).1.length = 0 := by omega
    rw [h0]
    refine ⟨fun i hi => by omega, ?_⟩
    rcases list_cases (L.filter (fun e => agreeTo (256 - 0) e.1 k)) with h | ⟨a, h⟩ | h
    · rw [Nat.add_zero, h, smtPath_nil]; rfl
    · rw [Nat.add_zero, h, smtPath_single]; rfl
    · exact absurd hag.zero (by omega)
  | succ n ih =>
    obtain ⟨i1, i2⟩ := ih (by omega)
    have e1 : 256 - n = 256 - (n + 1) + 1 := by omega
    rcases list_cases (L.filter (fun e => agreeTo (256 - (n + 1)) e.1 k)) with h | ⟨a, h⟩ | h
    · rw [h, smtPath_nil]
      refine ⟨fun i hi => absurd hi (Nat.not_lt_zero i), ?_⟩
      show L.filter (fun e => agreeTo (256 - (n + 1) + 0) e.1 k) = []
      rw [Nat.add_zero, h]
    · rw [h, smtPath_single]
      refine ⟨fun i hi => absurd hi (Nat.not_lt_zero i), ?_⟩
      show L.filter (fun e => agreeTo (256 - (n + 1) + 0) e.1 k) = [a]
      rw [Nat.add_zero, h]
    · rw [smtPath_two H k n _ h, filter_agree_succ, ← e1]
      simp only [List.length_cons]
      generalize smtPath H k n (L.filter (fun e => agreeTo (256 - n) e.1 k)) = r at *
      refine ⟨fun i hi => ?_, ?_⟩
      · cases i with
        | zero => exact h
        | succ i =>
          have := i1 i (by omega)
          rwa [e1, Nat.add_right_comm, Nat.add_assoc] at this
      · rw [← i2, e1, Nat.add_right_comm, Nat.add_assoc]

theorem smtPath_ends_top (H : Hasher D) (k : Key) (L : List (Key × D)) (hL : (L.map Prod.fst).Nodup) :
    (∀ i, i < (smtPath H k 256 L).1.length → 2 ≤ (L.filter (fun e => agreeTo i e.1 k)).length) ∧
    L.filter (fun e => agreeTo (smtPath H k 256 L).1.length e.1 k) = (smtPath H k 256 L).2.toList := by
  have h := smtPath_ends H k L hL 256 (Nat.le_refl _)
  have e : L.filter (fun e => agreeTo (256 - 256) e.1 k) = L := by simp [agreeTo]
  rw [e] at h
  simpa only [Nat.sub_self, Nat.zero_add] using h

end Verif.Jmt
