import Verif.Proofs.RestoreVerify
import Verif.Proofs.ProofUnique
/-! A range proof that verifies is read off the path of the key. -/

set_option autoImplicit false

namespace Verif.Jmt
open Verif.Spec
variable {D : Type}

theorem climb_append (H : Hasher D) (a : List D) (bs : List Bool) (h : a.length = bs.length) (s : D) (b : Bool) (x : D) :
    climb H (a ++ [s]) (bs ++ [b]) x = climb H a bs (if b then H.node s x else H.node x s) := by
  induction a generalizing bs with
  | nil =>
    obtain rfl : bs = [] := List.length_eq_zero_iff.1 h.symm
    rfl
  | cons c a ih =>
    cases bs with
    | nil => cases h
    | cons d bs => simp only [List.cons_append, climb, ih bs (by simpa using h)]

theorem climbInputs_append (H : Hasher D) (a : List D) (bs : List Bool) (h : a.length = bs.length) (s : D) (b : Bool) (x : D) :
    climbInputs H (a ++ [s]) (bs ++ [b]) x = climbInputs H a bs (if b then H.node s x else H.node x s) ++ [if b then .node s x else .node x s] := by
  induction a generalizing bs with
  | nil =>
    obtain rfl : bs = [] := List.length_eq_zero_iff.1 h.symm
    cases b <;> rfl
  | cons c a ih =>
    cases bs with
    | nil => cases h
    | cons d bs => simp only [List.cons_append, climbInputs, ih bs (by simpa using h), climb_append H a bs (by simpa using h)]

theorem climbInputs_extra (H : Hasher D) (a : List D) (bs cs : List Bool) (h : a.length = bs.length) (x : D) :
    climbInputs H a (bs ++ cs) x = climbInputs H a bs x ∧ climb H a (bs ++ cs) x = climb H a bs x := by
  induction a generalizing bs with
  | nil =>
    obtain rfl : bs = [] := List.length_eq_zero_iff.1 h.symm
    exact ⟨by cases cs <;> rfl, by cases cs <;> rfl⟩
  | cons c a ih =>
    cases bs with
    | nil => cases h
    | cons d bs =>
      have := ih bs (by simpa using h)
      simp only [List.cons_append, climbInputs, climb, this.1, this.2]
      exact ⟨trivial, trivial⟩

theorem climbInputs_range (H : Hasher D) (z : List (D × Bool)) (x : D) :
    ∀ i ∈ climbInputs H (z.reverse.map Prod.fst) (z.reverse.map Prod.snd) x,
      i ∈ rangeInputs H (z.map Prod.snd) (z.filterMap (fun sb => if sb.2 then some sb.1 else none))
        (z.filterMap (fun sb => if sb.2 then none else some sb.1)) x := by
  induction z generalizing x with
  | nil => intro i hi; cases hi
  | cons e z ih =>
    intro i hi
    obtain ⟨s, b⟩ := e
    rw [List.reverse_cons, List.map_append, List.map_append, List.map_singleton, List.map_singleton,
      climbInputs_append H _ _ (by simp), List.mem_append, List.mem_singleton] at hi
    cases b with
    | true =>
      simp only [List.map_cons, List.filterMap_cons, if_true, rangeInputs, List.mem_cons]
      exact hi.symm.imp id (ih _ i)
    | false =>
      simp only [List.map_cons, List.filterMap_cons, Bool.false_eq_true, if_false, rangeInputs, List.mem_cons] at hi ⊢
      exact hi.symm.imp id (ih _ i)

/-- The siblings used by a verification that succeeds, topmost first. -/
theorem range_verify_sibs {H : Hasher D} [DecidableEq D] {p : SparseMerkleRangeProof D} {root : D} {k : Key} {vh : D} {left : List D}
    (hv : p.verify H root ⟨k, vh⟩ left = .ok ()) :
    ∃ sibs, sibs.length ≤ 256 ∧ climb H sibs k.bits (H.leaf k vh) = root ∧
      left = ((sibs.zip k.bits).filterMap (fun sb => if sb.2 then some sb.1 else none)).reverse ∧
      p.rightSiblings = ((sibs.zip k.bits).filterMap (fun sb => if sb.2 then none else some sb.1)).reverse ∧
      ∀ i ∈ climbInputs H sibs k.bits (H.leaf k vh),
        i ∈ rangeInputs H (k.bits.reverse.drop (256 - (left.length + p.rightSiblings.length))) left p.rightSiblings (H.leaf k vh) := by
  unfold SparseMerkleRangeProof.verify at hv
  generalize hc : left.length + p.rightSiblings.length = c at *
  simp only [hc] at hv
  by_cases h256 : c ≤ 256
  · rw [if_pos h256] at hv
    cases hloop : SparseMerkleRangeProof.verifyLoop H (k.bits.reverse.drop (256 - c)) left p.rightSiblings (H.leaf k vh) with
    | error e =>
      simp only [LeafNode.hash, hloop, Res.error_bind] at hv
      cases hv
    | ok h' =>
      simp only [LeafNode.hash, hloop, Res.ok_bind] at hv
      have hroot : h' = root := by
        unfold ensure at hv
        split at hv
        · rename_i hdec; exact of_decide_eq_true hdec
        · cases hv
      obtain ⟨z, l', r', h1, h2, h3, h4⟩ := verifyLoop_ok _ hloop
      have hbits : k.bits.reverse.drop (256 - c) = ((List.range c).map k.bit).reverse := by
        rw [List.drop_reverse]
        congr 1
        have e : k.bits.length - (256 - c) = c := by simp [Key.bits]; omega
        rw [e]
        simp [Key.bits, ← List.map_take, List.take_range, Nat.min_eq_left h256]
      have hzl : z.length = c := by
        have := congrArg List.length h1
        rw [hbits] at this
        simpa using this
      have hsum : ∀ z : List (D × Bool), (z.filterMap (fun sb => if sb.2 then some sb.1 else none)).length +
          (z.filterMap (fun sb => if sb.2 then none else some sb.1)).length = z.length := by
        intro z
        induction z with
        | nil => rfl
        | cons x z ih => obtain ⟨d, _ | _⟩ := x <;> simp <;> omega
      have hs := hsum z
      have l2 := congrArg List.length h2
      have l3 := congrArg List.length h3
      simp only [List.length_append] at l2 l3
      have e1 : l' = [] := List.length_eq_zero_iff.1 (by omega)
      have e2 : r' = [] := List.length_eq_zero_iff.1 (by omega)
      subst e1 e2
      rw [List.append_nil] at h2 h3
      have hz1 : z.reverse.map Prod.snd = (List.range c).map k.bit := by
        rw [List.map_reverse, h1, hbits, List.reverse_reverse]
      have e : k.bits = z.reverse.map Prod.snd ++ k.bits.drop c := by
        have : k.bits.take c = (List.range c).map k.bit := by
          simp [Key.bits, ← List.map_take, List.take_range, Nat.min_eq_left h256]
        rw [hz1, ← this, List.take_append_drop]
      have hzz : (z.reverse.map Prod.fst).zip k.bits = z.reverse := by
        rw [e, ← List.append_nil (z.reverse.map Prod.fst), List.zip_append (by simp), List.zip_nil_left, List.append_nil]
        exact (List.zip_of_prod rfl rfl).symm
      refine ⟨z.reverse.map Prod.fst, by simp [hzl, h256], ?_, ?_, ?_, ?_⟩
      · rw [climb_foldr, ← hroot, h4, hzz, List.foldr_reverse]
      · rw [hzz, List.filterMap_reverse, List.reverse_reverse]; exact h2
      · rw [hzz, List.filterMap_reverse, List.reverse_reverse]; exact h3
      · intro i hi
        rw [← h1, h2, h3]
        rw [e, (climbInputs_extra H _ _ _ (by simp) _).1] at hi
        exact climbInputs_range H z _ i hi
  · rw [if_neg h256] at hv; cases hv

end Verif.Jmt
