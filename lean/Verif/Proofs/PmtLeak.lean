import Verif.Proofs.PmtPrune
import Verif.Spec.PmtReach
/-!
What a commit writes are nodes of the tree, and the stored nodes of a tree are those reached from its root.
-/

set_option autoImplicit false

namespace Verif.Pmt

open PT
open scoped Classical

variable {K : Keccak} {S : Bytes → Prop} {db d : Db}

/-- The entries written are stored trees found in a tree. -/
def OnlyOf (K : Keccak) (t : PT) (w : Written) : Prop := ∀ e ∈ w, ∃ u, e = (K (enc K u), enc K u) ∧ 0 < here K t u + below K t u

theorem writeChildren_only {f : Fin 16 → Res (Encoded × Written)} {ts : Nib → PT}
    (h : ∀ i, ∃ w, f i = .ok (encodedOf K (enc K (ts i)), w) ∧ OnlyOf K (ts i) w) (l : List (Fin 16)) :
    ∃ w, writeChildren f l = .ok (l.map (fun i => itemOf K (enc K (ts i))), w) ∧ ∀ e ∈ w, ∃ i u, e = (K (enc K u), enc K u) ∧
      0 < here K (ts i) u + below K (ts i) u := by
  induction l with
  | nil => exact ⟨[], rfl, by simp⟩
  | cons i t ih =>
    obtain ⟨w, h1, h2⟩ := h i
    obtain ⟨ws, g1, g2⟩ := ih
    refine ⟨w ++ ws, ?_, ?_⟩
    · unfold writeChildren
      rw [h1]
      simp only [Res.ok_bind, g1, encodedOf_item]
      rfl
    · intro e he
      rcases List.mem_append.1 he with he | he
      · exact ⟨i, h2 e he⟩
      · exact g2 e he

theorem writeNode_only {n : Node} {t : PT} (h : Rep K S n t) (hok : Ok t (2 ^ 60)) :
    ∃ w, writeNode K n = .ok (encodedOf K (enc K t), w) ∧ OnlyOf K t w := by
  have fin : ∀ {n : Node} {t : PT}, ¬ IsHash n → (∃ w, encodeRaw K n = .ok (enc K t, w) ∧ ∀ e ∈ w, ∃ u, e = (K (enc K u), enc K u) ∧ 0 < below K t u) →
      ∃ w, writeNode K n = .ok (encodedOf K (enc K t), w) ∧ OnlyOf K t w := by
    rintro n t hn ⟨w, h1, h2⟩
    rw [writeNode_eq n hn, h1]
    by_cases hl : (enc K t).length < 32
    · refine ⟨w, ?_, fun e he => ?_⟩
      · simp only [writeData, encodedOf, if_pos hl]
      · obtain ⟨u, hu, hp⟩ := h2 e he
        exact ⟨u, hu, by omega⟩
    · refine ⟨w ++ [(K (enc K t), enc K t)], ?_, fun e he => ?_⟩
      · simp only [writeData, encodedOf, if_neg hl]
      · rcases List.mem_append.1 he with he | he
        · obtain ⟨u, hu, hp⟩ := h2 e he
          exact ⟨u, hu, by omega⟩
        · refine ⟨t, List.mem_singleton.1 he, ?_⟩
          have : here K t t = 1 := if_pos ⟨rfl, by omega⟩
          omega
  induction h with
  | hash hl h =>
    refine ⟨[], ?_, fun e he => (by cases he)⟩
    unfold encodedOf
    rw [if_neg (by omega)]
    rfl
  | empty => exact fin id ⟨[], rfl, fun e he => (by cases he)⟩
  | leaf k v =>
    refine fin id ⟨[], ?_, fun e he => (by cases he)⟩
    simp only [encodeRaw, encodeCompact_leaf, Res.ok_bind]
    rfl
  | ext p h ih =>
    rename_i m s
    obtain ⟨w, h1, h2⟩ := ih (ok_sub hok)
    refine fin id ⟨w, ?_, h2⟩
    simp only [encodeRaw, encodeCompact_ext hok.1, Res.ok_bind, h1, encodedOf_item]
    rfl
  | branch v h ih =>
    rename_i cs ts
    obtain ⟨w, h1, h2⟩ := writeChildren_only (K := K) (f := fun i => writeNode K (cs i)) (ts := ts)
      (fun i => ih i (ok_child hok i)) (List.finRange 16)
    refine fin id ⟨w, ?_, fun e he => ?_⟩
    · simp only [encodeRaw, h1, Res.ok_bind]
      rfl
    · obtain ⟨i, u, hu, hp⟩ := h2 e he
      refine ⟨u, hu, Nat.lt_of_lt_of_le hp ?_⟩
      exact Finset.single_le_sum (f := fun i => here K (ts i) u + below K (ts i) u) (fun _ _ => Nat.zero_le _) (Finset.mem_univ i)

/-- What a node refers to is found in its tree. -/
theorem stored_le {n : Node} {t : PT} (h : Rep K S n t) (u : PT) :
    stored K t n u ≤ here K t u + below K t u ∧ (¬ IsHash n → stored K t n u ≤ below K t u) := by
  induction h with
  | empty => exact ⟨Nat.zero_le _, fun _ => Nat.zero_le _⟩
  | leaf k v => exact ⟨Nat.zero_le _, fun _ => Nat.zero_le _⟩
  | ext p h ih => exact ⟨ih.1.trans (Nat.le_add_left _ _), fun _ => ih.1⟩
  | branch v h ih =>
    have := Finset.sum_le_sum fun i (_ : i ∈ Finset.univ) => (ih i).1
    exact ⟨this.trans (Nat.le_add_left _ _), fun _ => this⟩
  | hash hl h => exact ⟨le_of_eq (stored_hash _ _ _), fun hn => absurd trivial hn⟩

open Spec (refs Reach)

theorem refs_node {t : PT} {y : H256} (h : y ∈ refs (if (enc K t).length < 32 then top K t else .hash (K (enc K t)))) :
    ((enc K t).length < 32 ∧ y ∈ refs (top K t)) ∨ (32 ≤ (enc K t).length ∧ y = K (enc K t)) := by
  split at h
  · next hl => exact .inl ⟨hl, h⟩
  · next hl => exact .inr ⟨by omega, List.mem_singleton.1 h⟩

/-- The hashes inside the root node of a stored tree are those of stored trees. -/
theorem refs_held {t : PT} (hok : Ok t (2 ^ 60)) (h : Below K S t) {y : H256} (hy : y ∈ refs (top K t)) :
    ∃ u, y = K (enc K u) ∧ Held K S u ∧ Ok u (2 ^ 60) := by
  have child : ∀ {s : PT}, Ok s (2 ^ 60) → ((32 ≤ (enc K s).length → S (enc K s)) ∧ Below K S s) →
      (y ∈ refs (top K s) → ∃ u, y = K (enc K u) ∧ Held K S u ∧ Ok u (2 ^ 60)) →
      y ∈ refs (if (enc K s).length < 32 then top K s else .hash (K (enc K s))) → ∃ u, y = K (enc K u) ∧ Held K S u ∧ Ok u (2 ^ 60) := by
    intro s hs hb ih hy
    rcases refs_node hy with ⟨_, hy⟩ | ⟨hl, rfl⟩
    · exact ih hy
    · exact ⟨s, rfl, ⟨hb.1 hl, hb.2⟩, hs⟩
  induction t with
  | empty => cases hy
  | leaf k v => cases hy
  | ext q s ih => exact child (ok_sub hok) h (ih (ok_sub hok) h.2) hy
  | branch cs v ih =>
    obtain ⟨i, _, hi⟩ := List.mem_flatMap.1 hy
    exact child (ok_child hok i) (h i) (ih i (ok_child hok i) (h i).2) hi

/-- Everything that is reached from a stored tree is stored. -/
theorem reach_held {t : PT} (hok : Ok t (2 ^ 60)) (h : Held K (Has K d) t) {x : H256} (hx : Reach d (K (enc K t)) x) :
    ∃ u, x = K (enc K u) ∧ Held K (Has K d) u ∧ Ok u (2 ^ 60) := by
  induction hx with
  | root => exact ⟨t, rfl, h, hok⟩
  | child _ hb hn hy ih =>
    obtain ⟨u, rfl, h1, h2⟩ := ih
    have e : d.get (K (enc K u)) = some (enc K u) := h1.1
    rw [e] at hb
    cases hb
    rw [decodeNode_enc h2] at hn
    cases hn
    exact refs_held h2 h1.2 hy

/-- The stored trees found in a stored tree are reached. -/
theorem below_reach {t u : PT} {r : H256} (hok : Ok t (2 ^ 60)) (h : Below K (Has K d) t) (hr : ∀ y ∈ refs (top K t), Reach d r y)
    (hu : 0 < below K t u) : Reach d r (K (enc K u)) := by
  have child : ∀ {s : PT}, Ok s (2 ^ 60) → ((32 ≤ (enc K s).length → Has K d (enc K s)) ∧ Below K (Has K d) s) →
      ((∀ y ∈ refs (top K s), Reach d r y) → 0 < below K s u → Reach d r (K (enc K u))) →
      (∀ y ∈ refs (if (enc K s).length < 32 then top K s else .hash (K (enc K s))), Reach d r y) → 0 < here K s u + below K s u →
      Reach d r (K (enc K u)) := by
    intro s hs hb ih hy hpos
    by_cases hl : (enc K s).length < 32
    · rw [if_pos hl] at hy
      refine ih hy ?_
      have : here K s u = 0 := if_neg (fun h => by omega)
      omega
    · rw [if_neg hl] at hy
      have hs1 : Reach d r (K (enc K s)) := hy _ (List.mem_singleton.2 rfl)
      unfold here at hpos
      split at hpos
      · next h => rw [← h.1]; exact hs1
      · exact ih (fun y hy => .child hs1 (hb.1 (by omega)) (decodeNode_enc hs) hy) (by omega)
  induction t with
  | empty => exact absurd hu (Nat.lt_irrefl 0)
  | leaf k v => exact absurd hu (Nat.lt_irrefl 0)
  | ext q s ih => exact child (ok_sub hok) h (fun a b => ih (ok_sub hok) h.2 a b) hr hu
  | branch cs v ih =>
    obtain ⟨i, _, hi⟩ : ∃ i ∈ Finset.univ, 0 < here K (cs i) u + below K (cs i) u := by
      by_contra hne
      push Not at hne
      have : below K (.branch cs v) u = 0 := Finset.sum_eq_zero fun i hi => Nat.le_zero.1 (hne i hi)
      omega
    exact child (ok_child hok i) (h i) (fun a b => ih i (ok_child hok i) (h i).2 a b)
      (fun y hy => hr y (List.mem_flatMap.2 ⟨i, List.mem_finRange i, hy⟩)) hi

end Verif.Pmt
