import Verif.Proofs.PmtPuts
/-!
Proofs made on any database: the nodes that are fetched on the way.
-/

set_option autoImplicit false

namespace Verif.Pmt

open Spec (Place AnswersAt)
open Relation (ReflTransGen TransGen)

variable {db : Db}

/-- Making a proof fails as reading does. -/
theorem pathStep_fate {hop : H256 → Nibbles → Res (List Node)} {hop' : H256 → Nibbles → Res (Option Bytes)}
    (hh : ∀ x p e, hop x p = .error e ↔ hop' x p = .error e) (n : Node) : ∀ p e, pathStep hop n p = .error e ↔ getStep hop' n p = .error e := by
  induction n with
  | empty => exact fun p e => ⟨fun h => (nomatch h), fun h => (nomatch h)⟩
  | leaf k w => exact fun p e => ⟨fun h => (nomatch h), fun h => (nomatch h)⟩
  | hash x => exact fun p e => hh x p e
  | ext c sub ih =>
    intro p e
    simp only [pathStep, getStep]
    split
    · exact ih _ e
    · exact ⟨fun h => (nomatch h), fun h => (nomatch h)⟩
  | branch cs w ih =>
    intro p e
    cases p with
    | nil => exact ⟨fun h => (nomatch h), fun h => (nomatch h)⟩
    | cons i t =>
      simp only [pathStep, getStep]
      split
      · exact ⟨fun h => (nomatch h), fun h => (nomatch h)⟩
      · split
        · exact ih _ t e
        · exact ⟨fun h => by cases h; rfl, fun h => by cases h; rfl⟩

theorem pathAt_fate (fuel : Nat) : ∀ n p e, pathAt db fuel n p = .error e ↔ getAt db fuel n p = .error e := by
  induction fuel with
  | zero => exact pathStep_fate (fun _ _ _ => ⟨fun h => by cases h; rfl, fun h => by cases h; rfl⟩)
  | succ f ih =>
    refine pathStep_fate (fun x p e => ?_)
    rcases hf : fetch db x with e' | n
    · exact ⟨fun h => by cases h; rfl, fun h => by cases h; rfl⟩
    · simp only [Res.ok_bind]
      rw [← ih n p e]
      rcases pathAt db f n p with e' | l
      · rfl
      · exact ⟨fun h => (nomatch h), fun h => (nomatch h)⟩

/-- The nodes of the hashes on the way. -/
theorem pathStep_has {hop : H256 → Nibbles → Res (List Node)}
    (hh : ∀ y p l, hop y p = .ok l → ∀ x q, ReflTransGen (StepD db) (.hash y, p) (.hash x, q) → ∃ m ∈ l, fetch db x = .ok m) (n : Node) :
    ∀ p l, pathStep hop n p = .ok l → ∀ x q, ReflTransGen (StepD db) (n, p) (.hash x, q) → ∃ m ∈ l, fetch db x = .ok m := by
  induction n with
  | empty =>
    intro p l _ x q hr
    rcases ReflTransGen.cases_head hr with e | ⟨u, hu, _⟩
    · cases e
    · cases hu
  | leaf k w =>
    intro p l _ x q hr
    rcases ReflTransGen.cases_head hr with e | ⟨u, hu, _⟩
    · cases e
    · cases hu
  | hash y => exact hh y
  | ext c sub ih =>
    intro p l h x q hr
    rcases ReflTransGen.cases_head hr with e | ⟨u, hu, hr⟩
    · cases e
    · cases hu with
      | @ext _ r _ =>
        simp only [pathStep] at h
        rw [if_pos ((commonPrefix_iff _ _).2 (List.prefix_append _ _)), List.drop_left] at h
        exact ih r l h x q hr
  | branch cs w ih =>
    intro p l h x q hr
    rcases ReflTransGen.cases_head hr with e | ⟨u, hu, hr⟩
    · cases e
    · cases hu with
      | @branch _ _ i r =>
        have hi := i.isLt
        simp only [pathStep] at h
        rw [if_neg (by omega), dif_pos hi] at h
        exact ih i r l h x q hr

theorem pathAt_has (fuel : Nat) : ∀ n p l, pathAt db fuel n p = .ok l → ∀ x q, ReflTransGen (StepD db) (n, p) (.hash x, q) →
    ∃ m ∈ l, fetch db x = .ok m := by
  induction fuel with
  | zero => exact pathStep_has (fun _ _ _ h => by cases h)
  | succ f ih =>
    refine pathStep_has (fun y p l h x q hr => ?_)
    rcases hf : fetch db y with e | n
    · rw [hf] at h; cases h
    · rw [hf] at h
      simp only [Res.ok_bind] at h
      rcases hp : pathAt db f n p with e | l'
      · rw [hp] at h; cases h
      · rw [hp] at h
        simp only [Res.ok_bind, Res.pure_eq] at h
        cases h
        rcases ReflTransGen.cases_head hr with e | ⟨u, hu, hr⟩
        · cases e
          exact ⟨n, by simp, hf⟩
        · cases hu with
          | hash hb hn =>
            rw [fetch_ok hb hn] at hf
            cases hf
            obtain ⟨m, hm, e⟩ := ih _ _ _ hp x q hr
            exact ⟨m, List.mem_append_left _ hm, e⟩

/-- Only nodes from the database. -/
theorem pathStep_from {hop : H256 → Nibbles → Res (List Node)} (hh : ∀ y p l, hop y p = .ok l → ∀ m ∈ l, ∃ x, fetch db x = .ok m) (n : Node) :
    ∀ p l, pathStep hop n p = .ok l → ∀ m ∈ l, ∃ x, fetch db x = .ok m := by
  induction n with
  | empty => intro p l h m hm; cases h; cases hm
  | leaf k w => intro p l h m hm; cases h; cases hm
  | hash y => exact hh y
  | ext c sub ih =>
    intro p l h m hm
    simp only [pathStep] at h
    split at h
    · exact ih _ l h m hm
    · cases h; cases hm
  | branch cs w ih =>
    intro p l h m hm
    cases p with
    | nil => cases h; cases hm
    | cons i t =>
      simp only [pathStep] at h
      split at h
      · cases h; cases hm
      · split at h
        · exact ih _ t l h m hm
        · cases h

theorem pathAt_from (fuel : Nat) : ∀ n p l, pathAt db fuel n p = .ok l → ∀ m ∈ l, ∃ x, fetch db x = .ok m := by
  induction fuel with
  | zero => exact pathStep_from (fun _ _ _ h => by cases h)
  | succ f ih =>
    refine pathStep_from (fun y p l h m hm => ?_)
    rcases hf : fetch db y with e | n
    · rw [hf] at h; cases h
    · rw [hf] at h
      simp only [Res.ok_bind] at h
      rcases hp : pathAt db f n p with e | l'
      · rw [hp] at h; cases h
      · rw [hp] at h
        simp only [Res.ok_bind, Res.pure_eq] at h
        cases h
        rcases List.mem_append.1 hm with hm | hm
        · exact ih _ _ _ hp m hm
        · cases List.mem_singleton.1 hm
          exact ⟨y, hf⟩

theorem encodeAll_of {K : Keccak} {l : List Node} (h : ∀ n ∈ l, ∃ b w, encodeRaw K n = .ok (b, w)) :
    ∃ bs ws, Trie.encodeAll K l = .ok (bs, ws) ∧ ∀ b, b ∈ bs ↔ ∃ n ∈ l, ∃ w, encodeRaw K n = .ok (b, w) := by
  induction l with
  | nil => exact ⟨[], [], rfl, fun b => by simp⟩
  | cons n l ih =>
    obtain ⟨b, w, hb⟩ := h n (by simp)
    obtain ⟨bs, ws, h1, h2⟩ := ih (fun m hm => h m (List.mem_cons_of_mem _ hm))
    refine ⟨b :: bs, w ++ ws, by simp only [Trie.encodeAll, hb, h1, Res.ok_bind, Res.pure_eq], fun c => ?_⟩
    rw [List.mem_cons, h2]
    constructor
    · rintro (rfl | ⟨m, hm, w', e⟩)
      · exact ⟨n, by simp, w, hb⟩
      · exact ⟨m, List.mem_cons_of_mem _ hm, w', e⟩
    · rintro ⟨m, hm, w', e⟩
      rcases List.mem_cons.1 hm with rfl | hm
      · rw [hb] at e
        cases e
        exact .inl rfl
      · exact .inr ⟨m, hm, w', e⟩

end Verif.Pmt
