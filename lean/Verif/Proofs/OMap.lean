import Verif.Jmt.Store
import Verif.Proofs.Key
/-! Ordered maps and the order of value batches. -/

namespace Verif

structure StrictTotal {K : Type} (lt : K → K → Bool) : Prop where
  irrefl : ∀ a, lt a a = false
  trans : ∀ a b c, lt a b = true → lt b c = true → lt a c = true
  tri : ∀ a b, lt a b = true ∨ a = b ∨ lt b a = true

namespace OMap
variable {K V : Type} [DecidableEq K] {lt : K → K → Bool}

def Sorted (lt : K → K → Bool) (l : List (K × V)) : Prop := l.Pairwise (fun a b => lt a.1 b.1 = true)

theorem insertL_mem_fst (k : K) (v : V) (l : List (K × V)) {x : K × V} (hx : x ∈ insertL lt k v l) : x = (k, v) ∨ x ∈ l := by
  induction l with
  | nil => simp [insertL] at hx; exact .inl hx
  | cons e t ih =>
    obtain ⟨k', v'⟩ := e
    simp only [insertL] at hx
    split at hx
    · rcases List.mem_cons.1 hx with h | h
      · exact .inl h
      · exact .inr h
    · split at hx
      · rcases List.mem_cons.1 hx with h | h
        · exact .inl h
        · exact .inr (List.mem_cons_of_mem _ h)
      · rcases List.mem_cons.1 hx with h | h
        · exact .inr (by rw [h]; simp)
        · rcases ih h with h | h
          · exact .inl h
          · exact .inr (List.mem_cons_of_mem _ h)

theorem sorted_insertL (hlt : StrictTotal lt) (k : K) (v : V) (l : List (K × V)) (h : Sorted lt l) : Sorted lt (insertL lt k v l) := by
  induction l with
  | nil => simp [insertL, Sorted]
  | cons e t ih =>
    obtain ⟨k', v'⟩ := e
    simp only [Sorted, List.pairwise_cons] at h
    simp only [insertL]
    split
    · rename_i hk
      simp only [Sorted, List.pairwise_cons]
      refine ⟨?_, h⟩
      intro a ha
      rcases List.mem_cons.1 ha with ha | ha
      · rw [ha]; exact hk
      · exact hlt.trans _ _ _ hk (h.1 a ha)
    · rename_i hk
      split
      · rename_i he
        subst he
        simp only [Sorted, List.pairwise_cons]
        exact h
      · rename_i he
        simp only [Sorted, List.pairwise_cons]
        refine ⟨?_, ih h.2⟩
        intro a ha
        rcases insertL_mem_fst k v t ha with ha | ha
        · rw [ha]
          rcases hlt.tri k' k with h1 | h1 | h1
          · exact h1
          · exact absurd h1 he
          · exact absurd h1 hk
        · exact h.1 a ha

theorem lookup_insertL (hlt : StrictTotal lt) (k : K) (v : V) (l : List (K × V)) (h : Sorted lt l) (k' : K) :
    FMap.lookupL (insertL lt k v l) k' = if k' = k then some v else FMap.lookupL l k' := by
  induction l with
  | nil => 
    simp only [insertL, FMap.lookupL]
    by_cases h : k = k'
    · simp [h]
    · simp [h, Ne.symm h]
  | cons e t ih =>
    obtain ⟨a, w⟩ := e
    simp only [Sorted, List.pairwise_cons] at h
    simp only [insertL]
    split
    · simp only [FMap.lookupL]
      by_cases h : k = k'
      · simp [h]
      · simp [h, Ne.symm h]
    · split
      · rename_i he
        subst he
        simp only [FMap.lookupL]
        by_cases h : a = k'
        · simp [h]
        · simp [h, Ne.symm h]
      · rename_i he
        simp only [FMap.lookupL, ih h.2]
        by_cases h : a = k'
        · subst h; simp [he]
        · simp [h]

theorem sorted_extend (hlt : StrictTotal lt) (l : List (K × V)) (m : OMap K V) (h : Sorted lt m.entries) :
    Sorted lt (m.extend lt l).entries := by
  induction l generalizing m with
  | nil => exact h
  | cons e t ih => exact ih _ (sorted_insertL hlt _ _ _ h)

theorem get_extend (hlt : StrictTotal lt) (l : List (K × V)) (m : OMap K V) (h : Sorted lt m.entries)
    (hl : (l.map Prod.fst).Nodup) (k : K) :
    (m.extend lt l).get k = (FMap.lookupL l k).or (m.get k) := by
  induction l generalizing m with
  | nil => simp [extend, FMap.lookupL]
  | cons e t ih =>
    obtain ⟨a, v⟩ := e
    simp only [List.map_cons, List.nodup_cons] at hl
    have : (m.extend lt ((a, v) :: t)) = (m.insert lt a v).extend lt t := rfl
    rw [this, ih (m.insert lt a v) (sorted_insertL hlt _ _ _ h) hl.2]
    have e2 : (m.insert lt a v).get k = if k = a then some v else m.get k := lookup_insertL hlt a v m.entries h k
    rw [e2]
    simp only [FMap.lookupL]
    by_cases hk : a = k
    · subst hk
      have hn : FMap.lookupL t a = none := (FMap.get_eq_none_iff ⟨t⟩ a).2 hl.1
      simp [hn]
    · simp [hk, Ne.symm hk]

theorem sorted_nodup (hlt : StrictTotal lt) {l : List (K × V)} (h : Sorted lt l) : (l.map Prod.fst).Nodup := by
  rw [List.Nodup, List.pairwise_map]
  refine List.Pairwise.imp ?_ h
  intro a b hab he
  rw [he, hlt.irrefl] at hab; cases hab

theorem mem_iff_lookup (hlt : StrictTotal lt) {l : List (K × V)} (h : Sorted lt l) {k : K} {v : V} :
    (k, v) ∈ l ↔ FMap.lookupL l k = some v :=
  FMap.mem_iff_get (m := ⟨l⟩) (sorted_nodup hlt h)

end OMap

namespace Jmt

theorem Key.lt_trans {a b c : Key} (h : a < b) (h' : b < c) : a < c := List.lt_trans (α := UInt8) h h'
theorem Key.lt_tri (a b : Key) : a < b ∨ a = b ∨ b < a := by
  rcases Decidable.em (a.bytes < b.bytes) with h | h
  · exact .inl h
  · rcases Decidable.em (b.bytes < a.bytes) with h' | h'
    · exact .inr (.inr h')
    · right; left
      have := List.le_antisymm (α := UInt8) (List.not_lt.1 h') (List.not_lt.1 h)
      cases a; cases b; simp_all

theorem valueKeyLt_strict : StrictTotal valueKeyLt := by
  refine ⟨?_, ?_, ?_⟩
  · rintro ⟨v, k⟩
    simp only [valueKeyLt, decide_eq_false_iff_not]
    rintro (h | ⟨_, h⟩)
    · omega
    · exact List.lt_irrefl (α := UInt8) _ h
  · rintro ⟨v, k⟩ ⟨v', k'⟩ ⟨v'', k''⟩ h h'
    simp only [valueKeyLt, decide_eq_true_eq] at *
    rcases h with h | ⟨h, hk⟩ <;> rcases h' with h' | ⟨h', hk'⟩
    · left; omega
    · left; omega
    · left; omega
    · right; exact ⟨by omega, Key.lt_trans hk hk'⟩
  · rintro ⟨v, k⟩ ⟨v', k'⟩
    simp only [valueKeyLt, decide_eq_true_eq, Prod.mk.injEq]
    rcases Nat.lt_trichotomy v v' with h | h | h
    · exact .inl (.inl h)
    · subst h
      rcases Key.lt_tri k k' with h | h | h
      · exact .inl (.inr ⟨rfl, h⟩)
      · exact .inr (.inl ⟨rfl, h⟩)
      · exact .inr (.inr (.inr ⟨rfl, h⟩))
    · exact .inr (.inr (.inl h))

end Jmt
end Verif
