import Verif.Proofs.Cache
/-! Entries of extended maps and sets up to order. -/

namespace Verif

theorem FMap.extend_perm {K V : Type} [DecidableEq K] (l : List (K × V)) (m : FMap K V) (hl : (l.map Prod.fst).Nodup)
    (hd : ∀ e ∈ l, m.get e.1 = none) : (m.extend l).entries.Perm (l ++ m.entries) := by
  induction l generalizing m with
  | nil => exact List.Perm.refl _
  | cons e t ih =>
    obtain ⟨a, v⟩ := e
    simp only [List.map_cons, List.nodup_cons] at hl
    have h1 : m.get a = none := hd (a, v) (by simp)
    have e1 : (m.set a v).entries = (a, v) :: m.entries := by
      simp only [FMap.set, Jmt.FMap.erase_of_none m h1]
    have h2 := ih (m.set a v) hl.2 (by
      intro x hx
      rw [FMap.get_set, if_neg, hd x (List.mem_cons_of_mem _ hx)]
      rintro rfl
      exact hl.1 (List.mem_map.2 ⟨x, hx, rfl⟩))
    have e2 : m.extend ((a, v) :: t) = (m.set a v).extend t := rfl
    rw [e2]
    refine h2.trans ?_
    rw [e1, List.cons_append]
    exact List.perm_middle

theorem FSet.foldl_insert_perm {K : Type} [DecidableEq K] (l : List K) (s : FSet K) (hl : l.Nodup)
    (hd : ∀ e ∈ l, e ∉ s.elems) : (l.foldl FSet.insert s).elems.Perm (l ++ s.elems) := by
  induction l generalizing s with
  | nil => exact List.Perm.refl _
  | cons a t ih =>
    simp only [List.nodup_cons] at hl
    have h1 : a ∉ s.elems := hd a (by simp)
    have e1 : (s.insert a).elems = a :: s.elems := by simp [FSet.insert, h1]
    have h2 := ih (s.insert a) hl.2 (by
      intro x hx
      rw [e1, List.mem_cons]
      rintro (rfl | h)
      · exact hl.1 hx
      · exact hd x (List.mem_cons_of_mem _ hx) h)
    rw [List.foldl_cons]
    refine h2.trans ?_
    rw [e1, List.cons_append]
    exact List.perm_middle

end Verif
