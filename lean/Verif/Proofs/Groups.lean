import Verif.Proofs.BatchTree
/-! `NibbleRangeIterator` splits sorted entries by their nibble. -/

namespace Verif.Jmt
variable {D : Type}

/-- Nibbles at `idx` never decrease along the list. -/
def Mono (kvs : List (Key × D)) (idx : Nat) : Prop := ∀ i j, i ≤ j → j < kvs.length → nibAt kvs idx i ≤ nibAt kvs idx j

theorem nibAt_lt (kvs : List (Key × D)) (idx i : Nat) (h : i < kvs.length) : nibAt kvs idx i = (kvs[i]).1.nibble idx := by
  simp [nibAt, h]

theorem Under.mono {p : List Nibble} {kvs : List (Key × D)} (h : Under p kvs) (hp : p.length < 64) : Mono kvs p.length := by
  intro i j hij hj
  rw [nibAt_lt _ _ _ hj, nibAt_lt _ _ _ (by omega)]
  rcases Nat.eq_or_lt_of_le hij with rfl | hlt
  · exact Nat.le_refl _
  · have hlt := List.pairwise_iff_getElem.1 h.sorted i j (by omega) hj hlt
    by_contra hc
    rw [Fin.not_le] at hc
    have h1 := (prefix_snoc_iff hp (h.pre _ (List.getElem_mem (by omega : i < kvs.length))) _).2 rfl
    have h2 := (prefix_snoc_iff hp (h.pre _ (List.getElem_mem hj)) _).2 rfl
    exact Key.lt_irrefl _ (Key.lt_trans hlt (VTree.prefix_snoc_lt h2 h1 hc))

/-- The binary search ends at the last index of the nibble. -/
theorem lastOfNibble_spec {kvs : List (Key × D)} {idx : Nat} (hm : Mono kvs idx) (cur : Nibble) (fuel i j : Nat)
    (hf : j - i ≤ fuel) (hij : i ≤ j) (hj : j < kvs.length) (hi : nibAt kvs idx i = cur)
    (hgt : ∀ l, j < l → l < kvs.length → cur < nibAt kvs idx l) :
    i ≤ lastOfNibble kvs idx cur fuel i j ∧ lastOfNibble kvs idx cur fuel i j < kvs.length ∧
      nibAt kvs idx (lastOfNibble kvs idx cur fuel i j) = cur ∧
      ∀ l, lastOfNibble kvs idx cur fuel i j < l → l < kvs.length → cur < nibAt kvs idx l := by
  induction fuel generalizing i j with
  | zero =>
    have : i = j := by omega
    subst this
    exact ⟨Nat.le_refl _, hj, hi, hgt⟩
  | succ n ih =>
    rw [lastOfNibble]
    split
    · rename_i hlt
      dsimp only
      have hmid1 : i < j - (j - i) / 2 := by omega
      have hmid2 : j - (j - i) / 2 ≤ j := by omega
      split
      · rename_i hg
        refine ih i _ (by omega) (by omega) (by omega) hi ?_
        intro l hl hl'
        exact Nat.lt_of_lt_of_le hg (hm _ l (by omega) hl')
      · rename_i hg
        have hle : nibAt kvs idx (j - (j - i) / 2) ≤ cur := Fin.not_lt.1 hg
        have hge := hm i (j - (j - i) / 2) (by omega) (by omega)
        rw [hi] at hge
        have := ih (j - (j - i) / 2) j (by omega) hmid2 hj (Fin.le_antisymm hle hge) hgt
        exact ⟨by omega, this.2⟩
    · have : i = j := by omega
      subst this
      exact ⟨Nat.le_refl _, hj, hi, hgt⟩

/-- The groups from position `pos` on. -/
def groupsFrom (kvs : List (Key × D)) (idx fuel pos : Nat) : List (Nibble × List (Key × D)) :=
  (nibbleRanges kvs idx fuel pos).map (fun lr => (nibAt kvs idx lr.1, (kvs.drop lr.1).take (lr.2 + 1 - lr.1)))

theorem filter_all {α : Type} {P : α → Bool} {l : List α} (h : ∀ a ∈ l, P a = true) : l.filter P = l := List.filter_eq_self.2 h
theorem filter_none {α : Type} {P : α → Bool} {l : List α} (h : ∀ a ∈ l, P a = false) : l.filter P = [] := by
  rw [List.filter_eq_nil_iff]; intro a ha; rw [h a ha]; simp

theorem groupsFrom_spec {kvs : List (Key × D)} {idx : Nat} (hm : Mono kvs idx) (fuel pos : Nat) (hf : kvs.length - pos ≤ fuel) :
    ((groupsFrom kvs idx fuel pos).map Prod.fst).Nodup ∧
    (∀ i g, (i, g) ∈ groupsFrom kvs idx fuel pos → g = grp (kvs.drop pos) idx i ∧ g ≠ []) ∧
    (∀ i, grp (kvs.drop pos) idx i ≠ [] → i ∈ (groupsFrom kvs idx fuel pos).map Prod.fst) := by
  induction fuel generalizing pos with
  | zero =>
    have : kvs.drop pos = [] := List.drop_eq_nil_of_le (by omega)
    rw [this]
    simp [groupsFrom, nibbleRanges, grp]
  | succ n ih =>
    by_cases hp : pos < kvs.length
    · obtain ⟨g1, g2, g3, g4⟩ := lastOfNibble_spec hm (nibAt kvs idx pos) kvs.length pos (kvs.length - 1) (by omega) (by omega) (by omega)
        rfl (by intro l h1 h2; omega)
      generalize hr : lastOfNibble kvs idx (nibAt kvs idx pos) kvs.length pos (kvs.length - 1) = r at g1 g2 g3 g4
      have hgf : groupsFrom kvs idx (n + 1) pos = (nibAt kvs idx pos, (kvs.drop pos).take (r + 1 - pos)) :: groupsFrom kvs idx n (r + 1) := by
        unfold groupsFrom
        rw [nibbleRanges, nextRange, if_pos hp]
        simp only [hr, List.map_cons]
      obtain ⟨i1, i2, i3⟩ := ih (r + 1) (by omega)
      -- the list from `pos` splits at `r`
      have hsplit : kvs.drop pos = (kvs.drop pos).take (r + 1 - pos) ++ kvs.drop (r + 1) := by
        have := (List.take_append_drop (r + 1 - pos) (kvs.drop pos)).symm
        rw [List.drop_drop] at this
        rw [show pos + (r + 1 - pos) = r + 1 by omega] at this
        exact this
      have hfirst : ∀ e ∈ (kvs.drop pos).take (r + 1 - pos), e.1.nibble idx = nibAt kvs idx pos := by
        intro e he
        obtain ⟨j, hj, rfl⟩ := List.mem_iff_getElem.1 he
        simp only [List.length_take, List.length_drop] at hj
        rw [List.getElem_take, List.getElem_drop, ← nibAt_lt kvs idx (pos + j) (by omega)]
        apply Fin.le_antisymm
        · rw [← g3]; exact hm _ _ (by omega) g2
        · exact hm _ _ (by omega) (by omega)
      have hrest : ∀ e ∈ kvs.drop (r + 1), nibAt kvs idx pos < e.1.nibble idx := by
        intro e he
        obtain ⟨j, hj, rfl⟩ := List.mem_iff_getElem.1 he
        simp only [List.length_drop] at hj
        rw [List.getElem_drop, ← nibAt_lt kvs idx (r + 1 + j) (by omega)]
        exact g4 _ (by omega) (by omega)
      have hcur : grp (kvs.drop pos) idx (nibAt kvs idx pos) = (kvs.drop pos).take (r + 1 - pos) := by
        unfold grp
        rw [hsplit, List.filter_append, filter_all, filter_none, List.append_nil]
        · rw [← hsplit]
        · intro a ha
          rw [decide_eq_false_iff_not]
          exact Ne.symm (Fin.ne_of_lt (hrest a ha))
        · intro a ha
          rw [decide_eq_true_eq]
          exact hfirst a ha
      have hoth : ∀ i, i ≠ nibAt kvs idx pos → grp (kvs.drop pos) idx i = grp (kvs.drop (r + 1)) idx i := by
        intro i hi
        unfold grp
        rw [hsplit, List.filter_append, filter_none, List.nil_append]
        intro a ha
        rw [decide_eq_false_iff_not, hfirst a ha]
        exact Ne.symm hi
      have hnot : nibAt kvs idx pos ∉ (groupsFrom kvs idx n (r + 1)).map Prod.fst := by
        intro hmem
        rw [List.mem_map] at hmem
        obtain ⟨⟨i, g⟩, h1, h2⟩ := hmem
        simp only at h2
        subst h2
        obtain ⟨h3, h4⟩ := i2 _ _ h1
        obtain ⟨e, he⟩ := List.exists_mem_of_ne_nil _ h4
        rw [h3, mem_grp] at he
        have := hrest e he.1
        rw [he.2] at this
        exact absurd this (Fin.lt_irrefl _)
      rw [hgf]
      refine ⟨?_, ?_, ?_⟩
      · rw [List.map_cons, List.nodup_cons]; exact ⟨hnot, i1⟩
      · intro i g hmem
        rcases List.mem_cons.1 hmem with h | h
        · simp only [Prod.mk.injEq] at h
          obtain ⟨rfl, rfl⟩ := h
          refine ⟨hcur.symm, ?_⟩
          intro h0
          have := congrArg List.length h0
          simp only [List.length_take, List.length_drop, List.length_nil] at this
          omega
        · have hne : i ≠ nibAt kvs idx pos := by
            rintro rfl
            exact hnot (List.mem_map.2 ⟨_, h, rfl⟩)
          rw [hoth i hne]
          exact i2 i g h
      · intro i hi
        by_cases hne : i = nibAt kvs idx pos
        · rw [hne]; simp
        · rw [hoth i hne] at hi
          rw [List.map_cons]
          exact List.mem_cons_of_mem _ (i3 i hi)
    · have : kvs.drop pos = [] := List.drop_eq_nil_of_le (by omega)
      rw [this]
      simp [groupsFrom, nibbleRanges, nextRange, hp, grp]

/-- The groups are the classes of the entries by nibble. -/
theorem nibbleGroups_spec {p : List Nibble} {kvs : List (Key × D)} (h : Under p kvs) (hp : p.length < 64) :
    ((nibbleGroups kvs p.length).map Prod.fst).Nodup ∧
    (∀ i g, (i, g) ∈ nibbleGroups kvs p.length → g = grp kvs p.length i ∧ g ≠ []) ∧
    (∀ i, i ∈ (nibbleGroups kvs p.length).map Prod.fst ↔ grp kvs p.length i ≠ []) := by
  obtain ⟨h1, h2, h3⟩ := groupsFrom_spec (h.mono hp) kvs.length 0 (by omega)
  refine ⟨h1, fun i g hm => ?_, fun i => ⟨?_, fun hi => h3 i hi⟩⟩
  · exact h2 i g hm
  · intro hm
    rw [List.mem_map] at hm
    obtain ⟨⟨i', g⟩, hm, rfl⟩ := hm
    obtain ⟨e1, e2⟩ := h2 _ _ hm
    simp only [List.drop_zero] at e1
    rw [← e1]; exact e2

end Verif.Jmt
