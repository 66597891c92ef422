import Verif.Proofs.Freeze
/-! Counting the leaves that one version adds and retires. -/

namespace Verif.Jmt
variable {D : Type}
namespace VTree

/-- Node keys (relative) of all leaves. -/
def leaves : VTree D → List NodeKey
  | .empty => []
  | .leaf v _ _ => [⟨v, []⟩]
  | .node _ _ ch => (List.finRange 16).flatMap (fun i => (ch i).leaves.map (fun nk => ⟨nk.version, i :: nk.path⟩))

theorem leaves_length (t : VTree D) : t.leaves.length = t.entries.length := by
  induction t with
  | empty => rfl
  | leaf => rfl
  | node v m ch ih =>
    simp only [leaves, entries, List.length_flatMap, List.length_map]
    congr 1
    apply List.map_congr_left
    intro i _; exact ih i

theorem mem_leaves (H : Hasher D) {t : VTree D} {v : Version} {q : List Nibble} :
    (⟨v, q⟩ : NodeKey) ∈ t.leaves ↔ ∃ l, t.at? H v q = some (.leaf l) := by
  induction t generalizing q with
  | empty => simp [leaves]
  | leaf v' k h => simp [leaves, at?_leaf]
  | node v' m ch ih =>
    simp only [leaves, List.mem_flatMap, List.mem_finRange, true_and, List.mem_map, NodeKey.mk.injEq]
    cases q with
    | nil =>
      rw [at?_node_nil]
      simp only [reduceCtorEq, and_false, exists_false, false_iff, not_exists]
      intro l h
      split at h
      · simp [toNode] at h
      · cases h
    | cons i q =>
      rw [at?_node_cons, ← ih i]
      constructor
      · rintro ⟨j, ⟨v1, q1⟩, h1, rfl, h2⟩
        simp only [List.cons.injEq] at h2
        obtain ⟨rfl, rfl⟩ := h2
        exact h1
      · intro h; exact ⟨i, ⟨v, q⟩, h, rfl, rfl⟩

theorem leaves_nodup (t : VTree D) : t.leaves.Nodup := by
  induction t with
  | empty => simp [leaves]
  | leaf => simp [leaves]
  | node v m ch ih =>
    simp only [leaves]
    rw [List.Nodup, List.pairwise_flatMap]
    refine ⟨?_, ?_⟩
    · intro i _
      rw [List.pairwise_map]
      refine (ih i).imp ?_
      rintro ⟨a, b⟩ ⟨c, d⟩ hne he
      apply hne
      simpa using he
    · refine (List.nodup_finRange 16).imp ?_
      intro i j hij a ha b hb hab
      rw [List.mem_map] at ha hb
      obtain ⟨x, _, rfl⟩ := ha
      obtain ⟨y, _, rfl⟩ := hb
      simp at hab
      exact hij hab.2.1

theorem isSome_leaf {H : Hasher D} {t : VTree D} {v : Version} {q : List Nibble} {n : Node D} (h : t.at? H v q = some n) :
    (⟨v, q⟩ : NodeKey) ∈ t.leaves ↔ n.isLeaf = true := by
  rw [mem_leaves H, h]
  cases n <;> simp [Node.isLeaf]

theorem countP_add_not {α : Type} (p : α → Bool) (l : List α) : l.countP p + l.countP (fun a => !p a) = l.length := by
  induction l with
  | nil => rfl
  | cons a l ih => simp only [List.countP_cons, List.length_cons]; cases p a <;> simp <;> omega

/-- Retired and new leaves against the number of entries. `t` before, `t'` after (roots not retagged). -/
theorem leaf_diff {H : Hasher D} {ver : Version} {t t' : VTree D} (hlt : ∀ v q n, t.at? H v q = some n → v < ver)
    (hle : VerLe ver t') (hold : ∀ v q n, v < ver → t'.at? H v q = some n → t.at? H v q = some n) {L : List NodeKey} (hL : L.Nodup)
    (hm : ∀ v q, (⟨v, q⟩ : NodeKey) ∈ L ↔ v < ver ∧ (t.at? H v q).isSome = true ∧ t'.at? H v q = none)
    {base : NodeKey → Option (Node D)} (hb : ∀ v q n, t.at? H v q = some n → base ⟨v, q⟩ = some n) :
    t'.leaves.countP (fun nk => decide (nk.version = ver)) + t.entries.length =
      L.countP (fun nk => match base nk with | some n => n.isLeaf | none => false) + t'.entries.length := by
  -- leaves of both
  have hkept : t.leaves.countP (fun nk => decide (nk ∈ t'.leaves)) = t'.leaves.countP (fun nk => !decide (nk.version = ver)) := by
    rw [List.countP_eq_length_filter, List.countP_eq_length_filter]
    apply List.Perm.length_eq
    rw [List.perm_ext_iff_of_nodup ((leaves_nodup t).filter _) ((leaves_nodup t').filter _)]
    rintro ⟨v, q⟩
    simp only [List.mem_filter, decide_eq_true_eq, Bool.not_eq_true', decide_eq_false_iff_not]
    constructor
    · rintro ⟨h1, h2⟩
      obtain ⟨l, h1⟩ := (mem_leaves H).1 h1
      have := hlt v q _ h1
      exact ⟨h2, by omega⟩
    · rintro ⟨h1, h2⟩
      refine ⟨?_, h1⟩
      obtain ⟨l, h1⟩ := (mem_leaves H).1 h1
      have := at?_version_le hle h1
      exact (mem_leaves H).2 ⟨l, hold v q _ (by omega) h1⟩
  have hstale : L.countP (fun nk => match base nk with | some n => n.isLeaf | none => false) =
      t.leaves.countP (fun nk => !decide (nk ∈ t'.leaves)) := by
    rw [List.countP_eq_length_filter, List.countP_eq_length_filter]
    apply List.Perm.length_eq
    rw [List.perm_ext_iff_of_nodup (hL.filter _) ((leaves_nodup t).filter _)]
    rintro ⟨v, q⟩
    simp only [List.mem_filter, Bool.not_eq_true', decide_eq_false_iff_not, hm]
    constructor
    · rintro ⟨⟨h1, h2, h3⟩, h4⟩
      obtain ⟨n, hn⟩ := Option.isSome_iff_exists.1 h2
      rw [hb v q n hn] at h4
      refine ⟨(isSome_leaf hn).2 h4, ?_⟩
      intro hc
      obtain ⟨l, hc⟩ := (mem_leaves H).1 hc
      rw [h3] at hc; cases hc
    · rintro ⟨h1, h2⟩
      obtain ⟨l, hl⟩ := (mem_leaves H).1 h1
      refine ⟨⟨hlt v q _ hl, by rw [hl]; rfl, ?_⟩, by rw [hb v q _ hl]; rfl⟩
      cases hh : t'.at? H v q with
      | none => rfl
      | some n =>
        have := hold v q n (hlt v q _ hl) hh
        rw [hl] at this
        cases this
        exact absurd ((mem_leaves H).2 ⟨l, hh⟩) h2
  have h1 := countP_add_not (fun nk : NodeKey => decide (nk.version = ver)) t'.leaves
  have h2 := countP_add_not (fun nk : NodeKey => decide (nk ∈ t'.leaves)) t.leaves
  rw [leaves_length] at h1 h2
  rw [hstale]
  omega

/-- The new leaves of one version. -/
theorem new_leaves {H : Hasher D} {ver : Version} {t : VTree D} {N : FMap NodeKey (Node D)} (hN : N.NodupKeys)
    (hg : ∀ v q, N.get ⟨v, q⟩ = if v = ver then stored H ver t v q else none) :
    N.entries.countP (fun e => e.2.isLeaf) = t.leaves.countP (fun nk => decide (nk.version = ver)) := by
  have e1 : N.entries.countP (fun e => e.2.isLeaf) = ((N.entries.filter (fun e => e.2.isLeaf)).map Prod.fst).length := by
    rw [List.countP_eq_length_filter, List.length_map]
  rw [e1, List.countP_eq_length_filter]
  apply List.Perm.length_eq
  have hnd : ((N.entries.filter (fun e => e.2.isLeaf)).map Prod.fst).Nodup := by
    refine List.Nodup.sublist ?_ hN
    exact List.Sublist.map _ List.filter_sublist
  rw [List.perm_ext_iff_of_nodup hnd ((leaves_nodup t).filter _)]
  have hst : ∀ v q, ∀ n : Node D, n.isLeaf = true → (stored H ver t v q = some n ↔ t.at? H v q = some n) := by
    intro v q n hn
    cases t with
    | empty =>
      simp only [stored, at?_empty, reduceCtorEq, iff_false]
      intro h
      split at h
      · cases h; simp [Node.isLeaf] at hn
      · cases h
    | leaf => rfl
    | node => rfl
  rintro ⟨v, q⟩
  simp only [List.mem_map, List.mem_filter, decide_eq_true_eq]
  constructor
  · rintro ⟨⟨nk, n⟩, ⟨h1, h2⟩, rfl⟩
    have := FMap.get_of_mem hN h1
    rw [hg] at this
    split at this
    · rename_i hv
      rw [hst _ _ _ h2] at this
      exact ⟨(isSome_leaf this).2 h2, hv⟩
    · cases this
  · rintro ⟨h1, rfl⟩
    obtain ⟨l, hl⟩ := (mem_leaves H).1 h1
    have : N.get ⟨v, q⟩ = some (.leaf l) := by rw [hg, if_pos rfl, hst _ _ _ rfl]; exact hl
    exact ⟨(⟨v, q⟩, .leaf l), ⟨FMap.mem_of_get this, rfl⟩, rfl⟩

theorem leaves_setVersion_of_node {t : VTree D} (h : t.isLeaf = false) (w : Version) : (t.setVersion w).leaves = t.leaves := by
  cases t with
  | empty => rfl
  | leaf => simp [isLeaf] at h
  | node => rfl

theorem isLeaf_setVersion (t : VTree D) (w : Version) : (t.setVersion w).isLeaf = t.isLeaf := by cases t <;> rfl

theorem setVersion_self {t : VTree D} : t.setVersion t.version = t := by cases t <;> rfl

/-- Deleting an absent key changes nothing. -/
theorem put_absent (ver : Version) (m : Bool) (k : Key) (t : VTree D) : ∀ (rest : List Nibble),
    (∀ x, (k, x) ∉ t.entries) → put ver m k none rest t = .notChanged := by
  induction t with
  | empty => intro rest _; simp [put]
  | leaf v k' h' =>
    intro rest h
    have hne : k' ≠ k := by rintro rfl; exact h h' (by simp [entries])
    simp [put, hne]
  | node v mm ch ih =>
    intro rest h
    cases rest with
    | nil => rfl
    | cons i rest =>
      simp only [put]
      rw [ih i rest]
      intro x hx
      exact h x (mem_entries_node.2 ⟨i, hx⟩)

theorem applyOne_touched {ver : Version} {m : Bool} {k : Key} {x : Option D} {t : VTree D} (hw : WF [] t) :
    (x = none ∧ (∀ h, (k, h) ∉ t.entries) ∧ applyOne ver m k x t = t) ∨
    (¬ (x = none ∧ ∀ h, (k, h) ∉ t.entries) ∧ ((applyOne ver m k x t).version = ver ∨ applyOne ver m k x t = .empty)) := by
  obtain ⟨h1, h2, h3, h4⟩ := put_spec (ver := ver) (m := m) (k := k) (x := x) t [] k.nibbles (by simp) hw
  by_cases hq : x = none ∧ ∀ h, (k, h) ∉ t.entries
  · left
    refine ⟨hq.1, hq.2, ?_⟩
    unfold applyOne
    rw [hq.1, put_absent ver m k t _ hq.2]; rfl
  · right
    refine ⟨hq, ?_⟩
    unfold applyOne
    cases hp : put ver m k x k.nibbles t with
    | notChanged =>
      exfalso
      apply hq
      have hx := h3 (.inl hp)
      refine ⟨hx, fun h hm => ?_⟩
      rw [hp] at h2
      have := (h2 (k, h)).1 hm
      rw [hx] at this
      simp at this
    | removed => exact .inr rfl
    | updated t' => exact .inl (h4 t' hp).2

/-- A set of updates that can have no effect. -/
def QuietSet (s : List (Key × Option D)) (t : VTree D) : Prop := ∀ e ∈ s, e.2 = none ∧ ∀ h, (e.1, h) ∉ t.entries

theorem applySet_touched {ver : Version} {m : Bool} (s : List (Key × Option D)) {t : VTree D} (hw : WF [] t) :
    (QuietSet s t ∧ applySet ver m s t = t) ∨ (¬ QuietSet s t ∧ ((applySet ver m s t).version = ver ∨ applySet ver m s t = .empty)) := by
  have touched : ∀ (s : List (Key × Option D)) (t : VTree D), WF [] t → (t.version = ver ∨ t = .empty) →
      ((applySet ver m s t).version = ver ∨ applySet ver m s t = .empty) := by
    intro s
    induction s with
    | nil => intro t _ h; exact h
    | cons e s ih =>
      intro t hw h
      have hw' := (put_spec (ver := ver) (m := m) (k := e.1) (x := e.2) t [] e.1.nibbles (by simp) hw).1
      apply ih (applyOne ver m e.1 e.2 t) hw'
      rcases applyOne_touched (ver := ver) (m := m) (k := e.1) (x := e.2) hw with ⟨_, _, h3⟩ | ⟨_, h3⟩
      · rw [h3]; exact h
      · exact h3
  induction s generalizing t with
  | nil => left; exact ⟨by intro e he; simp at he, rfl⟩
  | cons e s ih =>
    have hw' := (put_spec (ver := ver) (m := m) (k := e.1) (x := e.2) t [] e.1.nibbles (by simp) hw).1
    have e0 : applySet ver m (e :: s) t = applySet ver m s (applyOne ver m e.1 e.2 t) := rfl
    rw [e0]
    rcases applyOne_touched (ver := ver) (m := m) (k := e.1) (x := e.2) hw with ⟨h1, h2, h3⟩ | ⟨h1, h3⟩
    · rw [h3]
      rcases ih hw with ⟨g1, g2⟩ | ⟨g1, g2⟩
      · left
        refine ⟨?_, g2⟩
        intro a ha
        rw [List.mem_cons] at ha
        rcases ha with rfl | ha
        · exact ⟨h1, h2⟩
        · exact g1 a ha
      · right
        refine ⟨fun hq => g1 (fun a ha => hq a (List.mem_cons_of_mem _ ha)), g2⟩
    · right
      exact ⟨fun hq => h1 (hq e List.mem_cons_self), touched s _ hw' h3⟩

end VTree
end Verif.Jmt
