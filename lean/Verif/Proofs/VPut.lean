import Verif.Proofs.TreeHash
/-! Pure update of a versioned tree and its specification. -/

namespace Verif.Jmt
variable {D : Type}

inductive Upd (D : Type) where
  | notChanged
  | removed
  | updated (t : VTree D)

namespace VTree

def noCh : Nibble → VTree D := fun _ => .empty

/-- The chain of internal nodes above two leaves that share a prefix. -/
def fork (ver : Version) (m : Bool) (k' : Key) (h' : D) (k : Key) (h : D) : List Nibble → List Nibble → VTree D
  | a :: as, b :: bs =>
    if a = b then .node ver true (upd noCh a (fork ver m k' h' k h as bs))
    else .node ver m (upd (upd noCh a (.leaf ver k' h')) b (.leaf ver k h))
  | _, _ => .empty

/-- Rebuild a node from changed children, collapsing a single leaf. -/
def finish (ver : Version) (ch : Nibble → VTree D) : Upd D :=
  match (List.finRange 16).filter (fun i => !(ch i).isEmpty) with
  | [] => .removed
  | [i] =>
    match ch i with
    | .leaf _ k h => .updated (.leaf ver k h)
    | _ => .updated (.node ver true ch)
  | _ => .updated (.node ver true ch)

/-- Update of key `k` (`none` deletes), `rest` the nibbles of `k` below the tree. -/
def put (ver : Version) (m : Bool) (k : Key) (x : Option D) : List Nibble → VTree D → Upd D
  | _, .empty =>
    match x with
    | some h => .updated (.leaf ver k h)
    | none => .notChanged
  | rest, .leaf _ k' h' =>
    if k' = k then
      match x with
      | some h => .updated (.leaf ver k h)
      | none => .removed
    else
      match x with
      | some h => .updated (fork ver m k' h' k h (k'.nibbles.drop (64 - rest.length)) rest)
      | none => .notChanged
  | [], .node _ _ _ => .notChanged
  | i :: rest, .node _ _ ch =>
    match put ver m k x rest (ch i) with
    | .notChanged => .notChanged
    | .removed => finish ver (upd ch i .empty)
    | .updated t => finish ver (upd ch i t)

/-- The tree after an update. -/
def after (t : VTree D) : Upd D → VTree D
  | .notChanged => t
  | .removed => .empty
  | .updated t' => t'

/-! entries of changed children -/

theorem mem_entries_node {v : Version} {m : Bool} {ch : Nibble → VTree D} {e : Key × D} :
    e ∈ (VTree.node v m ch).entries ↔ ∃ i, e ∈ (ch i).entries := by
  simp [entries]

theorem isEmpty_iff {t : VTree D} : t.isEmpty = true ↔ t = .empty := by cases t <;> simp [isEmpty]

theorem entries_node_filter (v : Version) (m : Bool) (ch : Nibble → VTree D) :
    (VTree.node v m ch).entries = ((List.finRange 16).filter (fun i => !(ch i).isEmpty)).flatMap (fun i => (ch i).entries) := by
  simp only [entries]
  induction (List.finRange 16) with
  | nil => rfl
  | cons a t ih =>
    rw [List.flatMap_cons, List.filter_cons, ih]
    cases h : (ch a).isEmpty
    · simp
    · rw [isEmpty_iff] at h; simp [h, entries]

/-- Two keys in two different children. -/
theorem entries_two {v : Version} {m : Bool} {ch : Nibble → VTree D} {i j : Nibble} (hij : i ≠ j)
    {a b : Key × D} (ha : a ∈ (ch i).entries) (hb : b ∈ (ch j).entries) {p : List Nibble}
    (hw : ∀ i, WF (p ++ [i]) (ch i)) : 2 ≤ (VTree.node v m ch).entries.length := by
  have hm1 : a ∈ (VTree.node v m ch).entries := mem_entries_node.2 ⟨i, ha⟩
  have hm2 : b ∈ (VTree.node v m ch).entries := mem_entries_node.2 ⟨j, hb⟩
  have hne : a ≠ b := by
    rintro rfl
    have h1 := mem_entries_prefix (k := a.1) (x := a.2) (hw i) ha
    have h2 := mem_entries_prefix (k := a.1) (x := a.2) (hw j) hb
    rcases Nat.lt_or_ge i.val j.val with h | h
    · exact Key.lt_irrefl _ (prefix_snoc_lt h1 h2 h)
    · exact Key.lt_irrefl _ (prefix_snoc_lt h2 h1 (Fin.lt_def.2 (by
        have : i.val ≠ j.val := fun h => hij (Fin.ext h)
        omega)))
  match hl : (VTree.node v m ch).entries with
  | [] => rw [hl] at hm1; simp at hm1
  | [x] =>
    rw [hl] at hm1 hm2
    simp only [List.mem_singleton] at hm1 hm2
    exact absurd (hm1.trans hm2.symm) hne
  | _ :: _ :: _ => simp

theorem finish_spec {ver : Version} {p : List Nibble} {ch : Nibble → VTree D} (hw : ∀ i, WF (p ++ [i]) (ch i)) (t : VTree D) :
    WF p (after t (finish ver ch)) ∧ (after t (finish ver ch)).entries = (VTree.node ver true ch).entries ∧
    finish ver ch ≠ .notChanged ∧ (∀ t', finish ver ch = .updated t' → t' ≠ .empty ∧ t'.version = ver) := by
  have he := entries_node_filter ver true ch
  unfold finish
  match hf : (List.finRange 16).filter (fun i => !(ch i).isEmpty) with
  | [] =>
    rw [hf] at he
    simp only [List.flatMap_nil] at he
    refine ⟨trivial, ?_, by simp, by simp⟩
    rw [he]; rfl
  | [i] =>
    rw [hf] at he
    simp only [List.flatMap_cons, List.flatMap_nil, List.append_nil] at he
    have hwi := hw i
    cases hi : ch i with
    | empty =>
      have : i ∈ (List.finRange 16).filter (fun i => !(ch i).isEmpty) := by rw [hf]; simp
      simp [List.mem_filter, hi, isEmpty] at this
    | leaf v k x =>
      rw [hi] at he hwi
      simp only [hi]
      refine ⟨(List.prefix_append p [i]).trans hwi, he.symm, by simp, ?_⟩
      intro t' ht'
      cases ht'
      exact ⟨by simp, rfl⟩
    | node v m ch' =>
      rw [hi] at he hwi
      simp only [hi]
      refine ⟨⟨hw, ?_⟩, rfl, by simp, ?_⟩
      · rw [he]; exact hwi.2
      · intro t' ht'
        cases ht'
        exact ⟨by simp, rfl⟩
  | i :: j :: l =>
    refine ⟨⟨hw, ?_⟩, rfl, by simp, ?_⟩
    · have hne : ∀ x ∈ i :: j :: l, ch x ≠ .empty := by
        intro x hx
        rw [← hf, List.mem_filter] at hx
        intro h0
        rw [h0] at hx
        simp [isEmpty] at hx
      rw [he, hf]
      simp only [List.flatMap_cons, List.length_append]
      have h1 := List.length_pos_iff.2 (fun h => hne i (by simp) ((entries_eq_nil (hw i)).1 h))
      have h2 := List.length_pos_iff.2 (fun h => hne j (by simp) ((entries_eq_nil (hw j)).1 h))
      omega
    · intro t' ht'
      cases ht'
      exact ⟨by simp, rfl⟩

theorem fork_spec {ver : Version} {m : Bool} {k' k : Key} {h' h : D} (p r' r : List Nibble)
    (hk' : k'.nibbles = p ++ r') (hk : k.nibbles = p ++ r) (hne : k' ≠ k) :
    WF p (fork ver m k' h' k h r' r) ∧ fork ver m k' h' k h r' r ≠ .empty ∧
    (fork ver m k' h' k h r' r).version = ver ∧
    (∀ e, e ∈ (fork ver m k' h' k h r' r).entries ↔ e = (k', h') ∨ e = (k, h)) := by
  have hl' : p.length + r'.length = 64 := by rw [← List.length_append, ← hk']; simp
  have hl : p.length + r.length = 64 := by rw [← List.length_append, ← hk]; simp
  induction r' generalizing p r with
  | nil =>
    exfalso
    simp at hl'
    have : r = [] := List.length_eq_zero_iff.1 (by omega)
    subst this
    exact hne (Key.nibbles_inj (hk'.trans hk.symm))
  | cons a as ih =>
    cases r with
    | nil =>
      exfalso
      simp at hl hl'; omega
    | cons b bs =>
      unfold fork
      by_cases hab : a = b
      · subst hab
        simp only [if_true]
        obtain ⟨w, n, vv, e⟩ := ih (p ++ [a]) bs (by rw [hk']; simp) (by rw [hk]; simp)
          (by simp at hl' ⊢; omega) (by simp at hl ⊢; omega)
        have hw : ∀ i, WF (p ++ [i]) (upd noCh a (fork ver m k' h' k h as bs) i) := by
          intro i
          by_cases hi : i = a
          · subst hi; rw [upd_same]; exact w
          · rw [upd_ne _ _ hi]; trivial
        have hme : ∀ e, e ∈ (VTree.node ver true (upd noCh a (fork ver m k' h' k h as bs))).entries ↔ e = (k', h') ∨ e = (k, h) := by
          intro x
          rw [mem_entries_node, ← e]
          constructor
          · rintro ⟨i, hi⟩
            by_cases hia : i = a
            · subst hia; rwa [upd_same] at hi
            · rw [upd_ne _ _ hia] at hi; simp [noCh, entries] at hi
          · intro hx; exact ⟨a, by rwa [upd_same]⟩
        refine ⟨⟨hw, ?_⟩, by simp, rfl, hme⟩
        have h1 : (k', h') ∈ (VTree.node ver true (upd noCh a (fork ver m k' h' k h as bs))).entries := (hme _).2 (.inl rfl)
        have h2 : (k, h) ∈ (VTree.node ver true (upd noCh a (fork ver m k' h' k h as bs))).entries := (hme _).2 (.inr rfl)
        match hlst : (VTree.node ver true (upd noCh a (fork ver m k' h' k h as bs))).entries with
        | [] => rw [hlst] at h1; simp at h1
        | [x] =>
          rw [hlst] at h1 h2
          simp only [List.mem_singleton] at h1 h2
          have := h1.trans h2.symm
          simp only [Prod.mk.injEq] at this
          exact absurd this.1 hne
        | _ :: _ :: _ => simp
      · simp only [hab, if_false]
        have hba : b ≠ a := Ne.symm hab
        have hw : ∀ i, WF (p ++ [i]) (upd (upd noCh a (.leaf ver k' h')) b (.leaf ver k h) i) := by
          intro i
          by_cases hi : i = b
          · subst hi; rw [upd_same]; exact ⟨bs, by rw [hk]; simp⟩
          · rw [upd_ne _ _ hi]
            by_cases hi : i = a
            · subst hi; rw [upd_same]; exact ⟨as, by rw [hk']; simp⟩
            · rw [upd_ne _ _ hi]; trivial
        refine ⟨⟨hw, ?_⟩, by simp, rfl, ?_⟩
        · refine entries_two (i := a) (j := b) (a := (k', h')) (b := (k, h)) hab ?_ ?_ hw
          · rw [upd_ne _ _ hab, upd_same]; simp [entries]
          · rw [upd_same]; simp [entries]
        · intro x
          rw [mem_entries_node]
          constructor
          · rintro ⟨i, hi⟩
            by_cases hib : i = b
            · subst hib; rw [upd_same] at hi; right; simpa [entries] using hi
            · rw [upd_ne _ _ hib] at hi
              by_cases hia : i = a
              · subst hia; rw [upd_same] at hi; left; simpa [entries] using hi
              · rw [upd_ne _ _ hia] at hi; simp [noCh, entries] at hi
          · rintro (rfl | rfl)
            · exact ⟨a, by rw [upd_ne _ _ hab, upd_same]; simp [entries]⟩
            · exact ⟨b, by rw [upd_same]; simp [entries]⟩

theorem wf_upd {p : List Nibble} {ch : Nibble → VTree D} (hw : ∀ i, WF (p ++ [i]) (ch i)) {i : Nibble} {t : VTree D}
    (ht : WF (p ++ [i]) t) : ∀ j, WF (p ++ [j]) (upd ch i t j) := by
  intro j
  by_cases hj : j = i
  · subst hj; rwa [upd_same]
  · rw [upd_ne _ _ hj]; exact hw j

/-- What an update does to the contents. -/
theorem put_spec {ver : Version} {m : Bool} {k : Key} {x : Option D} (t : VTree D) (p rest : List Nibble)
    (hk : k.nibbles = p ++ rest) (hw : WF p t) :
    WF p (after t (put ver m k x rest t)) ∧
    (∀ e, e ∈ (after t (put ver m k x rest t)).entries ↔ (e.1 = k ∧ x = some e.2) ∨ (e.1 ≠ k ∧ e ∈ t.entries)) ∧
    (put ver m k x rest t = .notChanged ∨ put ver m k x rest t = .removed → x = none) ∧
    (∀ t', put ver m k x rest t = .updated t' → t' ≠ .empty ∧ t'.version = ver) := by
  have hl : p.length + rest.length = 64 := by rw [← List.length_append, ← hk]; simp
  induction t generalizing p rest with
  | empty =>
    cases x with
    | none => simp [put, after, WF, entries]
    | some h =>
      simp only [put, after, WF, entries, reduceCtorEq, or_self, false_imp_iff, true_and, List.mem_singleton,
        List.not_mem_nil, and_false, or_false, Option.some.injEq]
      refine ⟨⟨rest, hk.symm⟩, ?_, ?_⟩
      · rintro ⟨a, b⟩; simp [eq_comm]
      · intro t' ht'; cases ht'; exact ⟨by simp, rfl⟩
  | leaf v k' h' =>
    unfold put
    by_cases hkk : k' = k
    · subst hkk
      simp only [if_true]
      cases x with
      | none =>
        simp only [after, WF, entries, List.not_mem_nil, false_iff, List.mem_singleton, reduceCtorEq, and_false,
          false_or, imp_true_iff, true_and, false_imp_iff, and_true]
        rintro ⟨a, b⟩
        simp only [Prod.mk.injEq]
        rintro ⟨h1, h2, h3⟩; exact h1 h2
      | some h =>
        simp only [after, WF, entries, reduceCtorEq, or_self, false_imp_iff, true_and, List.mem_singleton,
          Option.some.injEq]
        refine ⟨⟨rest, hk.symm⟩, ?_, ?_⟩
        · rintro ⟨a, b⟩
          simp only [Prod.mk.injEq]
          constructor
          · rintro ⟨rfl, rfl⟩; simp
          · rintro (⟨rfl, rfl⟩ | ⟨h1, h2, h3⟩)
            · simp
            · exact absurd h2 h1
        · intro t' ht'; cases ht'; exact ⟨by simp, rfl⟩
    · simp only [hkk, if_false]
      cases x with
      | none =>
        refine ⟨hw, ?_, by simp, by simp⟩
        rintro ⟨a, b⟩
        simp only [after, entries, List.mem_singleton, Prod.mk.injEq, reduceCtorEq, and_false, false_or]
        constructor
        · rintro ⟨rfl, rfl⟩; exact ⟨hkk, rfl, rfl⟩
        · rintro ⟨_, h⟩; exact h
      | some h =>
        have hk' : k'.nibbles = p ++ k'.nibbles.drop (64 - rest.length) := by
          have hp : 64 - rest.length = p.length := by omega
          rw [hp]
          obtain ⟨y, hy⟩ := hw
          rw [← hy]; simp
        obtain ⟨w, n, vv, e⟩ := fork_spec (ver := ver) (m := m) (h' := h') (h := h) p _ rest hk' hk hkk
        refine ⟨w, ?_, by simp, ?_⟩
        · rintro ⟨a, b⟩
          simp only [after, e, entries, List.mem_singleton, Prod.mk.injEq, Option.some.injEq]
          constructor
          · rintro (⟨rfl, rfl⟩ | ⟨rfl, rfl⟩)
            · exact .inr ⟨hkk, rfl, rfl⟩
            · exact .inl ⟨rfl, rfl⟩
          · rintro (⟨rfl, rfl⟩ | ⟨_, rfl, rfl⟩)
            · exact .inr ⟨rfl, rfl⟩
            · exact .inl ⟨rfl, rfl⟩
        · intro t' ht'; cases ht'; exact ⟨n, vv⟩
  | node v mm ch ih =>
    cases rest with
    | nil => have := wf_node_length hw; simp at hl; omega
    | cons i rest =>
      have hk2 : k.nibbles = (p ++ [i]) ++ rest := by rw [hk]; simp
      obtain ⟨w, e, nn, u⟩ := ih i (p ++ [i]) rest hk2 (hw.1 i) (by simp at hl ⊢; omega)
      -- other children do not hold `k`
      have hother : ∀ j a, j ≠ i → a ∈ (ch j).entries → a.1 ≠ k := by
        rintro j ⟨a, b⟩ hj ha rfl
        have h1 := mem_entries_prefix (hw.1 j) ha
        rw [hk2] at h1
        have h2 : p ++ [j] <+: p ++ [i] := by
          refine List.prefix_of_prefix_length_le h1 (List.prefix_append _ _) (by simp)
        have := (List.prefix_append_right_inj p).1 h2
        simp at this
        exact hj this
      have hent : ∀ t', (∀ e, e ∈ t'.entries ↔ (e.1 = k ∧ x = some e.2) ∨ (e.1 ≠ k ∧ e ∈ (ch i).entries)) →
          ∀ e, e ∈ (VTree.node ver true (upd ch i t')).entries ↔
            (e.1 = k ∧ x = some e.2) ∨ (e.1 ≠ k ∧ e ∈ (VTree.node v mm ch).entries) := by
        intro t' ht' a
        rw [mem_entries_node, mem_entries_node]
        constructor
        · rintro ⟨j, hj⟩
          by_cases hji : j = i
          · subst hji
            rw [upd_same, ht'] at hj
            rcases hj with h | ⟨h1, h2⟩
            · exact .inl h
            · exact .inr ⟨h1, j, h2⟩
          · rw [upd_ne _ _ hji] at hj
            exact .inr ⟨hother j a hji hj, j, hj⟩
        · rintro (h | ⟨h1, j, h2⟩)
          · exact ⟨i, by rw [upd_same, ht']; exact .inl h⟩
          · by_cases hji : j = i
            · subst hji; exact ⟨j, by rw [upd_same, ht']; exact .inr ⟨h1, h2⟩⟩
            · exact ⟨j, by rw [upd_ne _ _ hji]; exact h2⟩
      unfold put
      cases hr : put ver m k x rest (ch i) with
      | notChanged =>
        rw [hr] at w e nn
        have hx := nn (.inl rfl)
        refine ⟨hw, ?_, fun _ => hx, by simp⟩
        intro a
        simp only [after, hx, reduceCtorEq, and_false, false_or]
        constructor
        · intro ha
          refine ⟨?_, ha⟩
          rintro hak
          rw [mem_entries_node] at ha
          obtain ⟨j, hj⟩ := ha
          by_cases hji : j = i
          · subst hji
            have := (e a).1 hj
            rw [hx] at this
            simp [hak] at this
          · exact hother j a hji hj hak
        · exact fun h => h.2
      | removed =>
        rw [hr] at w e nn
        simp only [after] at w e
        have hx := nn (.inr rfl)
        obtain ⟨f1, f2, f3, f4⟩ := finish_spec (ver := ver) (wf_upd hw.1 w) (.node v mm ch)
        simp only
        refine ⟨f1, ?_, fun _ => hx, f4⟩
        intro a
        rw [f2]
        exact hent _ e a
      | updated t' =>
        rw [hr] at w e
        simp only [after] at w e
        obtain ⟨f1, f2, f3, f4⟩ := finish_spec (ver := ver) (wf_upd hw.1 w) (.node v mm ch)
        simp only
        refine ⟨f1, ?_, ?_, f4⟩
        · intro a
          rw [f2]
          exact hent _ e a
        · rintro (h | h)
          · exact absurd h f3
          · -- the updated child is not empty, so the node is not removed
            exfalso
            have hne := (u t' hr).1
            have hnil : (VTree.node ver true (upd ch i t')).entries = [] := by
              have := f2
              simp only [after] at this
              rw [show finish ver (upd ch i t') = .removed from h] at this
              exact this.symm
            apply hne
            rw [← entries_eq_nil w]
            rw [entries, List.flatMap_eq_nil_iff] at hnil
            have := hnil i (by simp)
            rwa [upd_same] at this

end VTree
end Verif.Jmt
