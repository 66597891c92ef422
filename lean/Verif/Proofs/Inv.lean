import Verif.Proofs.Freeze
import Verif.Spec.History
/-! Invariant relating stored nodes and stale marks to the sequence of committed trees. -/

namespace Verif.Jmt
variable {D : Type}
open VTree

/-! facts on whole-set updates -/

theorem put_setVersion (ver w : Version) (m : Bool) (k : Key) (x : Option D) (rest : List Nibble) (t : VTree D) :
    VTree.put ver m k x rest (t.setVersion w) = VTree.put ver m k x rest t := by
  cases t with
  | empty => rfl
  | leaf v k' h' => cases rest <;> simp only [setVersion, VTree.put]
  | node v m ch =>
    cases rest with
    | nil => simp only [setVersion, VTree.put]
    | cons i rest => simp only [setVersion, VTree.put]

theorem setVersion_setVersion (w w' : Version) (t : VTree D) : (t.setVersion w').setVersion w = t.setVersion w := by
  cases t <;> rfl

theorem applyOne_setVersion (ver w : Version) (m : Bool) (k : Key) (x : Option D) (t : VTree D) :
    (applyOne ver m k x (t.setVersion w)).setVersion ver = (applyOne ver m k x t).setVersion ver := by
  unfold applyOne
  rw [put_setVersion]
  cases VTree.put ver m k x k.nibbles t with
  | notChanged => simp [after, setVersion_setVersion]
  | removed => rfl
  | updated t' => rfl

theorem applySet_setVersion (ver : Version) (m : Bool) (s : List (Key × Option D)) (t t' : VTree D)
    (h : t.setVersion ver = t'.setVersion ver) :
    (applySet ver m s t).setVersion ver = (applySet ver m s t').setVersion ver := by
  induction s generalizing t t' with
  | nil => exact h
  | cons e s ih =>
    apply ih
    rw [← applyOne_setVersion ver ver, h, applyOne_setVersion]

theorem setVersion_congr {t t' : VTree D} {w : Version} (h : t.setVersion w = t'.setVersion w) (w' : Version) :
    t.setVersion w' = t'.setVersion w' := by
  rw [← setVersion_setVersion w' w t, h, setVersion_setVersion]

theorem entries_setVersion (w : Version) (t : VTree D) : (t.setVersion w).entries = t.entries := by
  cases t <;> rfl

theorem wf_setVersion {w : Version} {p : List Nibble} {t : VTree D} (h : WF p t) : WF p (t.setVersion w) := by
  cases t with
  | empty => trivial
  | leaf => exact h
  | node => exact h

theorem verLe_setVersion {w : Version} {t : VTree D} (h : VerLe w t) : VerLe w (t.setVersion w) := by
  cases t with
  | empty => trivial
  | leaf => exact Nat.le_refl _
  | node => exact ⟨Nat.le_refl _, h.2⟩

theorem version_setVersion {w : Version} {t : VTree D} (h : t ≠ .empty) : (t.setVersion w).version = w := by
  cases t with
  | empty => exact absurd rfl h
  | leaf => rfl
  | node => rfl

theorem setVersion_eq_empty {w : Version} {t : VTree D} : t.setVersion w = .empty ↔ t = .empty := by
  cases t <;> simp [setVersion]

theorem hash_setVersion (H : Hasher D) (w : Version) (t : VTree D) : (t.setVersion w).hash H = t.hash H := by
  cases t <;> rfl

theorem toNode_setVersion (H : Hasher D) (w : Version) (t : VTree D) : (t.setVersion w).toNode H = t.toNode H := by
  cases t <;> rfl

theorem at?_setVersion_cons (H : Hasher D) (w : Version) (t : VTree D) (v : Version) (i : Nibble) (q : List Nibble) :
    (t.setVersion w).at? H v (i :: q) = t.at? H v (i :: q) := by
  cases t with
  | empty => rfl
  | leaf => simp [setVersion, at?_leaf]
  | node => simp [setVersion, at?_node_cons]

theorem at?_congr_cons {H : Hasher D} {t t' : VTree D} {w : Version} (h : t.setVersion w = t'.setVersion w) (v : Version) (i : Nibble)
    (q : List Nibble) : t.at? H v (i :: q) = t'.at? H v (i :: q) := by
  rw [← at?_setVersion_cons H w t, h, at?_setVersion_cons]

theorem stored_of_ne (H : Hasher D) {t : VTree D} (h : t ≠ .empty) (w v : Version) (q : List Nibble) :
    stored H w t v q = t.at? H v q := by
  cases t with
  | empty => exact absurd rfl h
  | leaf => rfl
  | node => rfl

theorem stored_cons (H : Hasher D) (t : VTree D) (w v : Version) (i : Nibble) (q : List Nibble) :
    stored H w t v (i :: q) = t.at? H v (i :: q) := by
  cases t with
  | empty => simp [stored]
  | leaf => rfl
  | node => rfl

/-- The tree committed at version `ver`. -/
def commitTree (H : Hasher D) (m : Bool) (ver : Version) (s : Tree.ValueSet) (t : VTree D) : VTree D :=
  (applySet ver m (hashSet H s) t).setVersion ver

/-- Nodes and stale marks of a store (or of a cache above a store) in which the trees `T w`, `v0 ≤ w < next`,
have been committed and everything below version `lo` may have been pruned. -/
structure Inv (H : Hasher D) (N : NodeKey → Option (Node D)) (St : Version → NodeKey → Prop) (T : Version → VTree D)
    (v0 next lo : Version) : Prop where
  le : v0 ≤ next
  loLt : lo < next ∨ lo = v0
  loge : v0 ≤ lo
  tree : ∀ w, v0 ≤ w → w < next → WF [] (T w) ∧ VerLe w (T w) ∧ (T w ≠ .empty → (T w).version = w)
  chain : ∀ w, v0 ≤ w → w + 1 < next → ∀ v q n, v ≤ w → (T (w + 1)).at? H v q = some n → (T w).at? H v q = some n
  nodes : ∀ w, lo ≤ w → w < next → ∀ v q n, stored H w (T w) v q = some n → N ⟨v, q⟩ = some n
  dom : ∀ v q n, N ⟨v, q⟩ = some n → v0 ≤ v ∧ v < next ∧ stored H v (T v) v q = some n
  stale : ∀ s v q, St s ⟨v, q⟩ → v < s ∧ s < next ∧ lo < s ∧ (N ⟨v, q⟩).isSome = true ∧
    ∀ w, s ≤ w → w < next → stored H w (T w) v q = none
  uniq : ∀ s s' nk, St s nk → St s' nk → s = s'
  complete : ∀ w, lo ≤ w → w + 1 < next → ∀ v i q, ((T w).at? H v (i :: q)).isSome = true →
    (T (w + 1)).at? H v (i :: q) = none → St (w + 1) ⟨v, i :: q⟩
  wasIn : ∀ s v i q, St s ⟨v, i :: q⟩ → ((T (s - 1)).at? H v (i :: q)).isSome = true
  live : ∀ v i q n, N ⟨v, i :: q⟩ = some n → ∃ w, lo ≤ w ∧ w < next ∧ (T w).at? H v (i :: q) = some n

/-- The tree a running cache starts from: the last committed tree up to the version tag of its root. -/
structure Running (H : Hasher D) (N : NodeKey → Option (Node D)) (St : Version → NodeKey → Prop) (T : Version → VTree D)
    (v0 next : Version) (t : VTree D) : Prop where
  first : next = v0 → t = .empty
  last : v0 < next → t.setVersion 0 = (T (next - 1)).setVersion 0
  root : t ≠ .empty → N ⟨t.version, []⟩ = some (t.toNode H) ∧ v0 ≤ t.version ∧ t.version < next ∧ ∀ s, ¬ St s ⟨t.version, []⟩

theorem Running.ofLast {H : Hasher D} {N : NodeKey → Option (Node D)} {St : Version → NodeKey → Prop} {T : Version → VTree D}
    {v0 next lo : Version} (h : Inv H N St T v0 next lo) (hlt : v0 < next) : Running H N St T v0 next (T (next - 1)) := by
  have hlo : lo ≤ next - 1 := by have := h.loLt; omega
  refine ⟨by omega, fun _ => rfl, ?_⟩
  intro hne
  have hv := (h.tree (next - 1) (by omega) (by omega)).2.2 hne
  have hst : stored H (next - 1) (T (next - 1)) (T (next - 1)).version [] = some ((T (next - 1)).toNode H) := by
    rw [stored_of_ne H hne, at?_nil H hne, if_pos rfl]
  refine ⟨h.nodes (next - 1) hlo (by omega) _ _ _ hst, by omega, by omega, ?_⟩
  intro s hs
  obtain ⟨h1, h2, h3, h4, h5⟩ := h.stale s _ _ hs
  omega

/-- Old nodes of the running tree are present and not stale. -/
theorem Running.present {H : Hasher D} {N : NodeKey → Option (Node D)} {St : Version → NodeKey → Prop} {T : Version → VTree D}
    {v0 next lo : Version} {t : VTree D} (h : Inv H N St T v0 next lo) (hr : Running H N St T v0 next t) {v : Version}
    {q : List Nibble} {n : Node D} (hn : t.at? H v q = some n) : N ⟨v, q⟩ = some n ∧ v < next ∧ ∀ s, ¬ St s ⟨v, q⟩ := by
  have hne : t ≠ .empty := by rintro rfl; simp at hn
  have hlt : v0 < next := by
    have := h.le
    by_contra hc
    exact hne (hr.first (by omega))
  have hlo : lo ≤ next - 1 := by have := h.loLt; omega
  cases q with
  | nil =>
    rw [at?_nil H hne] at hn
    split at hn
    · rename_i hv
      cases hn
      obtain ⟨a, b, c, d⟩ := hr.root hne
      rw [hv]; exact ⟨a, c, d⟩
    · cases hn
  | cons i q =>
    rw [at?_congr_cons (hr.last hlt)] at hn
    have htr := h.tree (next - 1) (by omega) (by omega)
    have hle := at?_version_le htr.2.1 hn
    refine ⟨h.nodes (next - 1) hlo (by omega) v (i :: q) n (by rw [stored_cons]; exact hn), by omega, ?_⟩
    intro s hs
    obtain ⟨h1, h2, h3, h4, h5⟩ := h.stale s _ _ hs
    have := h5 (next - 1) (by omega) (by omega)
    rw [stored_cons, hn] at this; cases this

/-- Committing one more version. -/
theorem Inv.step {H : Hasher D} {N N' : NodeKey → Option (Node D)} {St St' : Version → NodeKey → Prop} {T : Version → VTree D}
    {v0 next lo : Version} {t t' : VTree D} (h : Inv H N St T v0 next lo) (hr : Running H N St T v0 next t)
    (hwf : WF [] t') (hle : VerLe next t') (hold : ∀ v q n, v < next → t'.at? H v q = some n → t.at? H v q = some n)
    (hsame : t' = t ∨ t'.version = next ∨ t' = .empty)
    (hN : ∀ v q, N' ⟨v, q⟩ = (if v = next then stored H next (t'.setVersion next) v q else none).or (N ⟨v, q⟩))
    (hSt : ∀ s v q, St' s ⟨v, q⟩ ↔ St s ⟨v, q⟩ ∨ (s = next ∧ v < next ∧ (t.at? H v q).isSome = true ∧ t'.at? H v q = none)) :
    Inv H N' St' (fun w => if w = next then t'.setVersion next else T w) v0 (next + 1) lo ∧
    Running H N' St' (fun w => if w = next then t'.setVersion next else T w) v0 (next + 1) t' := by
  have hNlt : ∀ v q n, v < next → N ⟨v, q⟩ = some n → N' ⟨v, q⟩ = some n := by
    intro v q n hv hn
    rw [hN, if_neg (by omega), hn]; rfl
  have hNlt' : ∀ v q n, N ⟨v, q⟩ = some n → v ≠ next := by
    intro v q n hn
    have := h.dom v q n hn; omega
  have hchild : ∀ v i q, (t'.setVersion next).at? H v (i :: q) = t'.at? H v (i :: q) := at?_setVersion_cons H next t'
  constructor
  · refine ⟨by have := h.le; omega, by have := h.loLt; omega, h.loge, ?_, ?_, ?_, ?_, ?_, ?_, ?_, ?_, ?_⟩
    · intro w hw0 hw
      by_cases hwn : w = next
      · subst hwn
        simp only [if_true]
        refine ⟨wf_setVersion hwf, verLe_setVersion hle, ?_⟩
        intro hne
        exact version_setVersion (fun h0 => hne (by rw [h0]; rfl))
      · simp only [hwn, if_false]
        exact h.tree w hw0 (by omega)
    · intro w hw0 hw v q n hv hn
      have hwn : w ≠ next := by omega
      simp only [hwn, if_false]
      by_cases hwn' : w + 1 = next
      · simp only [hwn', if_true] at hn
        cases q with
        | nil =>
          have hne : t'.setVersion next ≠ .empty := by intro h0; rw [h0] at hn; simp at hn
          rw [at?_nil H hne, version_setVersion (fun h0 => hne (by rw [h0]; rfl)), if_neg (by omega)] at hn
          cases hn
        | cons i q =>
          rw [hchild] at hn
          have := hold v _ n (by omega) hn
          rw [at?_congr_cons (hr.last (by omega))] at this
          have e : next - 1 = w := by omega
          rwa [e] at this
      · simp only [hwn', if_false] at hn
        exact h.chain w hw0 (by omega) v q n hv hn
    · intro w hlo hw v q n hn
      by_cases hwn : w = next
      · subst hwn
        simp only [if_true] at hn
        by_cases hv : v = w
        · subst hv
          rw [hN, if_pos rfl, hn]; rfl
        · have hne : t' ≠ .empty := by
            rintro rfl
            simp [setVersion, stored] at hn
            exact hv hn.1.1
          rw [stored_of_ne H (by rw [Ne, setVersion_eq_empty]; exact hne)] at hn
          cases q with
          | nil =>
            rw [at?_nil H (by rw [Ne, setVersion_eq_empty]; exact hne), version_setVersion hne, if_neg hv] at hn
            cases hn
          | cons i q =>
            rw [hchild] at hn
            have hvle := at?_version_le hle hn
            have := hold v _ n (by omega) hn
            exact hNlt v _ n (by omega) (hr.present h this).1
      · simp only [hwn, if_false] at hn
        have := h.nodes w hlo (by omega) v q n hn
        have hd := h.dom v q n this
        exact hNlt v q n hd.2.1 this
    · intro v q n hn
      rw [hN] at hn
      by_cases hv : v = next
      · subst hv
        simp only [if_true] at hn ⊢
        cases hs : stored H v (t'.setVersion v) v q with
        | some n' =>
          rw [hs] at hn
          simp only [Option.some_or, Option.some.injEq] at hn
          subst hn
          exact ⟨h.le, by omega, rfl⟩
        | none =>
          rw [hs, Option.none_or] at hn
          exact absurd rfl (hNlt' v q n hn)
      · simp only [hv, if_false, Option.none_or] at hn ⊢
        have := h.dom v q n hn
        exact ⟨this.1, by omega, this.2.2⟩
    · intro s v q hs
      rw [hSt] at hs
      rcases hs with hs | ⟨rfl, hv, hsome, hnone⟩
      · obtain ⟨h1, h2, h3, h4, h5⟩ := h.stale s v q hs
        obtain ⟨n, hn⟩ := Option.isSome_iff_exists.1 h4
        refine ⟨h1, by omega, h3, by rw [hNlt v q n (by omega) hn]; rfl, ?_⟩
        intro w hw hw'
        by_cases hwn : w = next
        · subst hwn
          simp only [if_true]
          cases q with
          | nil =>
            by_cases hne : t' = .empty
            · subst hne; simp only [setVersion, stored]; rw [if_neg (by omega)]
            · rw [stored_of_ne H (by rw [Ne, setVersion_eq_empty]; exact hne),
                at?_nil H (by rw [Ne, setVersion_eq_empty]; exact hne), version_setVersion hne, if_neg (by omega)]
          | cons i q =>
            rw [stored_cons, hchild]
            cases hh : t'.at? H v (i :: q) with
            | none => rfl
            | some n' =>
              have := hold v _ n' (by omega) hh
              exact absurd hs ((hr.present h this).2.2 s)
        · simp only [hwn, if_false]
          exact h5 w hw (by omega)
      · obtain ⟨n, hn⟩ := Option.isSome_iff_exists.1 hsome
        have hp := hr.present h hn
        have hlo : lo < s := by
          have := h.loLt
          have : v0 < s := by
            by_contra hc
            have h1 := h.le
            have := hr.first (by omega)
            rw [this] at hn; simp at hn
          omega
        refine ⟨hv, by omega, hlo, by rw [hNlt v q n (by omega) hp.1]; rfl, ?_⟩
        intro w hw hw'
        have hwn : w = s := by omega
        subst hwn
        simp only [if_true]
        cases q with
        | nil =>
          by_cases hne : t' = .empty
          · subst hne; simp only [setVersion, stored]; rw [if_neg (by omega)]
          · rw [stored_of_ne H (by rw [Ne, setVersion_eq_empty]; exact hne),
              at?_nil H (by rw [Ne, setVersion_eq_empty]; exact hne), version_setVersion hne, if_neg (by omega)]
        | cons i q => rw [stored_cons, hchild]; exact hnone
    · rintro s s' ⟨v, q⟩ hs hs'
      rw [hSt] at hs hs'
      rcases hs with hs | ⟨rfl, hv, hsome, hnone⟩ <;> rcases hs' with hs' | ⟨rfl, hv', hsome', hnone'⟩
      · exact h.uniq s s' _ hs hs'
      · obtain ⟨n, hn⟩ := Option.isSome_iff_exists.1 hsome'
        exact absurd hs ((hr.present h hn).2.2 s)
      · obtain ⟨n, hn⟩ := Option.isSome_iff_exists.1 hsome
        exact absurd hs' ((hr.present h hn).2.2 s')
      · rfl
    · intro w hlo hw v i q hsome hnone
      have hwn : w ≠ next := by omega
      simp only [hwn, if_false] at hsome
      rw [hSt]
      by_cases hwn' : w + 1 = next
      · simp only [hwn', if_true] at hnone
        rw [hchild] at hnone
        obtain ⟨n, hn⟩ := Option.isSome_iff_exists.1 hsome
        have hw0 : v0 ≤ w := by have := h.loge; omega
        have hvle := at?_version_le (h.tree w hw0 (by omega)).2.1 hn
        refine .inr ⟨hwn', by omega, ?_, hnone⟩
        rw [at?_congr_cons (hr.last (by omega))]
        have e : next - 1 = w := by omega
        rw [e]; exact hsome
      · simp only [hwn', if_false] at hnone
        exact .inl (h.complete w hlo (by omega) v i q hsome hnone)
    · intro s v i q hs
      rw [hSt] at hs
      rcases hs with hs | ⟨rfl, hv, hsome, hnone⟩
      · have := h.stale s v _ hs
        rw [if_neg (by omega)]
        exact h.wasIn s v i q hs
      · obtain ⟨n, hn⟩ := Option.isSome_iff_exists.1 hsome
        have : v0 < s := by
          by_contra hc
          have h1 := h.le
          have := hr.first (by omega)
          rw [this] at hn; simp at hn
        rw [if_neg (by omega), ← at?_congr_cons (hr.last this)]
        exact hsome
    · intro v i q n hn
      rw [hN] at hn
      by_cases hs : v = next ∧ (stored H next (t'.setVersion next) v (i :: q)).isSome = true
      · obtain ⟨rfl, hs⟩ := hs
        refine ⟨v, by have := h.loLt; have := h.le; omega, by omega, ?_⟩
        rw [if_pos rfl] at hn
        obtain ⟨n', hn'⟩ := Option.isSome_iff_exists.1 hs
        rw [hn'] at hn
        rw [if_pos rfl, ← stored_cons H _ v, hn']; exact hn
      · have hn2 : N ⟨v, i :: q⟩ = some n := by
          by_cases hv : v = next
          · rw [if_pos hv] at hn
            cases hh : stored H next (t'.setVersion next) v (i :: q) with
            | none => rw [hh] at hn; exact hn
            | some n' => exact absurd ⟨hv, by rw [hh]; rfl⟩ hs
          · rw [if_neg hv] at hn; exact hn
        obtain ⟨w, h1, h2, h3⟩ := h.live v i q n hn2
        exact ⟨w, h1, by omega, by rw [if_neg (by omega)]; exact h3⟩
  · refine ⟨by have := h.le; omega, ?_, ?_⟩
    · intro _
      simp only [Nat.add_sub_cancel, if_true, setVersion_setVersion]
    · intro hne
      rcases hsame with rfl | hv | h0
      · obtain ⟨a, b, c, d⟩ := hr.root hne
        refine ⟨hNlt _ _ _ c a, b, by omega, ?_⟩
        intro s hs
        rw [hSt] at hs
        rcases hs with hs | ⟨rfl, _, h1, h2⟩
        · exact d s hs
        · rw [h2] at h1; cases h1
      · rw [hv]
        refine ⟨?_, h.le, by omega, ?_⟩
        · rw [hN, if_pos rfl, stored_of_ne H (by rw [Ne, setVersion_eq_empty]; exact hne),
            at?_nil H (by rw [Ne, setVersion_eq_empty]; exact hne), version_setVersion hne, if_pos rfl, toNode_setVersion]
          rfl
        · intro s hs
          rw [hSt] at hs
          rcases hs with hs | ⟨rfl, h1, _⟩
          · have := h.stale s _ _ hs; omega
          · omega
      · exact absurd h0 hne

end Verif.Jmt
