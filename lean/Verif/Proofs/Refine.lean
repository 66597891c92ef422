import Verif.Proofs.Cache
/-! The monadic update path computes the pure update of the denoted tree. -/

namespace Verif.Jmt
variable {D : Type}

namespace VTree

theorem at?_nil (H : Hasher D) {t : VTree D} (ht : t ≠ .empty) (v : Version) :
    t.at? H v [] = if v = t.version then some (t.toNode H) else none := by
  cases t with
  | empty => exact absurd rfl ht
  | leaf v' k h => by_cases hv : v = v' <;> simp [at?, toNode, hv]
  | node v' m ch => by_cases hv : v = v' <;> simp [at?, hv]

@[simp] theorem at?_empty (H : Hasher D) (v : Version) (q : List Nibble) : (VTree.empty : VTree D).at? H v q = none := by
  simp [at?]

theorem at?_leaf (H : Hasher D) (v' : Version) (k : Key) (h : D) (v : Version) (q : List Nibble) :
    (VTree.leaf v' k h).at? H v q = if v = v' ∧ q = [] then some (.leaf ⟨k, h⟩) else none := by
  simp [at?]

theorem at?_node_nil (H : Hasher D) (v' : Version) (m : Bool) (ch : Nibble → VTree D) (v : Version) :
    (VTree.node v' m ch).at? H v [] = if v = v' then some (toNode H (.node v' m ch)) else none := by simp [at?]

theorem at?_node_cons (H : Hasher D) (v' : Version) (m : Bool) (ch : Nibble → VTree D) (v : Version) (i : Nibble) (q : List Nibble) :
    (VTree.node v' m ch).at? H v (i :: q) = (ch i).at? H v q := by simp [at?]

/-- Chain of single-child nodes. -/
def wrap (ver : Version) : List Nibble → VTree D → VTree D
  | [], t => t
  | a :: s, t => .node ver true (upd noCh a (wrap ver s t))

theorem wrap_snoc (ver : Version) (s : List Nibble) (a : Nibble) (t : VTree D) :
    wrap ver (s ++ [a]) t = wrap ver s (.node ver true (upd noCh a t)) := by
  induction s with
  | nil => rfl
  | cons b s ih => simp [wrap, ih]

theorem fork_eq_wrap (ver : Version) (m : Bool) (k' : Key) (h' : D) (k : Key) (h : D) (s : List Nibble) (a b : Nibble)
    (as bs : List Nibble) (hab : a ≠ b) :
    fork ver m k' h' k h (s ++ a :: as) (s ++ b :: bs) =
      wrap ver s (.node ver m (upd (upd noCh a (.leaf ver k' h')) b (.leaf ver k h))) := by
  induction s with
  | nil => simp [fork, wrap, hab]
  | cons c s ih => simp [fork, wrap, ih]

theorem fork_version (H : Hasher D) (ver : Version) (m : Bool) (k' : Key) (h' : D) (k : Key) (h : D) (r' r : List Nibble)
    {v : Version} {q : List Nibble} {n : Node D} (ha : (fork ver m k' h' k h r' r).at? H v q = some n) : v = ver := by
  induction r' generalizing r q with
  | nil => simp [fork] at ha
  | cons a as ih =>
    cases r with
    | nil => simp [fork] at ha
    | cons b bs =>
      unfold fork at ha
      by_cases hab : a = b
      · simp only [hab, if_true] at ha
        cases q with
        | nil =>
          rw [at?_node_nil] at ha
          by_contra hv; simp [hv] at ha
        | cons i q =>
          rw [at?_node_cons] at ha
          by_cases hi : i = b
          · subst hi; rw [upd_same] at ha; exact ih _ ha
          · rw [upd_ne _ _ hi] at ha; simp [noCh] at ha
      · simp only [hab, if_false] at ha
        cases q with
        | nil =>
          rw [at?_node_nil] at ha
          by_contra hv; simp [hv] at ha
        | cons i q =>
          rw [at?_node_cons] at ha
          by_cases hi : i = b
          · subst hi; rw [upd_same, at?_leaf] at ha
            by_contra hv; simp [hv] at ha
          · rw [upd_ne _ _ hi] at ha
            by_cases hi : i = a
            · subst hi; rw [upd_same, at?_leaf] at ha
              by_contra hv; simp [hv] at ha
            · rw [upd_ne _ _ hi] at ha; simp [noCh] at ha

theorem verLe_fork (ver : Version) (m : Bool) (k' : Key) (h' : D) (k : Key) (h : D) (r' r : List Nibble) :
    VerLe ver (fork ver m k' h' k h r' r) := by
  induction r' generalizing r with
  | nil => simp [fork, VerLe]
  | cons a as ih =>
    cases r with
    | nil => simp [fork, VerLe]
    | cons b bs =>
      unfold fork
      split
      · refine ⟨Nat.le_refl _, fun i => ?_⟩
        simp only [upd]; split
        · exact ih _
        · trivial
      · refine ⟨Nat.le_refl _, fun i => ?_⟩
        simp only [upd]; split
        · exact Nat.le_refl _
        · split
          · exact Nat.le_refl _
          · trivial

theorem finish_cases (ver : Version) (ch : Nibble → VTree D) :
    (finish ver ch = .removed ∧ ∀ i, ch i = .empty) ∨
    (∃ i v k h, ch i = .leaf v k h ∧ (∀ j, j ≠ i → ch j = .empty) ∧ finish ver ch = .updated (.leaf ver k h)) ∨
    (finish ver ch = .updated (.node ver true ch)) := by
  unfold finish
  match hf : (List.finRange 16).filter (fun i => !(ch i).isEmpty) with
  | [] =>
    left
    refine ⟨rfl, fun i => ?_⟩
    by_contra hi
    have : i ∈ (List.finRange 16).filter (fun i => !(ch i).isEmpty) := by
      rw [List.mem_filter]
      refine ⟨by simp, ?_⟩
      cases h : (ch i).isEmpty
      · rfl
      · exact absurd (isEmpty_iff.1 h) hi
    rw [hf] at this; simp at this
  | [i] =>
    cases hi : ch i with
    | empty => simp [hi]
    | node => simp [hi]
    | leaf v k x =>
      right; left
      refine ⟨i, v, k, x, hi, ?_, by simp [hi]⟩
      intro j hj
      by_contra hne
      have : j ∈ (List.finRange 16).filter (fun i => !(ch i).isEmpty) := by
        rw [List.mem_filter]
        refine ⟨by simp, ?_⟩
        cases h : (ch j).isEmpty
        · rfl
        · exact absurd (isEmpty_iff.1 h) hne
      rw [hf] at this
      exact hj (by simpa using this)
  | _ :: _ :: _ => simp

theorem finish_old {H : Hasher D} {ver : Version} {ch : Nibble → VTree D} {t : VTree D} {v : Version} {q : List Nibble}
    {n : Node D} (hv : v < ver) (h : (after t (finish ver ch)).at? H v q = some n) :
    ∃ i q', q = i :: q' ∧ (ch i).at? H v q' = some n := by
  have hne : v ≠ ver := Nat.ne_of_lt hv
  rcases finish_cases ver ch with ⟨h1, _⟩ | ⟨i, v', k, x, _, _, h1⟩ | h1
  · rw [h1] at h; simp [after] at h
  · rw [h1] at h; simp [after, at?_leaf, hne] at h
  · rw [h1] at h
    simp only [after] at h
    cases q with
    | nil => rw [at?_node_nil] at h; simp [hne] at h
    | cons i q => rw [at?_node_cons] at h; exact ⟨i, q, rfl, h⟩

theorem put_old {H : Hasher D} {ver : Version} {m : Bool} {k : Key} {x : Option D} {v : Version} (hv : v < ver) (t : VTree D)
    (rest q : List Nibble) {n : Node D} (h : (after t (put ver m k x rest t)).at? H v q = some n) : t.at? H v q = some n := by
  have hne : v ≠ ver := Nat.ne_of_lt hv
  induction t generalizing rest q n with
  | empty => cases x <;> simp [put, after, at?_leaf, hne] at h
  | leaf v' k' h' =>
    unfold put at h
    split at h
    · cases x <;> simp [after, at?_leaf, hne] at h
    · cases x with
      | none => exact h
      | some y =>
        exact absurd (fork_version H _ _ _ _ _ _ _ _ h) hne
  | node v' m' ch ih =>
    cases rest with
    | nil => exact h
    | cons i rest =>
      have key : ∀ t', (∀ q n, t'.at? H v q = some n → (ch i).at? H v q = some n) →
          (after (.node v' m' ch) (finish ver (upd ch i t'))).at? H v q = some n → (VTree.node v' m' ch).at? H v q = some n := by
        intro t' ht' hh
        obtain ⟨j, q', rfl, hj⟩ := finish_old hv hh
        rw [at?_node_cons]
        by_cases hji : j = i
        · subst hji; rw [upd_same] at hj; exact ht' _ _ hj
        · rwa [upd_ne _ _ hji] at hj
      unfold put at h
      cases hr : put ver m k x rest (ch i) with
      | notChanged => rw [hr] at h; exact h
      | removed => rw [hr] at h; exact key .empty (by simp) h
      | updated t' =>
        rw [hr] at h
        refine key t' ?_ h
        intro q n hq
        apply ih i rest q
        rw [hr]; exact hq

theorem verLe_finish {ver : Version} {ch : Nibble → VTree D} {t : VTree D} (hc : ∀ i, VerLe ver (ch i)) :
    VerLe ver (after t (finish ver ch)) := by
  rcases finish_cases ver ch with ⟨h1, _⟩ | ⟨i, v', k, x, _, _, h1⟩ | h1
  · rw [h1]; trivial
  · rw [h1]; exact Nat.le_refl _
  · rw [h1]; exact ⟨Nat.le_refl _, hc⟩

theorem verLe_put {ver : Version} {m : Bool} {k : Key} {x : Option D} (t : VTree D) (rest : List Nibble) (h : VerLe ver t) :
    VerLe ver (after t (put ver m k x rest t)) := by
  induction t generalizing rest with
  | empty => cases x <;> simp [put, after, VerLe]
  | leaf v' k' h' =>
    unfold put
    split
    · cases x <;> simp [after, VerLe]
    · cases x with
      | none => exact h
      | some y => exact verLe_fork _ _ _ _ _ _ _ _
  | node v' m' ch ih =>
    cases rest with
    | nil => exact h
    | cons i rest =>
      have hi := ih i rest (h.2 i)
      unfold put
      cases hr : put ver m k x rest (ch i) with
      | notChanged => exact h
      | removed =>
        refine verLe_finish fun j => ?_
        simp only [upd]; split
        · trivial
        · exact h.2 j
      | updated t' =>
        rw [hr] at hi
        refine verLe_finish fun j => ?_
        simp only [upd]; split
        · exact hi
        · exact h.2 j

theorem at?_version_le {H : Hasher D} {ver : Version} {t : VTree D} (h : VerLe ver t) {v : Version} {q : List Nibble} {n : Node D}
    (ha : t.at? H v q = some n) : v ≤ ver := by
  induction t generalizing q with
  | empty => simp at ha
  | leaf v' k' h' =>
    rw [at?_leaf] at ha
    split at ha
    · rename_i hh; rw [hh.1]; exact h
    · cases ha
  | node v' m ch ih =>
    cases q with
    | nil =>
      rw [at?_node_nil] at ha
      split at ha
      · rename_i hh; rw [hh]; exact h.1
      · cases ha
    | cons i q => rw [at?_node_cons] at ha; exact ih i (h.2 i) ha

/-- Nodes exist only at paths of at most 64 nibbles. -/
theorem at?_path_le {H : Hasher D} {p : List Nibble} {t : VTree D} (h : WF p t) {v : Version} {q : List Nibble} {n : Node D}
    (ha : t.at? H v q = some n) : p.length + q.length ≤ 64 := by
  induction t generalizing p q with
  | empty => simp at ha
  | leaf v' k' h' =>
    rw [at?_leaf] at ha
    split at ha
    · rename_i hh
      have := wf_length h (by simp)
      rw [hh.2]; simpa using this
    · cases ha
  | node v' m ch ih =>
    cases q with
    | nil =>
      have := wf_length h (by simp)
      simpa using this
    | cons i q =>
      rw [at?_node_cons] at ha
      have := ih i (h.1 i) ha
      simp at this ⊢; omega

end VTree

/-! building internal nodes -/

theorem values_ofFun (f : Nibble → Option (Child D)) : (Children.ofFun f).values.length = (Children.ofFun f).numChildren := rfl

theorem newMigration_ofFun (f : Nibble → Option (Child D)) (m : Bool)
    (hne : ∃ i, (f i).isSome) (h1 : ∀ i c, f i = some c → c.isLeaf = true → ∃ j, j ≠ i ∧ (f j).isSome) :
    InternalNode.newMigration (.ofFun f) m = .ok (.ofFun m f) := by
  have hv : (Children.ofFun f).values ≠ [] := by
    obtain ⟨i, hi⟩ := hne
    obtain ⟨c, hc⟩ := Option.isSome_iff_exists.1 hi
    have : c ∈ (Children.ofFun f).values := List.mem_filterMap.2 ⟨i, by simp, hc⟩
    intro h0; rw [h0] at this; simp at this
  have hpos := List.length_pos_iff.2 hv
  have hemp : (Children.ofFun f).isEmpty = false := by
    rw [values_ofFun] at hpos
    simp [Children.isEmpty]; omega
  unfold InternalNode.newMigration InternalNode.newImpl
  rw [hemp]
  by_cases hone : (Children.ofFun f).numChildren = 1
  · rw [← values_ofFun] at hone
    obtain ⟨c, hc⟩ := List.length_eq_one_iff.1 hone
    have hcm : c ∈ (Children.ofFun f).values := by rw [hc]; simp
    have hlf : c.isLeaf = false := by
      rw [Bool.eq_false_iff]
      intro hl
      obtain ⟨i, _, hi⟩ := List.mem_filterMap.1 hcm
      have hi : f i = some c := hi
      obtain ⟨j, hj, hjs⟩ := h1 i c hi hl
      obtain ⟨c', hc'⟩ := Option.isSome_iff_exists.1 hjs
      -- two children contradict length one
      have hlen : ∀ L : List Nibble, L.Nodup → i ∈ L → j ∈ L → 2 ≤ (L.filterMap f).length := by
        intro L
        induction L with
        | nil => intro _ h; simp at h
        | cons a t ih =>
          intro hnd him hjm
          simp only [List.nodup_cons] at hnd
          have one : ∀ k, k ∈ t → (f k).isSome → 1 ≤ (t.filterMap f).length := by
            intro k hk hks
            obtain ⟨d, hd⟩ := Option.isSome_iff_exists.1 hks
            exact List.length_pos_of_mem (List.mem_filterMap.2 ⟨k, hk, hd⟩)
          rcases List.mem_cons.1 him with rfl | him'
          · rcases List.mem_cons.1 hjm with rfl | hjm'
            · exact absurd rfl hj
            · have := one j hjm' hjs
              simp [hi]; omega
          · rcases List.mem_cons.1 hjm with rfl | hjm'
            · have := one i him' (by simp [hi])
              simp [hc']; omega
            · have := ih hnd.2 him' hjm'
              cases hfa : f a <;> simp [hfa]
              · exact this
              · omega
      have := hlen (List.finRange 16) (List.nodup_finRange 16) (by simp) (by simp)
      have e : (Children.ofFun f).values = (List.finRange 16).filterMap f := rfl
      rw [e] at hone
      omega
    simp [hc, hlf, ← values_ofFun, InternalNode.ofFun]
  · simp [hone, InternalNode.ofFun]

theorem child_isSome {H : Hasher D} {t : VTree D} : (t.child H).isSome = true ↔ t ≠ .empty := by
  cases t <;> simp [VTree.child]

end Verif.Jmt
