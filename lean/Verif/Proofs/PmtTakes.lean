import Verif.Proofs.PmtPuts
/-!
Removing on any database: if it succeeds, the key is not read afterwards, the other keys as before.
-/

set_option autoImplicit false

namespace Verif.Pmt

open Spec (Place AnswersAt Shaped)
open Relation (ReflTransGen TransGen)

variable {db : Db}

theorem ReadsSame.trans {a b c : Node} (h1 : ReadsSame db a b) (h2 : ReadsSame db b c) : ReadsSame db a c := fun q r => (h1 q r).trans (h2 q r)

theorem ReadsSame.refl (a : Node) : ReadsSame db a a := fun _ _ => Iff.rfl

theorem alike_ext_ext (d c : List Nib) (sub : Node) : ReadsSame db (.ext (toNibs d) (.ext (toNibs c) sub)) (.ext (toNibs (d ++ c)) sub) := by
  intro q r
  by_cases hp : toNibs d <+: leafPath q
  · obtain ⟨q', rfl⟩ := prefix_leafPath.1 hp
    rw [leafPath_append d q', gives_ext]
    by_cases hp' : toNibs c <+: leafPath q'
    · obtain ⟨q'', rfl⟩ := prefix_leafPath.1 hp'
      rw [leafPath_append, gives_ext, ← List.append_assoc, ← toNibs_append, gives_ext]
    · rw [gives_ext_other _ hp', gives_ext_other]
      intro h
      rw [toNibs_append, List.prefix_append_right_inj] at h
      exact hp' h
  · rw [gives_ext_other _ hp, gives_ext_other]
    intro h
    rw [toNibs_append] at h
    exact hp ((List.prefix_append _ _).trans h)

theorem alike_ext_leaf (c k : List Nib) (w : Bytes) : ReadsSame db (.ext (toNibs c) (.leaf (leafPath k) w)) (.leaf (leafPath (c ++ k)) w) := by
  intro q r
  by_cases hp : toNibs c <+: leafPath q
  · obtain ⟨q', rfl⟩ := prefix_leafPath.1 hp
    rw [leafPath_append c q', gives_ext, ← leafPath_append, gives_leaf, gives_leaf]
    simp only [leafPath_inj, List.append_cancel_left_eq]
  · rw [gives_ext_other _ hp, gives_leaf, if_neg (fun e => hp (by rw [← e]; exact prefix_leafPath.2 ⟨k, rfl⟩))]

theorem ReadsSame.ext {n m : Node} (h : ReadsSame db n m) (c : List Nib) : ReadsSame db (.ext (toNibs c) n) (.ext (toNibs c) m) := by
  intro q r
  by_cases hp : toNibs c <+: leafPath q
  · obtain ⟨q', rfl⟩ := prefix_leafPath.1 hp
    rw [leafPath_append, gives_ext, gives_ext]
    exact h q' r
  · rw [gives_ext_other _ hp, gives_ext_other _ hp]

theorem degenerateExt_alike {hop : H256 → Nibbles → Out Node}
    (hh : ∀ x (c : List Nib) m, c ≠ [] → (hop x (toNibs c)).2 = .ok m → ReadsSame db (.ext (toNibs c) (.hash x)) m ∧ Shaped m) {n : Node} (hn : Shaped n) :
    ∀ (c : List Nib) m, c ≠ [] → (degenerateExt hop (toNibs c) n).2 = .ok m → ReadsSame db (.ext (toNibs c) n) m ∧ Shaped m := by
  induction hn with
  | empty => intro c m hc h; cases h; exact ⟨.refl _, .ext hc .empty⟩
  | leaf k w =>
    intro c m hc h
    have h' : (.ok (.leaf (toNibs c ++ leafPath k) w) : Res Node) = .ok m := h
    rw [← leafPath_append] at h'
    cases h'
    exact ⟨alike_ext_leaf c k w, .leaf _ _⟩
  | hash x => exact fun c m hc h => hh x c m hc h
  | @ext d sub hd hs ih =>
    intro c m hc h
    have h' : (degenerateExt hop (toNibs c ++ toNibs d) sub).2 = .ok m := h
    rw [← toNibs_append] at h'
    obtain ⟨h1, h2⟩ := ih (c ++ d) m (by simp [hc]) h'
    exact ⟨(alike_ext_ext c d sub).trans h1, h2⟩
  | branch w hb => intro c m hc h; cases h; exact ⟨.refl _, .ext hc (.branch w hb)⟩

theorem degenerateExtAt_alike (hd : ∀ x n, fetch db x = .ok n → Shaped n) (fuel : Nat) : ∀ {n : Node}, Shaped n → ∀ (c : List Nib) m, c ≠ [] →
    (degenerateExtAt db fuel (toNibs c) n).2 = .ok m → ReadsSame db (.ext (toNibs c) n) m ∧ Shaped m := by
  induction fuel with
  | zero => exact fun hn => degenerateExt_alike (fun _ _ _ _ h => by cases h) hn
  | succ f ih =>
    refine fun hn => degenerateExt_alike (fun x c m hc h => ?_) hn
    unfold Out.andThen at h
    rcases hf : fetch db x with e | n
    · rw [hf] at h; cases h
    · rw [hf] at h
      obtain ⟨b, hb, hn⟩ := fetch_ok_inv hf
      obtain ⟨h1, h2⟩ := ih (hd x n hf) c m hc h
      have : ReadsSame db (.hash x) n := fun q r => gives_step (.hash hb hn) r
      exact ⟨(this.ext c).trans h1, h2⟩

theorem usedIndexes_empty {cs : Fin 16 → Node} {i : Fin 16} (h : i ∉ usedIndexes cs) : cs i = .empty := by
  unfold usedIndexes at h
  simp only [List.mem_filter, List.mem_finRange, true_and] at h
  cases hc : cs i <;> rw [hc] at h <;> first | rfl | exact absurd rfl h

theorem degenerate_alike (hd : ∀ x n, fetch db x = .ok n → Shaped n) {n : Node} (hn : Shaped n) {m : Node} (h : (degenerate db n).2 = .ok m) :
    ReadsSame db n m ∧ Shaped m := by
  cases hn with
  | empty => cases h; exact ⟨.refl _, .empty⟩
  | leaf k w => cases h; exact ⟨.refl _, .leaf k w⟩
  | hash x => cases h; exact ⟨.refl _, .hash x⟩
  | @ext c sub hc hs => exact degenerateExtAt_alike hd _ hs c m hc h
  | @branch cs w hb =>
    unfold degenerate at h
    dsimp only at h
    split at h
    · rename_i v hu
      cases h
      refine ⟨fun q r => ?_, .leaf [] v⟩
      cases q with
      | nil =>
        show Gives db (_, [16]) _ ↔ Gives db (_, [16]) _
        rw [gives_branch_value, gives_leaf, if_pos rfl]
      | cons j t =>
        show Gives db (_, j.val :: leafPath t) _ ↔ Gives db (_, j.val :: leafPath t) _
        rw [gives_branch, usedIndexes_empty (cs := cs) (i := j) (by rw [hu]; simp), gives_empty, gives_leaf, if_neg]
        intro e
        have := congrArg List.length e
        simp at this
    · rename_i i hu
      obtain ⟨h1, h2⟩ := degenerateExtAt_alike hd _ (hb i) [i] m (by simp) h
      refine ⟨ReadsSame.trans (fun q r => ?_) h1, h2⟩
      cases q with
      | nil =>
        show Gives db (_, [16]) _ ↔ _
        rw [gives_branch_value, gives_ext_other]
        intro h
        obtain ⟨q', h⟩ := prefix_leafPath.1 h
        cases h
      | cons j t =>
        show Gives db (_, j.val :: leafPath t) _ ↔ Gives db (_, j.val :: leafPath t) _
        rw [gives_branch]
        by_cases hj : j = i
        · subst hj
          exact (gives_ext [j.val] (leafPath t) (cs j) r).symm
        · rw [usedIndexes_empty (cs := cs) (i := j) (by rw [hu]; simpa using hj), gives_empty, gives_ext_other]
          intro h
          obtain ⟨q', e⟩ := prefix_leafPath.1 (show toNibs [i] <+: leafPath (j :: t) from h)
          injection e with e _
          exact hj e
    · cases h
      exact ⟨.refl _, .branch _ hb⟩

/-- The second node is well-formed, and reads as the first except along the path, where it has nothing; nor has the first if not deleted. -/
def Takes (db : Db) (p : List Nib) (n m : Node) (b : Bool) : Prop :=
  Shaped m ∧ Gives db (m, leafPath p) (.ok none) ∧ (∀ q, q ≠ p → ∀ r, Gives db (m, leafPath q) r ↔ Gives db (n, leafPath q) r) ∧
    (b = false → Gives db (n, leafPath p) (.ok none))

theorem Takes.congr {p : List Nib} {n n' m : Node} {b : Bool} (h : Takes db p n m b) (ha : ReadsSame db n' n) : Takes db p n' m b :=
  ⟨h.1, h.2.1, fun q hq r => (h.2.2.1 q hq r).trans (ha q r).symm, fun hb => (ha p _).2 (h.2.2.2 hb)⟩

theorem afterDelete_takes (hd : ∀ x n, fetch db x = .ok n → Shaped n) {p : List Nib} {n m m' : Node} {b b' : Bool} (h : Takes db p n m b)
    (ha : (afterDelete db (m, b)).2 = .ok (m', b')) : Takes db p n m' b' := by
  unfold afterDelete at ha
  split at ha
  · rename_i hb
    simp only [Out.map] at ha
    rcases hg : (degenerate db m).2 with e | m2
    · rw [hg] at ha; cases ha
    · rw [hg] at ha
      cases ha
      obtain ⟨h1, h2⟩ := degenerate_alike hd h.1 hg
      exact ⟨h2, (h1 _ _).1 h.2.1, fun q hq r => (h1 q r).symm.trans (h.2.2.1 q hq r), fun hb => (nomatch hb)⟩
  · cases ha
    exact h

theorem Takes.same {p : List Nib} {n : Node} (hn : Shaped n) (h : Gives db (n, leafPath p) (.ok none)) (b : Bool) : Takes db p n n b :=
  ⟨hn, h, fun _ _ _ => Iff.rfl, fun _ => h⟩

theorem Takes.ext {p c : List Nib} {n m : Node} (hc : c ≠ []) (h : Takes db p n m true) :
    Takes db (c ++ p) (.ext (toNibs c) n) (.ext (toNibs c) m) true := by
  refine ⟨.ext hc h.1, ?_, fun q hq r => ?_, fun hb => (nomatch hb)⟩
  · rw [leafPath_append, gives_ext]
    exact h.2.1
  · by_cases hp : toNibs c <+: leafPath q
    · obtain ⟨q', rfl⟩ := prefix_leafPath.1 hp
      rw [leafPath_append, gives_ext, gives_ext]
      exact h.2.2.1 q' (fun e => hq (by rw [e])) r
    · rw [gives_ext_other _ hp, gives_ext_other _ hp]

theorem Takes.child {i : Nib} {p : List Nib} {cs : Fin 16 → Node} {w : Option Bytes} {m : Node} (hs : ∀ j, Shaped (cs j))
    (h : Takes db p (cs i) m true) : Takes db (i :: p) (.branch cs w) (.branch (fun j => if j = i then m else cs j) w) true := by
  refine ⟨.branch w fun j => ?_, ?_, fun q hq r => ?_, fun hb => (nomatch hb)⟩
  · split
    · exact h.1
    · exact hs j
  · show Gives db (_, i.val :: leafPath p) _
    rw [gives_branch, if_pos rfl]
    exact h.2.1
  · cases q with
    | nil =>
      show Gives db (_, [16]) _ ↔ Gives db (_, [16]) _
      rw [gives_branch_value, gives_branch_value]
    | cons j t =>
      show Gives db (_, j.val :: leafPath t) _ ↔ Gives db (_, j.val :: leafPath t) _
      rw [gives_branch, gives_branch]
      by_cases hj : j = i
      · subst hj
        rw [if_pos rfl]
        exact h.2.2.1 t (fun e => hq (by rw [e])) r
      · rw [if_neg hj]

theorem Takes.value {cs : Fin 16 → Node} (hs : ∀ j, Shaped (cs j)) (w : Option Bytes) : Takes db [] (.branch cs w) (.branch cs none) true := by
  refine ⟨.branch _ hs, ?_, fun q hq r => ?_, fun hb => (nomatch hb)⟩
  · show Gives db (_, [16]) _
    rw [gives_branch_value]
  · cases q with
    | nil => exact absurd rfl hq
    | cons j t =>
      show Gives db (_, j.val :: leafPath t) _ ↔ Gives db (_, j.val :: leafPath t) _
      rw [gives_branch, gives_branch]

theorem deleteStep_takes (hd : ∀ x n, fetch db x = .ok n → Shaped n) {hop : H256 → Nibbles → Out (Node × Bool)}
    (hh : ∀ x (p : List Nib) m b, (hop x (leafPath p)).2 = .ok (m, b) → Takes db p (.hash x) m b) {n : Node} (hn : Shaped n) :
    ∀ (p : List Nib) m b, (deleteStep db hop n (leafPath p)).2 = .ok (m, b) → Takes db p n m b := by
  induction hn with
  | empty => intro p m b h; cases h; exact .same .empty ((gives_empty _ _).2 rfl) _
  | leaf k w =>
    intro p m b h
    rw [show (k.map Fin.val ++ [16] : Nibbles) = leafPath k from rfl] at h ⊢
    simp only [deleteStep] at h
    split at h
    · rename_i e
      cases leafPath_inj.1 e
      cases h
      refine ⟨.empty, (gives_empty _ _).2 rfl, fun q hq r => ?_, fun hb => (nomatch hb)⟩
      rw [gives_empty, gives_leaf, if_neg (fun e => hq (leafPath_inj.1 e).symm)]
    · rename_i e
      cases h
      exact .same (.leaf k w) ((gives_leaf (leafPath k) _ _ _).2 (by rw [if_neg e])) _
  | hash x =>
    intro p m b h
    simp only [deleteStep, Out.andThen] at h
    rcases hr : (hop x (leafPath p)).2 with e | ⟨m', b'⟩
    · rw [hr] at h; cases h
    · rw [hr] at h
      exact afterDelete_takes hd (hh x p m' b' hr) h
  | @ext c sub hc hs ih =>
    intro p m b h
    rw [show (c.map Fin.val : Nibbles) = toNibs c from rfl] at h ⊢
    simp only [deleteStep] at h
    split at h
    · rename_i e
      obtain ⟨p', rfl⟩ := prefix_leafPath.1 ((commonPrefix_iff _ _).1 e)
      rw [toNibs_length, leafPath_drop] at h
      simp only [Out.andThen] at h
      rcases hr : (deleteStep db hop sub (leafPath p')).2 with e | ⟨m', b'⟩
      · rw [hr] at h; cases h
      · rw [hr] at h
        have htk := ih p' m' b' hr
        refine afterDelete_takes hd (m := if b' then .ext (toNibs c) m' else .ext (toNibs c) sub) (b := b') ?_ h
        cases b' with
        | true => exact htk.ext hc
        | false =>
          refine .same (.ext hc hs) ?_ _
          show Gives db (.ext (toNibs c) sub, _) _
          rw [leafPath_append, gives_ext]
          exact htk.2.2.2 rfl
    · rename_i e
      cases h
      exact .same (.ext hc hs) ((gives_ext_other _ (fun h => e ((commonPrefix_iff _ _).2 h)) _).2 rfl) _
  | @branch cs w hc ih =>
    intro p m b h
    cases p with
    | nil =>
      cases h
      exact .value hc w
    | cons i t =>
      have hi := i.isLt
      rw [show leafPath (i :: t) = i.val :: leafPath t from rfl] at h
      simp only [deleteStep] at h
      rw [if_neg (by omega), dif_pos hi] at h
      simp only [Out.andThen] at h
      rcases hr : (deleteStep db hop (cs i) (leafPath t)).2 with e | ⟨m', b'⟩
      · rw [hr] at h; cases h
      · rw [hr] at h
        have htk := ih i t m' b' hr
        refine afterDelete_takes hd (m := if b' then .branch (fun j => if j = i then m' else cs j) w else .branch cs w) (b := b') ?_ h
        cases b' with
        | true => exact htk.child hc
        | false =>
          refine .same (.branch w hc) ?_ _
          show Gives db (_, i.val :: leafPath t) _
          rw [gives_branch]
          exact htk.2.2.2 rfl

theorem deleteAt_takes (hd : ∀ x n, fetch db x = .ok n → Shaped n) (fuel : Nat) : ∀ {n : Node}, Shaped n → ∀ (p : List Nib) m b,
    (deleteAt db fuel n (leafPath p)).2 = .ok (m, b) → Takes db p n m b := by
  induction fuel with
  | zero => exact fun hn => deleteStep_takes hd (fun _ _ _ _ h => by cases h) hn
  | succ f ih =>
    refine fun hn => deleteStep_takes hd (fun x p m b h => ?_) hn
    unfold Out.andThen at h
    rcases hf : fetch db x with e | n
    · rw [hf] at h; cases h
    · rw [hf] at h
      obtain ⟨c, hb, hn⟩ := fetch_ok_inv hf
      exact (ih (hd x n hf) p m b h).congr fun q r => gives_step (.hash hb hn) r

/-- Removing fails if reading does. -/
theorem deleteStep_fate (db : Db) {hop : H256 → Nibbles → Out (Node × Bool)} {hop' : H256 → Nibbles → Res (Option Bytes)}
    (hh : ∀ x p e, hop' x p = .error e → (hop x p).2 = .error e) (n : Node) :
    ∀ p e, getStep hop' n p = .error e → (deleteStep db hop n p).2 = .error e := by
  have then_error : ∀ {α β : Type} (x : Out α) (f : α → Out β) e, x.2 = .error e → (x.andThen f).2 = .error e := by
    intro α β x f e h
    unfold Out.andThen
    rw [h]
  induction n with
  | empty => intro p e h; cases h
  | leaf k w => intro p e h; cases h
  | hash x => exact fun p e h => then_error _ _ e (hh x p e h)
  | ext c sub ih =>
    intro p e h
    simp only [getStep] at h
    simp only [deleteStep]
    split at h
    · rename_i hc
      rw [if_pos hc]
      exact then_error _ _ e (ih _ e h)
    · cases h
  | branch cs w ih =>
    intro p e h
    cases p with
    | nil => cases h
    | cons i t =>
      simp only [getStep] at h
      simp only [deleteStep]
      split at h
      · cases h
      · rename_i h1
        rw [if_neg h1]
        split at h
        · rename_i h2
          rw [dif_pos h2]
          exact then_error _ _ e (ih _ t e h)
        · rename_i h2
          rw [dif_neg h2]
          cases h
          rfl

theorem deleteAt_fate (db : Db) (fuel : Nat) : ∀ n p e, getAt db fuel n p = .error e → (deleteAt db fuel n p).2 = .error e := by
  induction fuel with
  | zero => exact deleteStep_fate db (fun _ _ _ h => by cases h; rfl)
  | succ f ih =>
    refine deleteStep_fate db (fun x p e h => ?_)
    unfold Out.andThen
    rcases hf : fetch db x with e' | n
    · rw [hf] at h
      cases h
      rfl
    · rw [hf] at h
      exact ih n p e h

end Verif.Pmt
