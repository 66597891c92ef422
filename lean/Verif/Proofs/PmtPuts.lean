import Verif.Spec.PmtShape
import Verif.Proofs.PmtWalk
/-!
Inserting on any database: the key is read as the value afterwards, the other keys as before.
-/

set_option autoImplicit false

namespace Verif.Pmt

open Spec (Place AnswersAt Shaped)
open Relation (ReflTransGen TransGen)

/-- What reading from the place gives. -/
def Gives (db : Db) (s : Place) (r : Res (Option Bytes)) : Prop :=
  (Endless db s ∧ r = .error (.panic "endless recursion")) ∨ ∃ t, ReflTransGen (StepD db) s t ∧ Outcome db t r

variable {db : Db}

theorem gives_step {s t : Place} (h : StepD db s t) (r : Res (Option Bytes)) : Gives db s r ↔ Gives db t r := by
  constructor
  · rintro (⟨he, hr⟩ | ⟨u, hu, ho⟩)
    · obtain ⟨t', ht', he'⟩ := he.next
      rw [StepD.unique h ht']
      exact .inl ⟨he', hr⟩
    · rcases ReflTransGen.cases_head hu with rfl | ⟨t', ht', hu'⟩
      · exact absurd h ho.stuck
      · rw [StepD.unique h ht']
        exact .inr ⟨u, hu', ho⟩
  · rintro (⟨⟨u, h1, h2⟩, hr⟩ | ⟨u, hu, ho⟩)
    · exact .inl ⟨⟨u, .head h h1, h2⟩, hr⟩
    · exact .inr ⟨u, .head h hu, ho⟩

theorem gives_end {s : Place} {r : Res (Option Bytes)} (h : Outcome db s r) (r' : Res (Option Bytes)) : Gives db s r' ↔ r' = r := by
  constructor
  · rintro (⟨he, _⟩ | ⟨u, hu, ho⟩)
    · obtain ⟨t, ht, _⟩ := he.next
      exact absurd ht h.stuck
    · rcases ReflTransGen.cases_head hu with rfl | ⟨t', ht', _⟩
      · exact ho.unique h
      · exact absurd ht' h.stuck
  · rintro rfl
    exact .inr ⟨s, .refl, h⟩

theorem gives_unique {s : Place} {r r' : Res (Option Bytes)} (h : Gives db s r) (h' : Gives db s r') : r = r' := by
  rcases h with ⟨he, rfl⟩ | ⟨t, ht, ho⟩
  · rcases h' with ⟨_, rfl⟩ | ⟨t, ht, ho⟩
    · rfl
    · obtain ⟨u, hu, _⟩ := (he.along ht).next
      exact absurd hu ho.stuck
  · rcases h' with ⟨he, rfl⟩ | ⟨t', ht', ho'⟩
    · obtain ⟨u, hu, _⟩ := (he.along ht).next
      exact absurd hu ho.stuck
    · cases ends_unique ht ht' (fun _ => ho.stuck) (fun _ => ho'.stuck)
      exact ho.unique ho'

theorem gives_get (tr : Trie) (k : Bytes) (r : Res (Option Bytes)) : Gives db (tr.root, Trie.path k) r ↔ tr.get db k = r := by
  constructor
  · rintro (⟨he, hr⟩ | ⟨u, hu, ho⟩)
    · exact (getAt_endless _ _ _ he).trans hr.symm
    · exact get_of_outcome hu ho
  · rintro rfl
    exact get_walk tr k

theorem gives_empty (q : Nibbles) (r : Res (Option Bytes)) : Gives db (.empty, q) r ↔ r = .ok none :=
  gives_end (.inl ⟨_, .empty q, rfl⟩) r

theorem gives_leaf (k q : Nibbles) (w : Bytes) (r : Res (Option Bytes)) :
    Gives db (.leaf k w, q) r ↔ r = .ok (if k = q then some w else none) := by
  by_cases h : k = q
  · subst h
    rw [if_pos rfl]
    exact gives_end (.inl ⟨_, .leaf k w, rfl⟩) r
  · rw [if_neg h]
    exact gives_end (.inl ⟨_, .otherLeaf w h, rfl⟩) r

theorem gives_ext (c q : Nibbles) (n : Node) (r : Res (Option Bytes)) : Gives db (.ext c n, c ++ q) r ↔ Gives db (n, q) r := gives_step .ext r

theorem gives_ext_other {c q : Nibbles} (n : Node) (h : ¬ c <+: q) (r : Res (Option Bytes)) : Gives db (.ext c n, q) r ↔ r = .ok none :=
  gives_end (.inl ⟨_, .otherExt n h, rfl⟩) r

theorem gives_branch (cs : Fin 16 → Node) (w : Option Bytes) (i : Nib) (q : Nibbles) (r : Res (Option Bytes)) :
    Gives db (.branch cs w, i.val :: q) r ↔ Gives db (cs i, q) r := gives_step .branch r

theorem gives_branch_value (cs : Fin 16 → Node) (w : Option Bytes) (r : Res (Option Bytes)) : Gives db (.branch cs w, [16]) r ↔ r = .ok w :=
  gives_end (.inl ⟨_, .branch cs w (fun i h => by
    have hi := i.isLt
    simp only [List.head?_cons, Option.some.injEq] at h
    omega), rfl⟩) r

/-- The nodes read the same along all paths. -/
def ReadsSame (db : Db) (n m : Node) : Prop := ∀ (q : List Nib) r, Gives db (n, leafPath q) r ↔ Gives db (m, leafPath q) r

/-- The second node is well-formed, and reads as the first except along the path, where it has the value. -/
def Puts (db : Db) (v : Bytes) (p : List Nib) (n m : Node) : Prop :=
  Shaped m ∧ Gives db (m, leafPath p) (.ok (some v)) ∧ ∀ q, q ≠ p → ∀ r, Gives db (m, leafPath q) r ↔ Gives db (n, leafPath q) r

theorem Puts.congr {v : Bytes} {p : List Nib} {n n' m : Node} (h : Puts db v p n m) (ha : ReadsSame db n' n) : Puts db v p n' m :=
  ⟨h.1, h.2.1, fun q hq r => (h.2.2 q hq r).trans (ha q r).symm⟩

theorem prefix_leafPath {c q : List Nib} : toNibs c <+: leafPath q ↔ ∃ q', q = c ++ q' := by
  constructor
  · intro h
    have := (commonPrefix_iff (leafPath q) (toNibs c)).2 h
    rw [commonPrefix_toNibs, toNibs_length] at this
    obtain ⟨r, hr⟩ := lcp_eq_length.1 this
    exact ⟨r, hr.symm⟩
  · rintro ⟨q', rfl⟩
    rw [leafPath_append]
    exact List.prefix_append _ _

theorem Puts.ext {v : Bytes} {p c : List Nib} {n m : Node} (hc : c ≠ []) (h : Puts db v p n m) :
    Puts db v (c ++ p) (.ext (toNibs c) n) (.ext (toNibs c) m) := by
  refine ⟨.ext hc h.1, ?_, fun q hq r => ?_⟩
  · rw [leafPath_append, gives_ext]
    exact h.2.1
  · by_cases hp : toNibs c <+: leafPath q
    · obtain ⟨q', rfl⟩ := prefix_leafPath.1 hp
      rw [leafPath_append, gives_ext, gives_ext]
      exact h.2.2 q' (fun e => hq (by rw [e])) r
    · rw [gives_ext_other _ hp, gives_ext_other _ hp]

theorem Puts.child {v : Bytes} {i : Nib} {p : List Nib} {cs : Fin 16 → Node} {w : Option Bytes} {m : Node} (hs : ∀ j, Shaped (cs j))
    (h : Puts db v p (cs i) m) : Puts db v (i :: p) (.branch cs w) (.branch (fun j => if j = i then m else cs j) w) := by
  refine ⟨.branch w fun j => ?_, ?_, fun q hq r => ?_⟩
  · split
    · exact h.1
    · exact hs j
  · show Gives db (_, i.val :: leafPath p) _
    rw [gives_branch, if_pos rfl]
    exact h.2.1
  · cases q with
    | nil =>
      show Gives db (_, [16]) _ ↔ Gives db (_, [16]) _
      rw [gives_branch_value, gives_branch_value]
    | cons j t =>
      show Gives db (_, j.val :: leafPath t) _ ↔ Gives db (_, j.val :: leafPath t) _
      rw [gives_branch, gives_branch]
      by_cases hj : j = i
      · subst hj
        rw [if_pos rfl]
        exact h.2.2 t (fun e => hq (by rw [e])) r
      · rw [if_neg hj]

theorem Puts.value {cs : Fin 16 → Node} (hs : ∀ j, Shaped (cs j)) (v : Bytes) (w : Option Bytes) : Puts db v [] (.branch cs w) (.branch cs (some v)) := by
  refine ⟨.branch _ hs, ?_, fun q hq r => ?_⟩
  · show Gives db (_, [16]) _
    rw [gives_branch_value]
  · cases q with
    | nil => exact absurd rfl hq
    | cons j t =>
      show Gives db (_, j.val :: leafPath t) _ ↔ Gives db (_, j.val :: leafPath t) _
      rw [gives_branch, gives_branch]

theorem Puts.new (v : Bytes) (p : List Nib) : Puts db v p .empty (.leaf (leafPath p) v) := by
  refine ⟨.leaf p v, ?_, fun q hq r => ?_⟩
  · rw [gives_leaf, if_pos rfl]
  · rw [gives_leaf, gives_empty, if_neg (fun e => hq (leafPath_inj.1 e).symm)]

/-- A value put into a branch, at a position where it has no child. -/
theorem branchInsert_puts {cs : Fin 16 → Node} (hs : ∀ j, Shaped (cs j)) (w : Option Bytes) (p : List Nib) (v : Bytes)
    (he : ∀ i t, p = i :: t → cs i = .empty) :
    ∃ x rest cs' w', leafPath p = x :: rest ∧ branchInsert cs w x (.leaf rest v) = .ok (cs', w') ∧ Puts db v p (.branch cs w) (.branch cs' w') := by
  cases p with
  | nil => exact ⟨16, [], cs, some v, rfl, rfl, .value hs v w⟩
  | cons i t =>
    have hi := i.isLt
    refine ⟨i.val, leafPath t, fun j => if j = i then .leaf (leafPath t) v else cs j, w, rfl, ?_, .child hs ?_⟩
    · unfold branchInsert
      rw [if_neg (by omega), dif_pos hi]
    · rw [he i t rfl]
      exact .new v t

theorem Puts.shaped_children {v : Bytes} {p : List Nib} {n : Node} {cs : Fin 16 → Node} {w : Option Bytes} (h : Puts db v p n (.branch cs w)) :
    ∀ j, Shaped (cs j) := by
  cases h.1 with
  | branch _ hc => exact hc

theorem insertLeaf_puts (k p : List Nib) (w v : Bytes) :
    ∃ n, insertLeaf (leafPath k) w (leafPath p) v = .ok n ∧ Puts db v p (.leaf (leafPath k) w) n := by
  unfold insertLeaf
  simp only [commonPrefix_leaf, leafPath_length]
  by_cases hkp : k = p
  · subst hkp
    refine ⟨.leaf (leafPath k) v, by simp, .leaf k v, ?_, fun q hq r => ?_⟩
    · rw [gives_leaf, if_pos rfl]
    · rw [gives_leaf, gives_leaf, if_neg (fun e => hq (leafPath_inj.1 e).symm), if_neg (fun e => hq (leafPath_inj.1 e).symm)]
  · have hpk : p ≠ k := Ne.symm hkp
    rw [if_neg hpk]
    obtain ⟨c, p', k', rfl, rfl, h3, h4⟩ := lcp_split p k
    rw [h3, if_neg (by simp only [List.length_append]; omega)]
    obtain ⟨x1, r1, cs1, v1, e1, b1, put1⟩ := branchInsert_puts (db := db) (cs := fun _ => .empty) (fun _ => .empty) none k' w (fun _ _ _ => rfl)
    have hempty : ∀ i t, p' = i :: t → cs1 i = .empty := by
      rintro i t rfl
      cases k' with
      | nil =>
        cases e1
        cases b1
        rfl
      | cons j u =>
        have hj := j.isLt
        cases e1
        unfold branchInsert at b1
        rw [if_neg (by omega), dif_pos hj] at b1
        cases b1
        have : i ≠ j := by
          rcases h4 with h | h | h
          · cases h
          · cases h
          · exact fun e => h (by rw [e]; rfl)
        exact if_neg this
    obtain ⟨x2, r2, cs2, v2, e2, b2, put2⟩ := branchInsert_puts (db := db) put1.shaped_children v1 p' v hempty
    rw [(leafPath_split (c := c) e1).1, (leafPath_split (c := c) e1).2, (leafPath_split (c := c) e2).1, (leafPath_split (c := c) e2).2]
    simp only [Res.ok_bind, b1, b2]
    have halike : ReadsSame db (.leaf (leafPath k') w) (.branch cs1 v1) := by
      intro q r
      by_cases hq : q = k'
      · subst hq
        rw [gives_leaf, if_pos rfl]
        exact ⟨fun h => by rw [h]; exact put1.2.1, fun h => gives_unique h put1.2.1⟩
      · rw [gives_leaf, if_neg (fun e => hq (leafPath_inj.1 e).symm), put1.2.2 q hq r]
        cases q with
        | nil =>
          show _ ↔ Gives db (_, [16]) _
          rw [gives_branch_value]
        | cons j t =>
          show _ ↔ Gives db (_, j.val :: leafPath t) _
          rw [gives_branch, gives_empty]
    have hput : Puts db v p' (.leaf (leafPath k') w) (.branch cs2 v2) := put2.congr halike
    by_cases hc : c = []
    · subst hc
      exact ⟨.branch cs2 v2, by simp, hput⟩
    · have : c.length ≠ 0 := fun h => hc (List.length_eq_zero_iff.1 h)
      refine ⟨.ext (toNibs c) (.branch cs2 v2), ?_, (hput.ext hc).congr fun q r => ?_⟩
      · simp only [this, if_false, leafPath_take]
        rfl
      · by_cases hp : toNibs c <+: leafPath q
        · obtain ⟨q', rfl⟩ := prefix_leafPath.1 hp
          rw [leafPath_append c q', gives_ext, ← leafPath_append, gives_leaf, gives_leaf]
          simp only [leafPath_inj, List.append_cancel_left_eq]
        · rw [gives_ext_other _ hp, gives_leaf, if_neg (fun e => hp (by rw [← e]; exact prefix_leafPath.2 ⟨k', rfl⟩))]

theorem insertSplit_puts {i : Nib} {t : List Nib} {sub : Node} (hs : Shaped sub) {p : List Nib} (hp : Apart p (i :: t)) (v : Bytes) :
    ∃ n, insertSplit (toNibs (i :: t)) sub (leafPath p) v = .ok n ∧ Puts db v p (.ext (toNibs (i :: t)) sub) n := by
  have hi := i.isLt
  unfold insertSplit
  have e0 : at' (toNibs (i :: t)) 0 = .ok i.val := rfl
  rw [e0]
  simp only [Res.ok_bind, toNibs_length, List.length_cons, toNibs_cons, List.drop_one, List.tail_cons]
  generalize hm : (if t.length + 1 = 1 then sub else .ext (toNibs t) sub) = m
  have hms : Shaped m := by
    rw [← hm]
    split
    · exact hs
    · rename_i h
      exact .ext (fun e => h (by rw [e]; rfl)) hs
  have hgm : ∀ q r, Gives db (m, q) r ↔ Gives db (.ext (toNibs t) sub, q) r := by
    intro q r
    rw [← hm]
    split
    · rename_i h
      have : t = [] := List.length_eq_zero_iff.1 (by omega)
      subst this
      exact (gives_ext [] q sub r).symm
    · rfl
  have eb : branchInsert (fun _ => .empty) none i.val m = .ok (fun j => if j = i then m else .empty, none) := by
    unfold branchInsert
    rw [if_neg (by omega), dif_pos hi]
  rw [eb]
  simp only [Res.ok_bind]
  have hbase : ∀ j : Fin 16, Shaped (if j = i then m else .empty) := by
    intro j
    split
    · exact hms
    · exact .empty
  have halike : ReadsSame db (.ext (i.val :: toNibs t) sub) (.branch (fun j => if j = i then m else .empty) none) := by
    intro q r
    cases q with
    | nil =>
      rw [gives_ext_other]
      · show _ ↔ Gives db (_, [16]) _
        rw [gives_branch_value]
      · intro h
        obtain ⟨q', h⟩ := prefix_leafPath.1 (show toNibs (i :: t) <+: leafPath [] from h)
        cases h
    | cons j u =>
      show _ ↔ Gives db (_, j.val :: leafPath u) _
      rw [gives_branch]
      by_cases hj : j = i
      · subst hj
        rw [if_pos rfl, hgm]
        by_cases h : toNibs t <+: leafPath u
        · obtain ⟨u', rfl⟩ := prefix_leafPath.1 h
          rw [leafPath_append t u', gives_ext]
          exact (leafPath_append (j :: t) u' : leafPath (j :: (t ++ u')) = (j.val :: toNibs t) ++ leafPath u') ▸ gives_ext _ _ _ _
        · rw [gives_ext_other _ h, gives_ext_other]
          intro h'
          obtain ⟨q', e⟩ := prefix_leafPath.1 (show toNibs (j :: t) <+: leafPath (j :: u) from h')
          injection e with _ e
          exact h (prefix_leafPath.2 ⟨q', e⟩)
      · rw [if_neg hj, gives_empty, gives_ext_other]
        intro h'
        obtain ⟨q', e⟩ := prefix_leafPath.1 (show toNibs (i :: t) <+: leafPath (j :: u) from h')
        injection e with e _
        exact hj e
  cases p with
  | nil => exact ⟨_, rfl, (Puts.value hbase v none).congr halike⟩
  | cons j u =>
    have hj := j.isLt
    have ej : at' (leafPath (j :: u)) 0 = .ok j.val := rfl
    rw [ej]
    simp only [Res.ok_bind]
    rw [if_neg (by omega), dif_pos hj]
    refine ⟨_, rfl, Puts.congr (.child hbase ?_) halike⟩
    have : j ≠ i := by
      rcases hp with h | h | h
      · cases h
      · cases h
      · exact fun e => h (by rw [e]; rfl)
    rw [if_neg this]
    exact .new v u

/-- The way through an extension. -/
theorem insertStep_ext (hop : H256 → Nibbles → Out Node) {c : List Nib} (hc : c ≠ []) {sub : Node} (hs : Shaped sub) (v : Bytes) (p : List Nib) :
    (∃ p', p = c ++ p' ∧ insertStep hop v (.ext (toNibs c) sub) (leafPath p) = (insertStep hop v sub (leafPath p')).map (fun n => .ext (toNibs c) n)) ∨
      (¬ toNibs c <+: leafPath p ∧ ∃ n, insertStep hop v (.ext (toNibs c) sub) (leafPath p) = .of (.ok n) ∧ Puts db v p (.ext (toNibs c) sub) n) := by
  have hc0 : 0 < c.length := List.length_pos_iff.2 hc
  simp only [insertStep]
  rw [commonPrefix_toNibs, toNibs_length]
  by_cases hq : lcp p c = c.length
  · left
    have hq' := hq
    obtain ⟨r, rfl⟩ := lcp_eq_length.1 hq
    refine ⟨r, rfl, ?_⟩
    rw [hq', if_neg (by omega), if_pos rfl, leafPath_drop]
  · right
    refine ⟨fun h => ?_, ?_⟩
    · obtain ⟨r, rfl⟩ := prefix_leafPath.1 h
      exact hq (lcp_eq_length.2 ⟨r, rfl⟩)
    obtain ⟨d, p', c', rfl, rfl, h3, h4⟩ := lcp_split p c
    have hq' : c' ≠ [] := by
      rintro rfl
      exact hq (by rw [h3]; simp)
    obtain ⟨i, t, rfl⟩ := List.exists_cons_of_ne_nil hq'
    obtain ⟨n, e, hput⟩ := insertSplit_puts (db := db) hs h4 v
    rw [h3]
    by_cases hd : d = []
    · subst hd
      rw [List.length_nil, if_pos rfl]
      exact ⟨n, congrArg Out.of e, hput⟩
    · have hd' : d.length ≠ 0 := fun h => hd (List.length_eq_zero_iff.1 h)
      have e1 : (toNibs (d ++ i :: t)).drop d.length = toNibs (i :: t) := by
        rw [toNibs_append, List.drop_left' (toNibs_length d)]
      have e2 : (toNibs (d ++ i :: t)).take d.length = toNibs d := by
        rw [toNibs_append, List.take_left' (toNibs_length d)]
      rw [if_neg hd', if_neg (by rw [h3] at hq; exact hq), e1, e2, leafPath_drop, e]
      refine ⟨.ext (toNibs d) n, rfl, (hput.ext hd).congr fun q r => ?_⟩
      by_cases hp : toNibs d <+: leafPath q
      · obtain ⟨q', rfl⟩ := prefix_leafPath.1 hp
        rw [leafPath_append d q', gives_ext]
        by_cases hp' : toNibs (i :: t) <+: leafPath q'
        · obtain ⟨q'', rfl⟩ := prefix_leafPath.1 hp'
          rw [leafPath_append, gives_ext, ← List.append_assoc, ← toNibs_append, gives_ext]
        · rw [gives_ext_other _ hp', gives_ext_other]
          intro h
          rw [toNibs_append, List.prefix_append_right_inj] at h
          exact hp' h
      · rw [gives_ext_other _ hp, gives_ext_other]
        intro h
        rw [toNibs_append] at h
        exact hp ((List.prefix_append _ _).trans h)

theorem insertStep_puts {hop : H256 → Nibbles → Out Node} {v : Bytes}
    (hh : ∀ x (p : List Nib) m, (hop x (leafPath p)).2 = .ok m → Puts db v p (.hash x) m) {n : Node} (hn : Shaped n) :
    ∀ (p : List Nib) m, (insertStep hop v n (leafPath p)).2 = .ok m → Puts db v p n m := by
  induction hn with
  | empty => intro p m h; cases h; exact .new v p
  | leaf k w =>
    intro p m h
    obtain ⟨n, e, hput⟩ := insertLeaf_puts (db := db) k p w v
    have : (insertStep hop v (.leaf (leafPath k) w) (leafPath p)).2 = .ok n := e
    rw [show (k.map Fin.val ++ [16] : Nibbles) = leafPath k from rfl, this] at h
    cases h
    exact hput
  | hash x => exact fun p m h => hh x p m h
  | @ext c sub hc hs ih =>
    intro p m h
    rcases insertStep_ext (db := db) hop hc hs v p with ⟨p', rfl, e⟩ | ⟨_, n, e, hput⟩
    · rw [show (c.map Fin.val : Nibbles) = toNibs c from rfl, e] at h
      simp only [Out.map] at h
      rcases hr : (insertStep hop v sub (leafPath p')).2 with er | m'
      · rw [hr] at h; cases h
      · rw [hr] at h
        cases h
        exact (ih p' m' hr).ext hc
    · rw [show (c.map Fin.val : Nibbles) = toNibs c from rfl, e] at h
      cases h
      exact hput
  | @branch cs w hc ih =>
    intro p m h
    cases p with
    | nil =>
      cases h
      exact .value hc v w
    | cons i t =>
      have hi := i.isLt
      have e : insertStep hop v (.branch cs w) (leafPath (i :: t)) = (insertStep hop v (cs i) (leafPath t)).map
          (fun n => .branch (fun j => if j = i then n else cs j) w) := by
        show insertStep hop v (.branch cs w) (i.val :: leafPath t) = _
        simp only [insertStep]
        rw [if_neg (by omega), dif_pos hi]
      rw [e] at h
      simp only [Out.map] at h
      rcases hr : (insertStep hop v (cs i) (leafPath t)).2 with er | m'
      · rw [hr] at h; cases h
      · rw [hr] at h
        cases h
        exact .child hc (ih i t m' hr)

/-- Inserting fails as reading does. -/
theorem insertStep_fate (db : Db) {hop : H256 → Nibbles → Out Node} {hop' : H256 → Nibbles → Res (Option Bytes)} {v : Bytes}
    (hh : ∀ x (p : List Nib) e, (hop x (leafPath p)).2 = .error e ↔ hop' x (leafPath p) = .error e) {n : Node} (hn : Shaped n) :
    ∀ (p : List Nib) e, (insertStep hop v n (leafPath p)).2 = .error e ↔ getStep hop' n (leafPath p) = .error e := by
  have map_error : ∀ (x : Out Node) (f : Node → Node) e, (x.map f).2 = .error e ↔ x.2 = .error e := by
    rintro ⟨l, r⟩ f e
    cases r <;> simp [Out.map, Except.map]
  induction hn with
  | empty => intro p e; exact ⟨fun h => (nomatch h), fun h => (nomatch h)⟩
  | leaf k w =>
    intro p e
    obtain ⟨n, en, _⟩ := insertLeaf_puts (db := db) k p w v
    have : (insertStep hop v (.leaf (leafPath k) w) (leafPath p)).2 = .ok n := en
    rw [show (k.map Fin.val ++ [16] : Nibbles) = leafPath k from rfl, this]
    exact ⟨fun h => (nomatch h), fun h => (nomatch h)⟩
  | hash x => exact fun p e => hh x p e
  | @ext c sub hc hs ih =>
    intro p e
    rw [show (c.map Fin.val : Nibbles) = toNibs c from rfl]
    simp only [getStep]
    rcases insertStep_ext (db := db) hop hc hs v p with ⟨p', rfl, en⟩ | ⟨hnot, n, en, _⟩
    · rw [en, map_error, if_pos ((commonPrefix_iff _ _).2 (prefix_leafPath.2 ⟨p', rfl⟩)), toNibs_length, leafPath_drop]
      exact ih p' e
    · rw [en, if_neg (fun h => hnot ((commonPrefix_iff _ _).1 h))]
      exact ⟨fun h => (nomatch h), fun h => (nomatch h)⟩
  | @branch cs w hc ih =>
    intro p e
    cases p with
    | nil => exact ⟨fun h => (nomatch h), fun h => (nomatch h)⟩
    | cons i t =>
      have hi := i.isLt
      show (insertStep hop v (.branch cs w) (i.val :: leafPath t)).2 = _ ↔ getStep hop' (.branch cs w) (i.val :: leafPath t) = _
      simp only [insertStep, getStep]
      rw [if_neg (by omega), dif_pos hi, if_neg (by omega), dif_pos hi, map_error]
      exact ih i t e

theorem insertAt_puts (hd : ∀ x n, fetch db x = .ok n → Shaped n) (v : Bytes) (fuel : Nat) : ∀ {n : Node}, Shaped n → ∀ (p : List Nib) m,
    (insertAt db v fuel n (leafPath p)).2 = .ok m → Puts db v p n m := by
  induction fuel with
  | zero => exact fun hn => insertStep_puts (fun _ _ _ h => by cases h) hn
  | succ f ih =>
    refine fun hn => insertStep_puts (fun x p m h => ?_) hn
    unfold Out.andThen at h
    rcases hf : fetch db x with e | n
    · rw [hf] at h; cases h
    · rw [hf] at h
      obtain ⟨b, hb, hn⟩ := fetch_ok_inv hf
      exact (ih (hd x n hf) p m h).congr fun q r => gives_step (.hash hb hn) r

theorem insertAt_fate (hd : ∀ x n, fetch db x = .ok n → Shaped n) (v : Bytes) (fuel : Nat) : ∀ {n : Node}, Shaped n → ∀ (p : List Nib) e,
    (insertAt db v fuel n (leafPath p)).2 = .error e ↔ getAt db fuel n (leafPath p) = .error e := by
  induction fuel with
  | zero => exact fun hn => insertStep_fate db (fun _ _ _ => ⟨fun h => by cases h; rfl, fun h => by cases h; rfl⟩) hn
  | succ f ih =>
    refine fun hn => insertStep_fate db (fun x p e => ?_) hn
    unfold Out.andThen
    rcases hf : fetch db x with e' | n
    · exact ⟨fun h => by cases h; rfl, fun h => by cases h; rfl⟩
    · exact ih (hd x n hf) p e

end Verif.Pmt
