import Verif.Proofs.Patricia
/-!
Patricia tries with branches that have fewer than two entries: where they are, and what insertions and removals do to them.
-/

set_option autoImplicit false

namespace Verif.Pmt

namespace PT

/-- Branches have at least two entries, except at the given paths. -/
def Loose : (List Nib → Prop) → PT → Prop
  | _, .empty => True
  | _, .leaf _ _ => True
  | G, .ext p t => p ≠ [] ∧ IsBranch t ∧ Loose (fun x => G (p ++ x)) t
  | G, .branch cs v => (∀ i, Loose (fun x => G (i :: x)) (cs i)) ∧ (Two cs v ∨ G [])

/-- There is a branch with fewer than two entries at the path. -/
def Thin : PT → List Nib → Prop
  | .empty, _ => False
  | .leaf _ _, _ => False
  | .ext p t, x => ∃ q, x = p ++ q ∧ Thin t q
  | .branch cs v, x =>
    match x with
    | [] => ¬ Two cs v
    | i :: q => Thin (cs i) q

/-- There is an entry or a branch with fewer than two entries at the path. -/
def Mark (t : PT) (x : List Nib) : Prop := (t.get x).isSome ∨ Thin t x

theorem loose_mono {t : PT} {G G' : List Nib → Prop} (h : Loose G t) (hG : ∀ x, G x → G' x) : Loose G' t := by
  induction t generalizing G G' with
  | empty => trivial
  | leaf => trivial
  | ext p t ih => exact ⟨h.1, h.2.1, ih h.2.2 (fun x hx => hG _ hx)⟩
  | branch cs v ih => exact ⟨fun i => ih i (h.1 i) (fun x hx => hG _ hx), h.2.imp id (hG _)⟩

theorem loose_of_canon {t : PT} {G : List Nib → Prop} (h : Canon t) : Loose G t := by
  induction t generalizing G with
  | empty => trivial
  | leaf => trivial
  | ext p t ih => exact ⟨h.1, h.2.1, ih h.2.2⟩
  | branch cs v ih => exact ⟨fun i => ih i (h.1 i), .inl h.2⟩

theorem loose_thin {t : PT} {G : List Nib → Prop} (h : Loose G t) {x : List Nib} (hx : Thin t x) : G x := by
  induction t generalizing G x with
  | empty => exact hx.elim
  | leaf => exact hx.elim
  | ext p t ih => obtain ⟨q, rfl, hq⟩ := hx; exact ih h.2.2 hq
  | branch cs v ih =>
    cases x with
    | nil => exact h.2.resolve_left hx
    | cons i q => exact ih i (h.1 i) hx

theorem loose_of_thin {t : PT} {G G' : List Nib → Prop} (h : Loose G t) (hG : ∀ x, Thin t x → G' x) : Loose G' t := by
  induction t generalizing G G' with
  | empty => trivial
  | leaf => trivial
  | ext p t ih => exact ⟨h.1, h.2.1, ih h.2.2 (fun x hx => hG _ ⟨x, rfl, hx⟩)⟩
  | branch cs v ih => exact ⟨fun i => ih i (h.1 i) (fun x hx => hG (i :: x) hx), (Classical.em (Two cs v)).imp id (fun h2 => hG [] h2)⟩

/-- At a thin branch no two entries part, and there is no entry at it and below it. -/
theorem thin_lone {t : PT} {p : List Nib} (h : Thin t p) : ¬ Parts t p ∧ ∀ x, x ≠ [] → (t.get p).isSome → t.get (p ++ x) = none := by
  induction t generalizing p with
  | empty => exact h.elim
  | leaf => exact h.elim
  | ext q t ih =>
    obtain ⟨r, rfl, hr⟩ := h
    have := ih hr
    unfold Parts at this ⊢
    simpa only [List.append_assoc, get_ext_append] using this
  | branch cs v ih =>
    cases p with
    | cons i q => exact ih i h
    | nil =>
      have ne : ∀ {i : Nib} {x : List Nib}, ((PT.branch cs v).get ([] ++ i :: x)).isSome → cs i ≠ .empty := by
        intro i x hi he
        simp [get, he] at hi
      refine ⟨fun ⟨i, j, x, y, hij, hi, hj⟩ => h (.inl ⟨i, j, hij, ne hi, ne hj⟩), fun x hx hv => ?_⟩
      cases x with
      | nil => exact absurd rfl hx
      | cons i x =>
        by_contra hn
        exact h (.inr ⟨hv, i, ne (x := x) (Option.isSome_iff_ne_none.2 hn)⟩)

/-- A tree that is not empty has an entry or a thin branch. -/
theorem mark_exists {t : PT} {d : Nat} (h : Ok t d) (hne : t ≠ .empty) : ∃ x, Mark t x := by
  induction t generalizing d with
  | empty => exact absurd rfl hne
  | leaf k v => exact ⟨k, .inl (by simp [get])⟩
  | ext p t ih =>
    obtain ⟨x, hx⟩ := ih h.2.2.2 h.2.2.1.ne_empty
    exact ⟨p ++ x, hx.imp (by rw [get_ext_append]; exact id) (fun hx => ⟨x, rfl, hx⟩)⟩
  | branch cs v ih =>
    by_cases h2 : Two cs v
    · have : ∃ i, cs i ≠ .empty := by
        rcases h2 with ⟨i, _, _, hi, _⟩ | ⟨_, i, hi⟩ <;> exact ⟨i, hi⟩
      obtain ⟨i, hi⟩ := this
      rcases h.1 i with h' | h'
      · exact absurd h' hi
      · obtain ⟨x, hx⟩ := ih i h'.2 hi
        exact ⟨i :: x, hx⟩
    · exact ⟨[], .inr h2⟩

theorem mark_empty {x : List Nib} : ¬ Mark .empty x := by rintro (h | h) <;> cases h

theorem mark_child {cs : Nib → PT} {v : Option Bytes} {i : Nib} {x : List Nib} : Mark (.branch cs v) (i :: x) ↔ Mark (cs i) x := Iff.rfl

theorem mark_ext {p : List Nib} {t : PT} {x : List Nib} : Mark (.ext p t) (p ++ x) ↔ Mark t x := by
  unfold Mark
  rw [get_ext_append]
  refine or_congr_right ⟨?_, fun h => ⟨x, rfl, h⟩⟩
  rintro ⟨q, e, h⟩
  rw [List.append_cancel_left e]; exact h

theorem mark_ext_prefix {p : List Nib} {t : PT} {x : List Nib} (h : Mark (.ext p t) x) : p <+: x := by
  rcases h with h | ⟨q, rfl, _⟩
  · exact ext_keys h
  · exact ⟨q, rfl⟩

/-! ### Insertion -/

theorem loose_mk {p : List Nib} {t : PT} {G : List Nib → Prop} (hb : IsBranch t) (h : Loose (fun x => G (p ++ x)) t) : Loose G (mk p t) := by
  unfold mk
  split
  · next hp => subst hp; exact h
  · next hp => exact ⟨hp, hb, h⟩

theorem loose_split {q p : List Nib} {s : PT} {G : List Nib → Prop} (v : Bytes) (ha : Apart p q) (hq : q ≠ []) (hb : IsBranch s)
    (hs : Loose (fun x => G (q ++ x)) s) : Loose G (split q s p v) := by
  cases q with
  | nil => exact absurd rfl hq
  | cons i t =>
    have hc : Loose (fun x => G (i :: x)) (mk t s) := loose_mk hb hs
    have he : mk t s ≠ .empty := mk_ne_empty hb.ne_empty
    cases p with
    | nil =>
      refine ⟨fun j => ?_, .inl (.inr ⟨rfl, i, by simpa [upd] using he⟩)⟩
      simp only [upd]; split
      · next h => subst h; exact hc
      · trivial
    | cons j u =>
      have hji : j ≠ i := by
        rcases ha with h | h | h
        · cases h
        · cases h
        · simpa using h
      refine ⟨fun l => ?_, .inl (.inl ⟨j, i, hji, by simp [upd], by simpa [upd, Ne.symm hji] using he⟩)⟩
      simp only [upd]; split
      · trivial
      · split
        · next h => subst h; exact hc
        · trivial

theorem loose_insert {t : PT} {G : List Nib → Prop} (v : Bytes) (p : List Nib) (h : Loose G t) : Loose G (t.insert v p) := by
  induction t generalizing p G with
  | empty => trivial
  | leaf k w => exact loose_of_canon (canon_insert v p trivial)
  | branch cs w ih =>
    cases p with
    | nil =>
      refine ⟨h.1, h.2.imp ?_ id⟩
      rintro (h' | h')
      · exact .inl h'
      · exact .inr ⟨rfl, h'.2⟩
    | cons i t =>
      have key : ∀ j, cs j ≠ .empty → upd cs i (insert v (cs i) t) j ≠ .empty := by
        intro j hj
        simp only [upd]; split
        · exact insert_ne_empty v _ _
        · exact hj
      refine ⟨fun j => ?_, h.2.imp ?_ id⟩
      · simp only [upd]; split
        · next hj => subst hj; exact ih j t (h.1 j)
        · exact h.1 j
      · rintro (⟨a, b, h1, h2, h3⟩ | ⟨h1, a, h2⟩)
        · exact .inl ⟨a, b, h1, key a h2, key b h3⟩
        · exact .inr ⟨h1, a, key a h2⟩
  | ext q s ih =>
    unfold insert
    split
    · exact ⟨h.1, isBranch_insert h.2.1 .., ih _ h.2.2⟩
    · next hq =>
      obtain ⟨c, p', q', rfl, rfl, h3, h4⟩ := lcp_split p q
      rw [h3]
      simp only [List.take_left', List.drop_left']
      have hq' : q' ≠ [] := by
        rintro rfl
        exact hq (by rw [h3]; simp)
      have h' : Loose (fun x => G (c ++ (q' ++ x))) s := by
        have := h.2.2
        simpa only [List.append_assoc] using this
      exact loose_mk (isBranch_split q' hq' ..) (loose_split (G := fun x => G (c ++ x)) v h4 hq' h.2.1 h')

/-! ### Removal -/

theorem loose_degExt {p : List Nib} {t : PT} {G : List Nib → Prop} (hne : t ≠ .empty) (hp : p ≠ []) (h : Loose (fun x => G (p ++ x)) t) :
    Loose G (degExt p t) := by
  cases t with
  | empty => exact absurd rfl hne
  | branch cs v => exact ⟨hp, trivial, h⟩
  | leaf k v => trivial
  | ext q s =>
    cases s with
    | branch cs v => exact ⟨by simp [hp], trivial, by have := h.2.2; simpa only [List.append_assoc] using this⟩
    | _ => exact h.2.1.elim

theorem loose_deg_branch {cs : Nib → PT} {v : Option Bytes} {G : List Nib → Prop} (h : ∀ i, Loose (fun x => G (i :: x)) (cs i))
    (h1 : (v.isSome ∨ ∃ i, cs i ≠ .empty) ∨ G []) : Loose G (deg (.branch cs v)) := by
  have hnd : (used cs).Nodup := (nodup_finRange 16).filter _
  rcases hu : used cs with _ | ⟨i, _ | ⟨j, l⟩⟩
  · rcases v with _ | w
    · have : deg (.branch cs none) = .branch cs none := by simp [deg, hu]
      rw [this]
      refine ⟨h, .inr ?_⟩
      rcases h1 with (h1 | ⟨i, hi⟩) | h1
      · cases h1
      · have := mem_used.2 hi
        rw [hu] at this; cases this
      · exact h1
    · simp [deg, hu, Loose]
  · have hi : cs i ≠ .empty := mem_used.1 (by rw [hu]; simp)
    rcases v with _ | w
    · have : deg (.branch cs none) = degExt [i] (cs i) := by simp [deg, hu]
      rw [this]
      exact loose_degExt hi (by simp) (h i)
    · have : deg (.branch cs (some w)) = .branch cs (some w) := by simp [deg, hu]
      rw [this]
      exact ⟨h, .inl (.inr ⟨rfl, i, hi⟩)⟩
  · have : deg (.branch cs v) = .branch cs v := by simp [deg, hu]
    rw [this]
    refine ⟨h, .inl (.inl ⟨i, j, ?_, mem_used.1 (by rw [hu]; simp), mem_used.1 (by rw [hu]; simp)⟩)⟩
    rw [hu] at hnd
    rintro rfl
    simp at hnd

/-- Removal of an entry leaves a thin branch at most at its path, and there only if the path has an entry and is above another entry or a thin
branch. -/
theorem loose_del {t r : PT} {p : List Nib} {b : Bool} {d : Nat} (hd : Del t p r b) (hok : Ok t d) {G : List Nib → Prop} (h : Loose G t)
    (hp : G p ∨ t.get p = none ∨ ∀ x, x ≠ [] → ¬ Mark t (p ++ x)) : Loose G r := by
  have atBranch : ∀ {cs : Nib → PT} {v : Option Bytes} {d : Nat} {G : List Nib → Prop}, Ok (.branch cs v) d → Loose G (.branch cs v) →
      (G [] ∨ (PT.branch cs v).get [] = none ∨ ∀ x, x ≠ [] → ¬ Mark (.branch cs v) ([] ++ x)) →
      Two cs none ∨ G [] := by
    intro cs v d G hok h hp
    rcases hp with hp | hp | hp
    · exact .inr hp
    · have : v = none := hp
      subst this
      exact h.2
    · refine .inr (h.2.resolve_left fun h2 => ?_)
      have : ∃ i, cs i ≠ .empty := by
        rcases h2 with ⟨i, _, _, hi, _⟩ | ⟨_, i, hi⟩ <;> exact ⟨i, hi⟩
      obtain ⟨i, hi⟩ := this
      rcases hok.1 i with h' | h'
      · exact hi h'
      · obtain ⟨x, hx⟩ := mark_exists h'.2 hi
        exact hp (i :: x) (by simp) hx
  induction hd generalizing G d with
  | empty => trivial
  | leafHit => trivial
  | leafMiss => trivial
  | value => exact ⟨h.1, atBranch hok h hp⟩
  | valueDeg =>
    refine loose_deg_branch h.1 ((atBranch hok h hp).imp ?_ id)
    rintro (⟨i, _, _, hi, _⟩ | ⟨_, i, hi⟩) <;> exact .inr ⟨i, hi⟩
  | child hd ih =>
    rename_i cs v i p r
    have hoki : ∃ e, Ok (cs i) e := by
      rcases hok.1 i with h' | h'
      · exact ⟨0, by rw [h']; trivial⟩
      · exact ⟨_, h'.2⟩
    obtain ⟨e, hoki⟩ := hoki
    have := ih hoki (h.1 i) hp
    refine loose_deg_branch (fun j => ?_) (h.2.imp ?_ id)
    · simp only [upd]; split
      · next hj => subst hj; exact this
      · exact h.1 j
    · rintro (⟨a, c, h1, h2, h3⟩ | ⟨h1, _⟩)
      · by_cases ha : a = i
        · exact .inr ⟨c, by simpa [upd, show c ≠ i by rintro rfl; exact h1 ha] using h3⟩
        · exact .inr ⟨a, by simpa [upd, ha] using h2⟩
      · exact .inl h1
  | childMiss hd ih => exact h
  | ext hd ih =>
    rename_i q p s r
    have := ih hok.2.2.2 h.2.2 (hp.imp id (Or.imp (by rw [get_ext_append]; exact id)
      (fun hx x hx0 hm => hx x hx0 (by rw [List.append_assoc]; exact mark_ext.2 hm))))
    obtain ⟨h1, h2, h3⟩ := h
    cases s with
    | branch cs v => exact loose_degExt (del_branch_ne_empty hd) h1 this
    | _ => exact h2.elim
  | extMiss hd ih => exact h
  | extOff hq => exact h

/-! ### What removals report -/

/-- Two marks go on differently after the path. -/
def Forks (t : PT) (p : List Nib) : Prop := ∃ i j x y, i ≠ j ∧ Mark t (p ++ i :: x) ∧ Mark t (p ++ j :: y)

/-- `true` is reported for the entries, the thin branches and the paths at which marks part. -/
theorem del_reports {t r : PT} {p : List Nib} {b : Bool} {d : Nat} (hd : Del t p r b) (hok : Ok t d) :
    b = true ↔ (t.get p).isSome ∨ Thin t p ∨ Forks t p := by
  have atBranch : ∀ {cs : Nib → PT} {v : Option Bytes} {d : Nat}, Ok (.branch cs v) d →
      ((PT.branch cs v).get []).isSome ∨ Thin (.branch cs v) [] ∨ Forks (.branch cs v) [] := by
    intro cs v d hok
    by_cases h2 : Two cs v
    · rcases h2 with ⟨i, j, hij, hi, hj⟩ | ⟨hv, _⟩
      · have hm : ∀ i, cs i ≠ .empty → ∃ x, Mark (cs i) x := by
          intro i hi
          rcases hok.1 i with h' | h'
          · exact absurd h' hi
          · exact mark_exists h'.2 hi
        obtain ⟨x, hx⟩ := hm i hi
        obtain ⟨y, hy⟩ := hm j hj
        exact .inr (.inr ⟨i, j, x, y, hij, hx, hy⟩)
      · exact .inl hv
    · exact .inr (.inl h2)
  induction hd generalizing d with
  | empty =>
    simp only [Bool.false_eq_true, false_iff]
    rintro (h | h | ⟨_, _, _, _, _, h, _⟩)
    · cases h
    · exact h
    · exact mark_empty h
  | leafHit => simp [get]
  | leafMiss hk =>
    rename_i k p v
    simp only [Bool.false_eq_true, false_iff]
    rintro (h | h | ⟨i, j, x, y, hij, h1, h2⟩)
    · simp [get, hk] at h
    · exact h
    · have key : ∀ z, Mark (.leaf k v) z → k = z := by
        rintro z (h | h)
        · simp only [get] at h
          by_contra hn
          simp [hn] at h
        · exact h.elim
      have := (key _ h1).symm.trans (key _ h2)
      have := List.append_cancel_left this
      injection this with h _
      exact hij h
  | value => simp only [true_iff]; exact atBranch hok
  | valueDeg => simp only [true_iff]; exact atBranch hok
  | child hd ih =>
    rename_i cs v i p r
    have hoki : ∃ e, Ok (cs i) e := by
      rcases hok.1 i with h' | h'
      · exact ⟨0, by rw [h']; trivial⟩
      · exact ⟨_, h'.2⟩
    obtain ⟨e, hoki⟩ := hoki
    exact ih hoki
  | childMiss hd ih =>
    rename_i cs v i p r
    have hoki : ∃ e, Ok (cs i) e := by
      rcases hok.1 i with h' | h'
      · exact ⟨0, by rw [h']; trivial⟩
      · exact ⟨_, h'.2⟩
    obtain ⟨e, hoki⟩ := hoki
    exact ih hoki
  | ext hd ih =>
    rename_i q p s r
    refine (ih hok.2.2.2).trans ?_
    rw [get_ext_append]
    refine or_congr_right (or_congr ⟨fun h => ⟨_, rfl, h⟩, fun ⟨x, e, h⟩ => by rw [List.append_cancel_left e]; exact h⟩ ?_)
    unfold Forks
    simp only [List.append_assoc, mark_ext]
  | extMiss hd ih =>
    rename_i q p s r
    refine (ih hok.2.2.2).trans ?_
    rw [get_ext_append]
    refine or_congr_right (or_congr ⟨fun h => ⟨_, rfl, h⟩, fun ⟨x, e, h⟩ => by rw [List.append_cancel_left e]; exact h⟩ ?_)
    unfold Forks
    simp only [List.append_assoc, mark_ext]
  | extOff hq =>
    rename_i q p s
    simp only [Bool.false_eq_true, false_iff]
    rintro (h | ⟨x, rfl, _⟩ | ⟨i, j, x, y, hij, h1, h2⟩)
    · exact hq (ext_keys h)
    · exact hq ⟨x, rfl⟩
    · refine hq (prefix_of_apart (x := i :: x) (y := j :: y) (.inr (.inr (by simpa using hij))) (by simp [hij]) (mark_ext_prefix h1)
        (mark_ext_prefix h2))

/-- The thin branches of a tree can be listed. -/
theorem thin_list (t : PT) : ∃ B : List (List Nib), ∀ x, x ∈ B ↔ Thin t x := by
  induction t with
  | empty => exact ⟨[], by simp [Thin]⟩
  | leaf => exact ⟨[], by simp [Thin]⟩
  | ext p t ih =>
    obtain ⟨B, hB⟩ := ih
    refine ⟨B.map (p ++ ·), fun x => ?_⟩
    simp only [List.mem_map, Thin, hB]
    exact ⟨fun ⟨q, h, e⟩ => ⟨q, e.symm, h⟩, fun ⟨q, e, h⟩ => ⟨q, h, e.symm⟩⟩
  | branch cs v ih =>
    have ih' : ∃ B : Nib → List (List Nib), ∀ i x, x ∈ B i ↔ Thin (cs i) x := ⟨fun i => (ih i).choose, fun i => (ih i).choose_spec⟩
    obtain ⟨B, hB⟩ := ih'
    have hroot : ∃ l : List (List Nib), ∀ x, x ∈ l ↔ x = [] ∧ ¬ Two cs v := by
      by_cases h2 : Two cs v
      · exact ⟨[], by simp [h2]⟩
      · exact ⟨[[]], by simp [h2]⟩
    obtain ⟨l, hl⟩ := hroot
    refine ⟨l ++ (List.finRange 16).flatMap (fun i => (B i).map (i :: ·)), fun x => ?_⟩
    rw [List.mem_append, hl, List.mem_flatMap]
    cases x with
    | nil => simp [Thin]
    | cons i q =>
      simp only [Thin, List.mem_map, List.mem_finRange, true_and]
      constructor
      · rintro (⟨h, _⟩ | ⟨j, q', h, e⟩)
        · cases h
        · injection e with e1 e2
          subst e1; subst e2
          exact (hB _ _).1 h
      · exact fun h => .inr ⟨i, q, (hB _ _).2 h, rfl⟩

end PT

end Verif.Pmt
