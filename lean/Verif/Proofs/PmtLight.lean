import Verif.Proofs.PmtTwin
import Verif.Proofs.PmtLeak
/-!
Programs on one trie over a pruning database, side by side with the same program over an archive database.
-/

set_option autoImplicit false

namespace Verif.Pmt

open PT
open scoped Classical

variable {K : Keccak} {S : Bytes → Prop} {db d : Db} {tr : Trie} {m : Spec.Map} {P : Prop} {Q : Spec.Map → Prop} {R : List H256}

/-! ### Different contents, different subtrees -/

/-- The number of inner nodes. -/
def rank : PT → Nat
  | .ext _ s => rank s + 1
  | .branch cs _ => (∑ i, rank (cs i)) + 1
  | _ => 0

theorem exists_child {cs : Nib → PT} {v : Option Bytes} {u : PT} (h : 0 < below K (.branch cs v) u) : ∃ i, 0 < here K (cs i) u + below K (cs i) u := by
  by_contra hne
  push Not at hne
  have : below K (.branch cs v) u = 0 := Finset.sum_eq_zero fun i _ => Nat.le_zero.1 (hne i)
  omega

theorem here_pos {t u : PT} (h : 0 < here K t u) : t = u ∧ 32 ≤ (enc K t).length := by
  unfold here at h
  split at h
  · assumption
  · omega

theorem rank_below {t u : PT} (h : 0 < below K t u) : rank u < rank t := by
  have child : ∀ {s : PT}, (0 < below K s u → rank u < rank s) → 0 < here K s u + below K s u → rank u ≤ rank s := by
    intro s ih hs
    by_cases hh : 0 < here K s u
    · rw [(here_pos hh).1]
    · exact (ih (by omega)).le
  induction t with
  | empty => exact absurd h (Nat.lt_irrefl 0)
  | leaf k v => exact absurd h (Nat.lt_irrefl 0)
  | ext q s ih =>
    have := child ih h
    show rank u < rank s + 1
    omega
  | branch cs v ih =>
    obtain ⟨i, hi⟩ := exists_child h
    have h1 := child (ih i) hi
    have h2 := Finset.single_le_sum (f := fun i => rank (cs i)) (fun _ _ => Nat.zero_le _) (Finset.mem_univ i)
    show rank u < (∑ i, rank (cs i)) + 1
    have h3 : rank (cs i) ≤ ∑ i, rank (cs i) := h2
    omega

theorem below_self (t : PT) : below K t t = 0 := by
  by_contra h
  exact Nat.lt_irrefl _ (rank_below (K := K) (t := t) (u := t) (by omega))

/-- Two entries part after the path. -/
def Junction (t : PT) (p : List Nib) : Prop := ∃ x y, x.head? ≠ y.head? ∧ (t.get (p ++ x)).isSome ∧ (t.get (p ++ y)).isSome

/-- Two entries part after the path, or before the last nibble of it. -/
def Spot (t : PT) (p : List Nib) : Prop := Junction t p ∨ ∃ q i, p = q ++ [i] ∧ Junction t q

theorem junction_ext {q p : List Nib} {s : PT} (h : Junction s p) : Junction (.ext q s) (q ++ p) := by
  obtain ⟨x, y, h1, h2, h3⟩ := h
  exact ⟨x, y, h1, by rw [List.append_assoc, get_ext_append]; exact h2, by rw [List.append_assoc, get_ext_append]; exact h3⟩

theorem spot_ext {q p : List Nib} {s : PT} (h : Spot s p) : Spot (.ext q s) (q ++ p) := by
  rcases h with h | ⟨r, i, rfl, h⟩
  · exact .inl (junction_ext h)
  · exact .inr ⟨q ++ r, i, by rw [List.append_assoc], junction_ext h⟩

theorem spot_child {cs : Nib → PT} {v : Option Bytes} {i : Nib} {p : List Nib} (h : Spot (cs i) p) : Spot (.branch cs v) (i :: p) := by
  rcases h with h | ⟨r, j, rfl, h⟩
  · exact .inl h
  · exact .inr ⟨i :: r, j, rfl, h⟩

theorem junction_branch {cs : Nib → PT} {v : Option Bytes} (h : Canon (.branch cs v)) : Junction (.branch cs v) [] := by
  obtain ⟨x, y, h1, h2, h3, h4⟩ := canon_keys h
  refine ⟨x, y, ?_, h1, h2⟩
  rcases h4 with rfl | rfl | h4
  · cases y with
    | nil => exact absurd rfl h3
    | cons a y => simp
  · cases x with
    | nil => exact absurd rfl h3
    | cons a x => simp
  · exact h4

/-- A tree found below another one is in normal form with it, and its entries are the entries of the other one at a spot. -/
theorem below_sub {t u : PT} (hc : Canon t) (h : 0 < below K t u) :
    Canon u ∧ 32 ≤ (enc K u).length ∧ ∃ p, Spot t p ∧ ∀ x, t.get (p ++ x) = u.get x := by
  induction t with
  | empty => exact absurd h (Nat.lt_irrefl 0)
  | leaf k v => exact absurd h (Nat.lt_irrefl 0)
  | ext q s ih =>
    by_cases hh : 0 < here K s u
    · obtain ⟨rfl, hl⟩ := here_pos hh
      obtain ⟨h1, h2, h3⟩ := hc
      refine ⟨h3, hl, q, .inl ?_, fun x => get_ext_append ..⟩
      cases s with
      | branch cs v =>
        have := junction_ext (q := q) (junction_branch h3)
        rwa [List.append_nil] at this
      | _ => exact h2.elim
    · have hb : 0 < here K s u + below K s u := h
      obtain ⟨h1, h2, p, h4, h3⟩ := ih hc.2.2 (by omega)
      refine ⟨h1, h2, q ++ p, spot_ext h4, fun x => ?_⟩
      rw [List.append_assoc, get_ext_append, h3]
  | branch cs v ih =>
    obtain ⟨i, hi⟩ := exists_child h
    by_cases hh : 0 < here K (cs i) u
    · obtain ⟨rfl, hl⟩ := here_pos hh
      exact ⟨hc.1 i, hl, [i], .inr ⟨[], i, rfl, junction_branch hc⟩, fun x => rfl⟩
    · obtain ⟨h1, h2, p, h4, h3⟩ := ih i (hc.1 i) (by omega)
      exact ⟨h1, h2, i :: p, spot_child h4, fun x => h3 x⟩

/-- What is stored as a child of a branch has the entries of the branch at a spot that begins with the nibble. -/
theorem below_child {cs : Nib → PT} {v : Option Bytes} {u : PT} {i : Nib} (hc : Canon (.branch cs v)) (h : 0 < here K (cs i) u + below K (cs i) u) :
    Canon u ∧ 32 ≤ (enc K u).length ∧ ∃ p, Spot (.branch cs v) (i :: p) ∧ ∀ x, (PT.branch cs v).get (i :: p ++ x) = u.get x := by
  by_cases hh : 0 < here K (cs i) u
  · obtain ⟨rfl, hl⟩ := here_pos hh
    exact ⟨hc.1 i, hl, [], .inr ⟨[], i, rfl, junction_branch hc⟩, fun x => rfl⟩
  · obtain ⟨h1, h2, p, h4, h3⟩ := below_sub (hc.1 i) (show 0 < below K (cs i) u by omega)
    exact ⟨h1, h2, p, spot_child h4, fun x => h3 x⟩

/-- If there are no two spots with the same entries, then no tree is found twice. -/
theorem below_le_one {t : PT} (hc : Canon t) (u : PT)
    (hv : 32 ≤ (enc K u).length → Canon u → ∀ p q, Spot t p → Spot t q → (∀ x, t.get (p ++ x) = u.get x) → (∀ x, t.get (q ++ x) = u.get x) → p = q) :
    below K t u ≤ 1 := by
  have child : ∀ {s : PT}, below K s u ≤ 1 → here K s u + below K s u ≤ 1 := by
    intro s hs
    by_cases hh : 0 < here K s u
    · obtain ⟨rfl, hl⟩ := here_pos hh
      rw [below_self]
      simp [here]
      split <;> omega
    · omega
  induction t with
  | empty => exact Nat.zero_le _
  | leaf k v => exact Nat.zero_le _
  | ext r s ih =>
    refine child (ih hc.2.2 fun hl hu p q hp hq h1 h2 => ?_)
    have := hv hl hu (r ++ p) (r ++ q) (spot_ext hp) (spot_ext hq) (fun x => by rw [List.append_assoc, get_ext_append]; exact h1 x)
      (fun x => by rw [List.append_assoc, get_ext_append]; exact h2 x)
    exact List.append_cancel_left this
  | branch cs v ih =>
    have hone : ∀ i, here K (cs i) u + below K (cs i) u ≤ 1 := by
      intro i
      refine child (ih i (hc.1 i) fun hl hu p q hp hq h1 h2 => ?_)
      have := hv hl hu (i :: p) (i :: q) (spot_child hp) (spot_child hq) h1 h2
      exact (List.cons.inj this).2
    by_cases hp : 0 < below K (.branch cs v) u
    · obtain ⟨i, hi⟩ := exists_child hp
      have : below K (.branch cs v) u = here K (cs i) u + below K (cs i) u := by
        refine Finset.sum_eq_single (f := fun i => here K (cs i) u + below K (cs i) u) i (fun j _ hj => ?_) (fun h => absurd (Finset.mem_univ i) h)
        by_contra hne
        obtain ⟨g1, g2, p, g3, g4⟩ := below_child hc hi
        obtain ⟨_, _, q, g5, g6⟩ := below_child hc (Nat.pos_of_ne_zero hne)
        have := hv g2 g1 _ _ g3 g5 g4 g6
        exact hj (List.cons.inj this).1.symm
      rw [this]
      exact hone i
    · omega

/-- A leaf that is not stored inline is not short. -/
theorem leaf_long {k : List Nib} {v : Bytes} (h : 32 ≤ (enc K (.leaf k v)).length) : 28 ≤ k.length / 2 + v.length := by
  by_contra hn
  have data : ∀ b : Bytes, b.length < 56 → (Rlp.encodeData b).length ≤ b.length + 1 := by
    intro b hb
    unfold Rlp.encodeData
    split
    · split
      · simp
      · simp [Rlp.header]
    · rw [Rlp.header, if_pos (by omega)]
      simp only [List.length_append, List.length_cons, List.length_nil]
      omega
  have h1 := data (compact true k) (by rw [compact_length]; omega)
  have h2 := data v (by omega)
  rw [compact_length] at h1
  simp only [enc, Rlp.encodeList, List.flatten_cons, List.flatten_nil, List.append_nil, List.length_append] at h
  rw [Rlp.header, if_pos (by omega)] at h
  simp only [List.length_cons, List.length_nil] at h
  omega

/-- A tree that is not stored inline has two entries, or one that is not short. -/
theorem long_entries {u : PT} (hc : Canon u) (h : 32 ≤ (enc K u).length) :
    (∃ x y, x ≠ y ∧ (u.get x).isSome ∧ (u.get y).isSome) ∨ ∃ x v, u.get x = some v ∧ 28 ≤ x.length / 2 + v.length := by
  cases u with
  | empty => exact absurd h (by simp [enc])
  | leaf k v => exact .inr ⟨k, v, by simp [PT.get], leaf_long h⟩
  | ext q s =>
    obtain ⟨h1, h2, h3⟩ := hc
    cases s with
    | branch cs v =>
      obtain ⟨x, y, h4, h5, h6, _⟩ := canon_keys h3
      exact .inl ⟨q ++ x, q ++ y, fun e => h6 (List.append_cancel_left e), by rw [get_ext_append]; exact h4, by rw [get_ext_append]; exact h5⟩
    | _ => exact h2.elim
  | branch cs v =>
    obtain ⟨x, y, h4, h5, h6, _⟩ := canon_keys hc
    exact .inl ⟨x, y, h6, h4, h5⟩

theorem halves_eq (k : Bytes) : Spec.halves k = nibsOf k := by
  unfold Spec.halves nibsOf
  congr 1
  funext b
  have := b.toNat_lt
  simp only [List.cons.injEq, and_true, Fin.ext_iff, Fin.val_ofNat]
  omega

theorem Agrees.entry {t : PT} (h : Agrees t m) {x : List Nib} {v : Bytes} : Spec.Entry m x v ↔ t.get x = some v := by
  constructor
  · rintro ⟨k, rfl, hk⟩
    rw [halves_eq, h.get, hk]
  · intro hx
    obtain ⟨k, rfl⟩ := h.keys x (by rw [hx]; rfl)
    exact ⟨k, halves_eq k, by rw [← h.get, hx]⟩

theorem Agrees.junction {t : PT} (h : Agrees t m) {p : List Nib} (hj : Junction t p) : Spec.Junction m p := by
  obtain ⟨x, y, h1, h2, h3⟩ := hj
  obtain ⟨a, ha⟩ := Option.isSome_iff_exists.1 h2
  obtain ⟨b, hb⟩ := Option.isSome_iff_exists.1 h3
  exact ⟨x, y, a, b, h1, h.entry.2 ha, h.entry.2 hb⟩

theorem Agrees.spot {t : PT} (h : Agrees t m) {p : List Nib} (hj : Spot t p) : Spec.Spot m p :=
  hj.imp h.junction (fun ⟨q, i, e, hq⟩ => ⟨q, i, e, h.junction hq⟩)

/-- Without twins, no tree is found twice. -/
theorem below_once {t : PT} (hc : Canon t) (ha : Agrees t m) (hm : ¬ Spec.Twins m) (u : PT) : below K t u ≤ 1 := by
  refine below_le_one hc u fun hl hu p q hp hq h1 h2 => ?_
  by_contra hne
  refine hm ⟨p, q, hne, ha.spot hp, ha.spot hq, ?_, fun x v => ?_⟩
  · rcases long_entries hu hl with ⟨x, y, h3, h4, h5⟩ | ⟨x, v, h3, h4⟩
    · obtain ⟨a, ha'⟩ := Option.isSome_iff_exists.1 h4
      obtain ⟨b, hb'⟩ := Option.isSome_iff_exists.1 h5
      exact .inl ⟨x, y, a, b, h3, ha.entry.2 ((h1 x).trans ha'), ha.entry.2 ((h1 y).trans hb')⟩
    · exact .inr ⟨x, v, ha.entry.2 ((h1 x).trans h3), h4⟩
  · rw [ha.entry, ha.entry, h1, h2]

/-- Maps with different values have no twins. -/
theorem noTwins_of_distinct (h : ∀ a b, (m a).isSome → m a = m b → a = b) : ¬ Spec.Twins m := by
  rintro ⟨p, q, hne, -, -, hl, hpq⟩
  have : ∃ x v, Spec.Entry m (p ++ x) v := by
    rcases hl with ⟨x, _, v, _, _, hx, _⟩ | ⟨x, v, hx, _⟩ <;> exact ⟨x, v, hx⟩
  obtain ⟨x, v, hx⟩ := this
  obtain ⟨a, ha, ha'⟩ := hx
  obtain ⟨b, hb, hb'⟩ := (hpq x v).1 ⟨a, ha, ha'⟩
  have := h a b (by rw [ha']; rfl) (by rw [ha', hb'])
  subst this
  exact hne (List.append_cancel_right (ha.symm.trans hb))

/-- At a spot, or before its last half byte, there are two entries. -/
theorem spot_two {p : List (Fin 16)} (h : Spec.Spot m p) :
    ∃ c d, c ≠ d ∧ (m c).isSome ∧ (m d).isSome ∧ p.dropLast <+: Spec.halves c ∧ p.dropLast <+: Spec.halves d := by
  have hj : ∃ q, p.dropLast <+: q ∧ Spec.Junction m q := by
    rcases h with h | ⟨q, i, rfl, h⟩
    · exact ⟨p, List.dropLast_prefix p, h⟩
    · exact ⟨q, by rw [List.dropLast_concat], h⟩
  obtain ⟨q, hq, x, y, a, b, hxy, ⟨c, hc, hc'⟩, d, hd, hd'⟩ := hj
  refine ⟨c, d, ?_, by rw [hc']; rfl, by rw [hd']; rfl, by rw [hc]; exact hq.trans (List.prefix_append _ _), by rw [hd]; exact hq.trans (List.prefix_append _ _)⟩
  rintro rfl
  exact hxy (by rw [List.append_cancel_left (hc.symm.trans hd)])

/-- Looks through the entries of a map with the given keys for twins. -/
def untwinned (L : List Bytes) (m : Spec.Map) : Bool :=
  L.all fun a => L.all fun b => (List.range ((Spec.halves a).length + 1)).all fun n =>
    let p := (Spec.halves a).take n
    let x := (Spec.halves a).drop n
    let q := (Spec.halves b).take ((Spec.halves b).length - x.length)
    decide (m a = m b → q ++ x = Spec.halves b → p ≠ q →
      (∃ c ∈ L, ∃ d ∈ L, c ≠ d ∧ p.dropLast.isPrefixOf (Spec.halves c) = true ∧ p.dropLast.isPrefixOf (Spec.halves d) = true) →
      (∀ v ∈ m a, x.length / 2 + v.length < 28) ∧ ∀ c ∈ L, p.isPrefixOf (Spec.halves c) = true → c = a)

/-- Maps in which none are found have no twins. -/
theorem noTwins_of_list (L : List Bytes) (hL : ∀ k, (m k).isSome → k ∈ L) (h : untwinned L m = true) : ¬ Spec.Twins m := by
  rintro ⟨p, q, hne, hp, -, hl, hpq⟩
  have hn : ∀ x v, Spec.Entry m (p ++ x) v → x.length / 2 + v.length < 28 ∧ ∀ y w, Spec.Entry m (p ++ y) w → x = y := by
    rintro x v ⟨a, ha, ha'⟩
    obtain ⟨b, hb, hb'⟩ := (hpq x v).1 ⟨a, ha, ha'⟩
    have ha0 : a ∈ L := hL a (by rw [ha']; rfl)
    have hb0 : b ∈ L := hL b (by rw [hb']; rfl)
    have h1 := List.all_eq_true.1 (List.all_eq_true.1 (List.all_eq_true.1 h a ha0) b hb0) p.length (List.mem_range.2 (by rw [ha, List.length_append]; omega))
    simp only [ha, hb, List.take_left, List.drop_left, List.length_append, Nat.add_sub_cancel, decide_eq_true_eq] at h1
    obtain ⟨c, d, hcd, hc, hd, hc1, hd1⟩ := spot_two hp
    obtain ⟨h2, h3⟩ := h1 (by rw [ha', hb']) trivial hne ⟨c, hL c hc, d, hL d hd, hcd, List.isPrefixOf_iff_prefix.2 hc1, List.isPrefixOf_iff_prefix.2 hd1⟩
    refine ⟨h2 v ha', fun y w ⟨c, hc, hc'⟩ => ?_⟩
    have := h3 c (hL c (by rw [hc']; rfl)) (List.isPrefixOf_iff_prefix.2 (by rw [hc]; exact List.prefix_append _ _))
    subst this
    exact List.append_cancel_left (ha.symm.trans hc)
  rcases hl with ⟨x, y, a, b, hxy, hx, hy⟩ | ⟨x, v, hx, hv⟩
  · exact hxy ((hn x a hx).2 y b hy)
  · exact Nat.lt_irrefl _ (Nat.lt_of_lt_of_le (hn x v hx).1 hv)

/-! ### What a commit keeps -/

theorem encodeData_length_ge (b : Bytes) : b.length ≤ (Rlp.encodeData b).length := by
  unfold Rlp.encodeData
  split
  · split
    · exact Nat.le_refl _
    · rw [List.length_append]; omega
  · rw [List.length_append]; omega

/-- A tree with a long value is long. -/
theorem enc_long {t : PT} {x : List Nib} {v : Bytes} (h : t.get x = some v) (hv : 32 ≤ v.length) : 32 ≤ (enc K t).length := by
  have item : ∀ {b : Bytes}, 32 ≤ b.length → 32 ≤ (itemOf K b).length := by
    intro b hb
    unfold itemOf
    rw [if_neg (by omega)]
    have := encodeData_length_ge (K b).bytes
    rw [(K b).size] at this
    exact this
  have mem : ∀ {l : List Bytes} {y : Bytes}, y ∈ l → 32 ≤ y.length → 32 ≤ (Rlp.encodeList l).length := by
    intro l y hy hl
    have h1 := mem_flatten_length hy
    have h2 := Rlp.encodeList_length_gt (l := l)
    omega
  induction t generalizing x with
  | empty => cases h
  | leaf k w =>
    unfold PT.get at h
    split at h
    · cases h
      exact mem (y := Rlp.encodeData v) (by simp) (Nat.le_trans hv (encodeData_length_ge v))
    · cases h
  | ext q s ih =>
    unfold PT.get at h
    split at h
    · exact mem (y := itemOf K (enc K s)) (by simp) (item (ih h))
    · cases h
  | branch cs w ih =>
    cases x with
    | nil =>
      have h' : w = some v := h
      subst h'
      exact mem (y := Rlp.encodeData v) (List.mem_append_right _ (List.mem_singleton.2 rfl)) (Nat.le_trans hv (encodeData_length_ge v))
    | cons i r =>
      exact mem (y := itemOf K (enc K (cs i))) (List.mem_append_left _ (List.mem_map.2 ⟨i, List.mem_finRange i, rfl⟩)) (item (ih i h))

theorem Agrees.eq {t : PT} {m m' : Spec.Map} (h : Agrees t m) (h' : Agrees t m') : m = m' := by
  funext k
  rw [← h.get, h'.get]



theorem below_of_count {W : Bytes → Prop} {t : PT} (h : ∀ u, 0 < below K t u → W (enc K u)) : Below K W t := by
  have child : ∀ {s : PT}, (∀ u, 0 < here K s u + below K s u → W (enc K u)) → ((∀ u, 0 < below K s u → W (enc K u)) → Below K W s) →
      (32 ≤ (enc K s).length → W (enc K s)) ∧ Below K W s := by
    intro s h ih
    refine ⟨fun hl => h s ?_, ih fun u hu => h u (by omega)⟩
    have : here K s s = 1 := if_pos ⟨rfl, hl⟩
    omega
  induction t with
  | empty => trivial
  | leaf k v => trivial
  | ext q s ih => exact child h ih
  | branch cs v ih =>
    refine fun i => child (fun u hu => h u ?_) (ih i)
    exact Nat.lt_of_lt_of_le hu (Finset.single_le_sum (f := fun i => here K (cs i) u + below K (cs i) u) (fun _ _ => Nat.zero_le _) (Finset.mem_univ i))

/-- If what has been read is written again, and what has not been read is kept, then the tree is there. -/
theorem below_of_saved {W : Bytes → Prop} {n : Node} {t : PT} (h : Rep K S n t) (hs : Saved K W n t)
    (hu : ∀ u, 0 < stored K t n u → W (enc K u)) : Below K W t := by
  have child : ∀ {m : Node} {s : PT}, Rep K S m s → (¬ IsHash m → 32 ≤ (enc K s).length → W (enc K s)) →
      (∀ u, 0 < stored K s m u → W (enc K u)) → 32 ≤ (enc K s).length → W (enc K s) := by
    intro m s hr h1 h2 hl
    by_cases hm : IsHash m
    · cases m with
      | hash x =>
        refine h2 s ?_
        rw [stored_hash]
        have : here K s s = 1 := if_pos ⟨rfl, hl⟩
        omega
      | _ => exact hm.elim
    · exact h1 hm hl
  induction h with
  | empty => trivial
  | leaf k v => trivial
  | ext p h ih => exact ⟨child h hs.1 hu, ih hs.2 hu⟩
  | branch v h ih =>
    rename_i ns ts
    have hu' : ∀ i u, 0 < stored K (ts i) (ns i) u → W (enc K u) := by
      intro i u hi
      refine hu u ?_
      rw [stored_branch]
      exact Nat.lt_of_lt_of_le hi (Finset.single_le_sum (f := fun i => stored K (ts i) (ns i) u) (fun _ _ => Nat.zero_le _) (Finset.mem_univ i))
    exact fun i => ⟨child (h i) (hs i).1 (hu' i), ih i (hs i).2 (hu' i)⟩
  | hash hl h =>
    refine below_of_count fun u hu' => hu u ?_
    rw [stored_hash]
    omega

theorem removeBatch_keeps (l : List H256) (d : Db) {h : H256} (hh : h ∉ l) : (d.removeBatch l).get h = d.get h := by
  unfold Db.removeBatch
  induction l generalizing d with
  | nil => rfl
  | cons x t ih =>
    rw [List.foldl_cons, ih _ (fun hm => hh (List.mem_cons_of_mem _ hm))]
    unfold Db.remove
    split
    · show (d.storage.erase x).get h = d.storage.get h
      rw [FMap.get_erase, if_neg (fun he => hh (by rw [he]; exact List.mem_cons_self))]
    · rfl

theorem removeBatch_within (l : List H256) (d : Db) : Within (d.removeBatch l) d := by
  intro h b hb
  by_cases hg : d.get h = none
  · rw [removeBatch_none l hg] at hb; cases hb
  · unfold Db.removeBatch at hb
    induction l generalizing d with
    | nil => exact hb
    | cons x t ih =>
      rw [List.foldl_cons] at hb
      by_cases hx : (d.remove x).get h = none
      · have := removeBatch_none t hx
        unfold Db.removeBatch at this
        rw [this] at hb; cases hb
      · have h1 := ih (d.remove x) hb hx
        unfold Db.remove at h1
        split at h1
        · have h2 : (d.storage.erase x).get h = some b := h1
          rw [FMap.get_erase] at h2
          split at h2
          · cases h2
          · exact h2
        · exact h1

theorem insertBatch_log_eq (l : List (H256 × Bytes)) (d : Db) : (d.insertBatch l).log = (l.map Prod.snd).reverse ++ d.log := by
  unfold Db.insertBatch
  induction l generalizing d with
  | nil => rfl
  | cons e t ih =>
    rw [List.foldl_cons, ih]
    simp [Db.insert]

theorem removeBatch_light (l : List H256) (d : Db) : (d.removeBatch l).light = d.light := by
  unfold Db.removeBatch
  induction l generalizing d with
  | nil => rfl
  | cons x t ih =>
    rw [List.foldl_cons, ih]
    unfold Db.remove
    split <;> rfl

theorem removeBatch_gone {l : List H256} {d : Db} (hd : d.light = true) {x : H256} (hx : x ∈ l) : (d.removeBatch l).get x = none := by
  induction l generalizing d with
  | nil => cases hx
  | cons y t ih =>
    have e : d.removeBatch (y :: t) = (d.remove y).removeBatch t := rfl
    have hl : (d.remove y).light = true := by
      unfold Db.remove
      split <;> exact hd
    rw [e]
    rcases List.mem_cons.1 hx with rfl | hx
    · refine removeBatch_none t ?_
      unfold Db.remove
      rw [if_pos hd]
      show (d.storage.erase x).get x = none
      rw [FMap.get_erase, if_pos rfl]
    · exact ih hl hx

theorem insertBatch_get_cases {l : List (H256 × Bytes)} {d : Db} {x : H256} (hx : (d.insertBatch l).get x ≠ none) :
    d.get x ≠ none ∨ ∃ e ∈ l, x = e.1 := by
  induction l generalizing d with
  | nil => exact .inl hx
  | cons y t ih =>
    have e : d.insertBatch (y :: t) = (d.insert y.1 y.2).insertBatch t := rfl
    rw [e] at hx
    rcases ih hx with h | ⟨e, he, rfl⟩
    · by_cases hy : x = y.1
      · exact .inr ⟨y, by simp, hy⟩
      · rw [insert_get, if_neg hy] at h
        exact .inl h
    · exact .inr ⟨e, List.mem_cons_of_mem _ he, rfl⟩

/-- No proof has been asked for since the last commit, and what is stored is referred to by the trie, or has been passed, or is one of the roots
`R`. -/
def Tidy (K : Keccak) (R : List H256) (d : Db) (tr : Trie) (t : PT) : Prop :=
  d.light = true ∧ tr.cache = [] ∧ tr.genKeys = [] ∧
    ∀ x, d.get x ≠ none → x ∈ R ∨ x ∈ tr.passingKeys ∨ ∃ u, 0 < stored K t tr.root u ∧ x = K (enc K u)

/-- A trie over a pruning database: nothing that it refers to has been passed, and nothing is referred to or passed twice. With `P`, nothing
else is stored, except for the roots `R`. Passed nodes are long, or stand for a map with `Q`. -/
def LightInv (K : Keccak) (P : Prop) (Q : Spec.Map → Prop) (R : List H256) (d : Db) (tr : Trie) (m : Spec.Map) : Prop :=
  ∃ (t : PT) (L : List PT), Rep K (Has K d) tr.root t ∧ ¬ IsHash tr.root ∧ Ok t (2 ^ 60) ∧ Agrees t m ∧ Canon t ∧
    tr.passingKeys = L.map (fun s => K (enc K s)) ∧ (∀ u, stored K t tr.root u + L.count u ≤ 1) ∧
    (∀ u ∈ L, (32 ≤ (enc K u).length ∨ ∃ m0, Q m0 ∧ Agrees u m0) ∧ Held K (InLog d) u ∧ Ok u (2 ^ 60)) ∧ (P → Tidy K R d tr t)

theorem Holed.inLog (hd : Holed K d) (b : Bytes) (h : Has K d b) : InLog d b := (hd.sound _ _ h).2

theorem Holed.removeBatch (hd : Holed K d) (l : List H256) : Holed K (d.removeBatch l) := by
  refine ⟨fun h b hb => ?_, ?_⟩
  · rw [removeBatch_log]
    exact hd.sound h b (removeBatch_within l d h b hb)
  · rw [removeBatch_log]
    exact hd.encs

/-- The last part of `commit`. -/
theorem commit_of {tr tr1 : Trie} {x : H256} (h1 : tr.writeRoot K = .ok (tr1, x)) {d' : Db} {n : Node}
    (hd' : d' = (d.insertBatch tr1.cache).removeBatch (tr1.passingKeys.filter (fun k => !(tr1.genKeys.contains k))))
    (h2 : recover d' x = .ok (some n)) :
    tr.commit K d = .ok ({ tr1 with cache := [], rootHash := x, genKeys := [], passingKeys := [], root := n }, d', .ok x) := by
  unfold Trie.commit
  rw [h1]
  simp only [Res.ok_bind]
  rw [← hd', h2]

theorem recover_has {t : PT} (hok : Ok t (2 ^ 60)) (h : Has K d (enc K t)) : recover d (K (enc K t)) = .ok (some (top K t)) := by
  unfold recover
  rw [h]
  simp only
  rw [decodeNode_enc hok]
  rfl

/-- `commit` over a pruning database. -/
theorem Trie.commit_light (hd : Holed K d) {tr : Trie} {m : Spec.Map} (h : LightInv K P Q R d tr m) (hc : ∀ e ∈ tr.cache, EntryOk K e)
    (hm : ¬ Spec.Twins m) (hQ : Q m → ∃ k v, m k = some v ∧ 32 ≤ v.length) (Q' : Spec.Map → Prop) :
    ∃ tr1 t, tr.writeRoot K = .ok (tr1, K (enc K t)) ∧ Ok t (2 ^ 60) ∧ (∀ e ∈ tr1.cache, EntryOk K e) ∧ InW tr1.cache (enc K t) ∧
      (NoClash K (d.insertBatch tr1.cache).log → ∃ tr' d', tr.commit K d = .ok (tr', d', .ok (K (enc K t))) ∧
        tr' = { tr1 with cache := [], rootHash := K (enc K t), genKeys := [], passingKeys := [], root := top K t } ∧
        d'.log = (d.insertBatch tr1.cache).log ∧ Holed K d' ∧ Has K d' (enc K t) ∧ Below K (Has K d') t ∧
        (P → Tidy K (R ++ [K (enc K t)]) d' tr' t) ∧
        LightInv K P Q' (R ++ [K (enc K t)]) d' tr' m ∧ Agrees t m ∧ Canon t ∧ ∀ u, below K t u ≤ 1) := by
  obtain ⟨t, L, h1, h2, h3, h4, h5, h6, h7, h8, h9⟩ := h
  obtain ⟨w, e1, hw, -⟩ := writeNode_rep h1 h3
  obtain ⟨w0, e0, hon⟩ := writeNode_only h1 h3
  rw [e1] at e0
  cases e0
  obtain ⟨w', e1', hsv, hsv'⟩ := writeNode_saved h1 h3
  rw [e1] at e1'
  cases e1'
  have he : ∃ tr1, tr.writeRoot K = .ok (tr1, K (enc K t)) ∧ (∀ e ∈ tr1.cache, EntryOk K e) ∧ (∀ b, InW w b → InW tr1.cache b) ∧
      InW tr1.cache (enc K t) ∧ tr1.passingKeys = tr.passingKeys ∧ (∀ b, InW w b → K b ∈ tr1.genKeys) ∧
      (tr.cache = [] → ∀ e ∈ tr1.cache, e ∈ w ∨ e.1 = K (enc K t)) ∧ tr1.genKeys = w.map Prod.fst ++ tr.genKeys := by
    have gen : ∀ b, InW w b → K b ∈ w.map Prod.fst ++ tr.genKeys := by
      intro b hb
      obtain ⟨e, he, rfl⟩ := List.mem_map.1 hb
      rw [List.mem_append, ← (hw.1 e he).1]
      exact .inl (List.mem_map_of_mem he)
    unfold Trie.writeRoot
    rw [e1]
    simp only [Res.ok_bind]
    have c0 : ∀ e ∈ tr.cache ++ w, EntryOk K e := by
      intro e he
      rcases List.mem_append.1 he with he | he
      · exact hc e he
      · exact hw.1 e he
    by_cases hs : (enc K t).length < 32
    · rw [show encodedOf K (enc K t) = .inline (enc K t) from if_pos hs]
      refine ⟨_, rfl, ?_, ?_, ?_, rfl, gen, ?_, rfl⟩
      · intro e he
        rcases List.mem_append.1 he with he | he
        · exact c0 e he
        · rw [List.mem_singleton.1 he]
          exact ⟨rfl, t, h3, rfl⟩
      · intro b hb
        simp only [InW, Trie.addWritten, List.map_append, List.mem_append] at hb ⊢
        exact .inl (.inr hb)
      · simp [InW]
      · intro h0 e he
        rcases List.mem_append.1 he with he | he
        · refine .inl ?_
          have : e ∈ tr.cache ++ w := he
          rwa [h0] at this
        · rw [List.mem_singleton.1 he]
          exact .inr rfl
    · rw [show encodedOf K (enc K t) = .hash (K (enc K t)) from if_neg hs]
      refine ⟨_, rfl, c0, ?_, ?_, rfl, gen, ?_, rfl⟩
      · intro b hb
        simp only [InW, Trie.addWritten, List.map_append, List.mem_append] at hb ⊢
        exact .inr hb
      · have := hsv' h2 (by omega)
        simp only [InW, Trie.addWritten, List.map_append, List.mem_append] at this ⊢
        exact .inr this
      · intro h0 e he
        refine .inl ?_
        have : e ∈ tr.cache ++ w := he
        rwa [h0] at this
  obtain ⟨tr1, f1, f2, f3, f4, f5, f6, f7, f8⟩ := he
  refine ⟨tr1, t, f1, h3, f2, f4, fun hnc => ?_⟩
  have hd1 := hd.insertBatch f2
  have hlog : ∀ b, InLog d b → InLog (d.insertBatch tr1.cache) b := fun b hb => (insertBatch_log _ _).2 (.inl hb)
  generalize hx : (tr1.passingKeys.filter (fun k => !(tr1.genKeys.contains k))) = del
  have hdel : ∀ x ∈ del, x ∉ tr1.genKeys ∧ ∃ u ∈ L, x = K (enc K u) := by
    intro x hxm
    rw [← hx, List.mem_filter] at hxm
    refine ⟨by simpa using hxm.2, ?_⟩
    have := hxm.1
    rw [f5, h6] at this
    obtain ⟨u, hu, rfl⟩ := List.mem_map.1 this
    exact ⟨u, hu, rfl⟩
  -- what is kept
  have keep : ∀ b, Has K (d.insertBatch tr1.cache) b → K b ∉ del → Has K ((d.insertBatch tr1.cache).removeBatch del) b := by
    intro b hb hn
    unfold Has
    rw [removeBatch_keeps _ _ hn]
    exact hb
  have keepW : ∀ b, InW w b → Has K ((d.insertBatch tr1.cache).removeBatch del) b := fun b hb =>
    keep b (hd.has f2 hnc (f3 b hb)) (fun hm => (hdel _ hm).1 (f6 b hb))
  have keepS : ∀ u, 0 < stored K t tr.root u → Has K ((d.insertBatch tr1.cache).removeBatch del) (enc K u) := by
    intro u hu
    obtain ⟨k1, k2, k3⟩ := stored_held h1 h3 hu
    refine keep _ (hd.within f2 hnc _ _ k2.1) fun hmem => ?_
    obtain ⟨_, u', hu', he⟩ := hdel _ hmem
    have hin := (h8 u' hu').2
    have e2 : enc K u = enc K u' := hnc _ (hlog _ (hd.inLog _ k2.1)) _ (hlog _ hin.1.1) he
    have e3 : u = u' := enc_inj (S := InLog (d.insertBatch tr1.cache)) hnc k3 hin.2 (k2.2.mono fun b hb => hlog _ (hd.inLog _ hb))
      (hin.1.2.mono hlog) e2
    subst e3
    have := h7 u
    have := List.count_pos_iff.2 hu'
    omega
  have hbelow := below_of_saved h1 (hsv.mono keepW) keepS
  have hbelow' : Below K (InLog (d.insertBatch tr1.cache)) t := by
    refine hbelow.mono fun b hb => ?_
    have := (hd1.removeBatch del).inLog b hb
    unfold InLog at this ⊢
    rwa [removeBatch_log] at this
  have hroot : Has K ((d.insertBatch tr1.cache).removeBatch del) (enc K t) := by
    refine keep _ (hd.has f2 hnc f4) fun hmem => ?_
    obtain ⟨hg, u', hu', he⟩ := hdel _ hmem
    by_cases hs : 32 ≤ (enc K t).length
    · exact hg (f6 _ (hsv' h2 hs))
    · have hin := h8 u' hu'
      have : enc K t = enc K u' := hnc _ ((insertBatch_log _ _).2 (.inr f4)) _ (hlog _ hin.2.1.1) he
      rcases hin.1 with hl | ⟨m0, hm0, ha⟩
      · rw [this] at hs
        exact hs hl
      · have hsame : t = u' := enc_inj (S := InLog (d.insertBatch tr1.cache)) hnc h3 hin.2.2 hbelow' (hin.2.1.2.mono hlog) this
        have : m = m0 := h4.eq (hsame ▸ ha)
        obtain ⟨k, v, hk, hv⟩ := hQ (this ▸ hm0)
        exact hs (enc_long (by rw [h4.get]; exact hk) hv)
  have htidy : P → Tidy K (R ++ [K (enc K t)]) ((d.insertBatch tr1.cache).removeBatch del)
      { tr1 with cache := [], rootHash := K (enc K t), genKeys := [], passingKeys := [], root := top K t } t := by
    intro hP
    refine ⟨by rw [removeBatch_light, insertBatch_light]; exact (h9 hP).1, rfl, rfl, fun x hx' => ?_⟩
    obtain ⟨l0, l1, l2, l3⟩ := h9 hP
    have found : ∀ u, 0 < here K t u + below K t u → K (enc K u) ∈ R ++ [K (enc K t)] ∨ K (enc K u) ∈ ([] : List H256) ∨
        ∃ u', 0 < stored K t (top K t) u' ∧ K (enc K u) = K (enc K u') := by
      intro u hu
      by_cases hh : 0 < here K t u
      · rw [(here_pos hh).1]
        exact .inl (List.mem_append_right _ (List.mem_singleton.2 rfl))
      · exact .inr (.inr ⟨u, by rw [stored_top]; omega, rfl⟩)
    have hndel : x ∉ del := fun hm => hx' (removeBatch_gone (by rw [insertBatch_light]; exact l0) hm)
    have hx2 : (d.insertBatch tr1.cache).get x ≠ none := by
      rw [← removeBatch_keeps del _ hndel]
      exact hx'
    rcases insertBatch_get_cases hx2 with hx3 | ⟨e, he, rfl⟩
    · rcases l3 x hx3 with hr | hp | ⟨u, hu, rfl⟩
      · exact .inl (List.mem_append_left _ hr)
      · have hg : x ∈ tr1.genKeys := by
          by_contra hg
          refine hndel ?_
          rw [← hx, List.mem_filter]
          refine ⟨by rw [f5]; exact hp, ?_⟩
          simpa using hg
        rw [f8, l2, List.append_nil] at hg
        obtain ⟨e, he, rfl⟩ := List.mem_map.1 hg
        obtain ⟨u, rfl, hu⟩ := hon e he
        exact found u hu
      · refine found u ?_
        have := (stored_le h1 u).1
        omega
    · rcases f7 l1 e he with he | he
      · obtain ⟨u, rfl, hu⟩ := hon e he
        exact found u hu
      · rw [he]
        exact .inl (List.mem_append_right _ (List.mem_singleton.2 rfl))
  have honce : ∀ u, below K t u ≤ 1 := below_once h5 h4 hm
  refine ⟨_, _, commit_of f1 (by rw [hx]) (recover_has h3 hroot), rfl, removeBatch_log _ _, hd1.removeBatch _, hroot, hbelow, htidy,
    ⟨t, [], ?_, top_not_hash t, h3, h4, h5, rfl, fun u => ?_, by simp, htidy⟩, h4, h5, honce⟩
  · exact rep_top hbelow
  · show stored K t (top K t) u + 0 ≤ 1
    rw [stored_top]
    exact honce u

/-! ### Side by side -/

theorem mem_map_enc {L : List PT} {t : PT} {n : Node} {S : Bytes → Prop} (h1 : Rep K S n t) (h3 : Ok t (2 ^ 60)) {f : PT → Nat}
    (hL : ∀ u, f u + L.count u = stored K t n u) (u : PT) (hu : u ∈ L) : 32 ≤ (enc K u).length ∧ Held K S u ∧ Ok u (2 ^ 60) := by
  refine stored_held h1 h3 ?_
  have h4 := hL u
  have h5 := List.count_pos_iff.2 hu
  omega

theorem reads_has (d : Db) : Reads K (Has K d) d := fun _ hb => hb

theorem LightInv.get (h : LightInv K P Q R d tr m) (k : Bytes) : tr.get d k = .ok (m k) := by
  obtain ⟨t, L, h1, h2, h3, h4, -⟩ := h
  unfold Trie.get
  rw [path_eq, getAt_root (reads_has d) h3 (.node h1) (hops_ge _), h4.get]

theorem bind_ok {α β : Type} {x : Res α} {f : α → Res β} {b : β} (h : x >>= f = .ok b) : ∃ a, f a = .ok b := by
  rcases x with e | a
  · cases h
  · exact ⟨a, h⟩

theorem insertSplit_not_hash {pre p : Nibbles} {sub m : Node} {v : Bytes} (h : insertSplit pre sub p v = .ok m) : ¬ IsHash m := by
  unfold insertSplit at h
  obtain ⟨i, h⟩ := bind_ok h
  obtain ⟨⟨cs, w⟩, h⟩ := bind_ok h
  obtain ⟨x, h⟩ := bind_ok h
  split at h
  · cases h; exact id
  · split at h
    · cases h; exact id
    · cases h

theorem insertLeaf_not_hash {key p : Nibbles} {old v : Bytes} {m : Node} (h : insertLeaf key old p v = .ok m) : ¬ IsHash m := by
  unfold insertLeaf at h
  dsimp only at h
  split at h
  · cases h; exact id
  · obtain ⟨_, h⟩ := bind_ok h
    obtain ⟨_, h⟩ := bind_ok h
    obtain ⟨⟨_, _⟩, h⟩ := bind_ok h
    obtain ⟨_, h⟩ := bind_ok h
    obtain ⟨_, h⟩ := bind_ok h
    obtain ⟨⟨_, _⟩, h⟩ := bind_ok h
    dsimp only at h
    split at h <;> (cases h; exact id)

theorem insertStep_not_hash {hop : H256 → Nibbles → Out Node} {v : Bytes} {n m : Node} {p : Nibbles} (hn : ¬ IsHash n)
    (h : (insertStep hop v n p).2 = .ok m) : ¬ IsHash m := by
  have map : ∀ {x : Out Node} {f : Node → Node}, (∀ a, ¬ IsHash (f a)) → (x.map f).2 = .ok m → ¬ IsHash m := by
    intro x f hf h
    rcases x with ⟨l, e | a⟩
    · cases h
    · cases h; exact hf a
  cases n with
  | hash x => exact absurd trivial hn
  | empty => cases h; exact id
  | leaf k w => exact insertLeaf_not_hash h
  | ext pre sub =>
    simp only [insertStep] at h
    split at h
    · exact insertSplit_not_hash h
    · split at h
      · exact map (fun _ => id) h
      · exact map (x := .of (insertSplit _ _ _ _)) (f := fun n => .ext _ n) (fun _ => id) h
  | branch cs w =>
    cases p with
    | nil => cases h
    | cons x t =>
      simp only [insertStep] at h
      split at h
      · cases h; exact id
      · split at h
        · exact map (fun _ => id) h
        · cases h

theorem insertAt_not_hash {d : Db} {v : Bytes} {fuel : Nat} {n m : Node} {p : Nibbles} (hn : ¬ IsHash n) (h : (insertAt d v fuel n p).2 = .ok m) :
    ¬ IsHash m := by
  cases fuel <;> exact insertStep_not_hash hn h

/-- What is passed is remembered. -/
theorem Tidy.moves {t t' : PT} {n : Node} {L : List PT} (h : Tidy K R d tr t) (hL : ∀ u, stored K t' n u + L.count u = stored K t tr.root u) :
    Tidy K R d { tr with root := n, passingKeys := L.map (fun s => K (enc K s)) ++ tr.passingKeys } t' := by
  obtain ⟨h0, h1, h2, h3⟩ := h
  refine ⟨h0, h1, h2, fun x hx => ?_⟩
  rcases h3 x hx with h | h | ⟨u, hu, rfl⟩
  · exact .inl h
  · exact .inr (.inl (List.mem_append_right _ h))
  · by_cases hp : 0 < stored K t' n u
    · exact .inr (.inr ⟨u, hp, rfl⟩)
    · refine .inr (.inl (List.mem_append_left _ (List.mem_map.2 ⟨u, List.count_pos_iff.1 ?_, rfl⟩)))
      have := hL u
      omega

/-- `insert` of a value over a pruning database. -/
theorem LightInv.insert (hd : Holed K d) (h : LightInv K P Q R d tr m) {k v : Bytes} (hk : k.length ≤ 2 ^ 59) (hv : v.length < 2 ^ 60) (hne : v ≠ []) :
    ∃ n ks, insertAt d v (hops d (Trie.path k)) tr.root (Trie.path k) = (ks, .ok n) ∧
      LightInv K P Q R d { tr with root := n, passingKeys := ks ++ tr.passingKeys } (m.set k (some v)) := by
  obtain ⟨t, L, h1, h2, h3, h4, h5, h6, h7, h8, h9⟩ := h
  obtain ⟨n, L', e, g1, g2⟩ := insertAt_moves (v := v) (reads_has d) h3 tr.root (hops d (Trie.path k)) (nibsOf k) h1 h2
    (by have := hops_ge (db := d) (nibsOf k); rw [path_eq]; omega)
  refine ⟨n, L'.map (fun s => K (enc K s)), by rw [path_eq]; exact (by rw [path_eq] at e; exact e), t.insert v (nibsOf k), L' ++ L, g1, ?_, ?_, h4.insert k v, canon_insert v _ h5, ?_, fun u => ?_,
    fun u hu => ?_, fun hP => (h9 hP).moves g2⟩
  · exact insertAt_not_hash h2 (by rw [e])
  · exact ok_insert h3 (by rw [nibsOf_length]; omega) ⟨hne, hv⟩
  · simp only [h6, List.map_append]
  · have := g2 u
    have := h7 u
    rw [List.count_append]
    show stored K (t.insert v (nibsOf k)) n u + _ ≤ 1
    omega
  · rcases List.mem_append.1 hu with hu | hu
    · obtain ⟨a, b, c⟩ := mem_map_enc h1 h3 g2 u hu
      exact ⟨.inl a, ⟨hd.inLog _ b.1, b.2.mono hd.inLog⟩, c⟩
    · exact h8 u hu

/-- `remove` of a present key over a pruning database. -/
theorem LightInv.remove (hd : Holed K d) (h : LightInv K P Q R d tr m) {k : Bytes} (hk : (m k).isSome)
    (hp : Spec.Smooth m k) :
    ∃ n ks, deleteAt d (hops d (Trie.path k)) tr.root (Trie.path k) = (ks, .ok (n, true)) ∧
      LightInv K P Q R d { tr with root := n, passingKeys := ks ++ tr.passingKeys } (m.set k none) := by
  obtain ⟨t, L, h1, h2, h3, h4, h5, h6, h7, h8, h9⟩ := h
  obtain ⟨⟨n, b, r0, e, hd0⟩, hmv⟩ := deleteAt_moves (reads_has d) h3 tr.root (hops d (Trie.path k)) (nibsOf k) h1 h2
    (by have := hops_ge (db := d) (nibsOf k); rw [path_eq]; omega)
  have hb : b = true := by
    cases b with
    | true => rfl
    | false =>
      have e1 := del_false hd0
      have e2 := get_del hd0 (nibsOf k)
      rw [e1, if_pos rfl, h4.get] at e2
      rw [e2] at hk; cases hk
  subst hb
  obtain ⟨r, L', g1, g2, g3, g4, g5⟩ := hmv n e
  refine ⟨n, L'.map (fun s => K (enc K s)), ?_, r, L' ++ L, g3, g4, ok_del g2 h3, h4.del g2, canon_del g2 h5 (h4.smooth hp), ?_,
    fun u => ?_, fun u hu => ?_, fun hP => (h9 hP).moves g5⟩
  · rw [path_eq] at e g1 ⊢
    rw [← g1, ← e]
  · simp only [h6, List.map_append]
  · have := g5 u
    have := h7 u
    rw [List.count_append]
    show stored K r n u + _ ≤ 1
    omega
  · rcases List.mem_append.1 hu with hu | hu
    · obtain ⟨a, b, c⟩ := mem_map_enc h1 h3 g5 u hu
      exact ⟨.inl a, ⟨hd.inLog _ b.1, b.2.mono hd.inLog⟩, c⟩
    · exact h8 u hu

/-- A system over a pruning database and one over an archive database with the same trie. -/
structure Twin (K : Keccak) (P : Prop) (sl sa : Sys) (σ : Spec.State) : Prop where
  inv : SysInv K True sa σ
  tries : sl.tries = sa.tries
  roots : sl.roots = sa.roots
  log : sl.db.log = sa.db.log
  holed : Holed K sl.db
  one : ∃ tr m, sa.tries = [tr] ∧ σ.maps = [m] ∧ LightInv K P (fun _ => False) sl.roots sl.db tr m

theorem Twin.within {sl sa : Sys} {σ : Spec.State} (h : Twin K P sl sa σ) (hnc : NoClash K sa.db.log) : Within sl.db sa.db := by
  intro x b hb
  obtain ⟨h1, h2⟩ := h.holed.sound x b hb
  rw [h.log] at h2
  rw [h1]
  exact h.inv.db.reads hnc b h2

theorem Twin.new : Twin K P { Sys.new true with tries := [Trie.new K] } { Sys.new false with tries := [Trie.new K] } ⟨[fun _ => none], []⟩ := by
  refine ⟨⟨DbInv.new, ?_, Both.nil⟩, rfl, rfl, rfl, ?_, Trie.new K, _, rfl, rfl, .empty, [], .empty, id, trivial,
    Agrees.empty, trivial, rfl, fun u => Nat.zero_le _, by simp, fun _ => ⟨rfl, rfl, rfl, fun x hx => absurd rfl hx⟩⟩
  rotate_left
  · exact ⟨fun h b hb => (by cases hb), fun b hb => (by cases hb)⟩
  exact Both.nil.append ⟨(by intro e he; cases he), PT.empty, RepRoot.node Rep.empty, trivial, Agrees.empty, fun _ => trivial⟩

theorem Twin.step {sl sa sa' : Sys} {σ : Spec.State} (h : Twin K P sl sa σ) {op : Op} {r : Ret} (hop : Spec.Fits op) (hg : Spec.Gentle σ op) (hnp : P → Spec.NoProof op)
    (hs : sa.step K op = .ok (sa', r)) (hnc : NoClash K sa'.db.log) :
    ∃ sl', sl.step K op = .ok (sl', r) ∧ Twin K P sl' sa' (Spec.step σ op) := by
  have hnc0 : NoClash K sa.db.log := hnc.subset (Sys.step_log hs)
  have hw := h.within hnc0
  have hplain : Spec.PlainRemoval σ op := by
    cases op with
    | remove i k =>
      obtain ⟨rfl, hg⟩ := hg
      exact fun m hm => (hg m hm).2
    | _ => trivial
  have hinv' : SysInv K True sa' (Spec.step σ op) := by
    rcases h.inv.step (op := op) hop (fun _ => hplain) hnc0 with ⟨s', r', e, _, g⟩ | ⟨_, _, _, _, _, _, _, e⟩
    · rw [hs] at e
      cases e
      exact g hnc
    · rw [hs] at e; cases e
  obtain ⟨tr, m, h1, h2, h3⟩ := h.one
  have ht : sa.tries[0]? = some tr := by rw [h1]; rfl
  have hl : sl.tries[0]? = some tr := by rw [h.tries, h1]; rfl
  have hm : σ.maps[0]? = some m := by rw [h2]; rfl
  have hcache : ∀ e ∈ tr.cache, EntryOk K e := (h.inv.tries.2 0 tr m ht hm).1
  cases op with
  | new => exact hg.elim
  | openAt j => exact hg.elim
  | insert i k v =>
    obtain rfl : i = 0 := hg
    simp only [Sys.step, ht] at hs
    simp only [Sys.step, hl]
    simp only [Sys.insert] at hs ⊢
    by_cases hv : v = []
    · subst hv
      have e : ∀ d, tr.insert d k [] = .ok (tr, some "value provided for key is empty") := fun d => rfl
      rw [e] at hs ⊢
      cases hs
      refine ⟨_, rfl, hinv', ?_, h.roots, h.log, h.holed, tr, m, ?_, ?_, h3⟩
      · simp only [Sys.put, h.tries]
      · simp only [Sys.put, h1]; rfl
      · rw [show Spec.step σ (.insert 0 k []) = σ.update 0 (fun m => m) from rfl, getElem?_update hm, h2]; rfl
    · obtain ⟨n, ks, e, g⟩ := h3.insert h.holed hop.1 hop.2 hv
      have e' : insertAt sa.db v (hops sa.db (Trie.path k)) tr.root (Trie.path k) = (ks, .ok n) := by
        obtain ⟨tr', e2, _⟩ := Trie.insert_ok (h.inv.db.reads hnc0) (h.inv.tries.2 0 tr m ht hm) hop.1 hop.2 hv
        unfold Trie.insert at e2
        rw [if_neg (by simpa using hv)] at e2
        dsimp only at e2
        rcases hr : insertAt sa.db v (hops sa.db (Trie.path k)) tr.root (Trie.path k) with ⟨ks', e3 | n'⟩
        · rw [hr] at e2
          rcases e3 with e3 | e3 <;> cases e2
        · have := insertAt_same hw.alike v (hops sl.db (Trie.path k)) (hops sa.db (Trie.path k)) tr.root (Trie.path k) n n' (by rw [e]) (by rw [hr])
          rw [← hr, ← this, e]
      have ins : ∀ d, insertAt d v (hops d (Trie.path k)) tr.root (Trie.path k) = (ks, .ok n) →
          tr.insert d k v = .ok ({ tr with root := n, passingKeys := ks ++ tr.passingKeys }, none) := by
        intro d hd
        unfold Trie.insert
        rw [if_neg (by simpa using hv)]
        dsimp only
        rw [hd]
      rw [ins _ e'] at hs
      rw [ins _ e]
      cases hs
      refine ⟨_, rfl, hinv', ?_, h.roots, h.log, h.holed, _, _, ?_, ?_, g⟩
      · simp only [Sys.put, h.tries]
      · simp only [Sys.put, h1]; rfl
      · rw [show Spec.step σ (.insert 0 k v) = σ.update 0 (fun m => if v = [] then m else m.set k (some v)) from rfl, getElem?_update hm, h2, if_neg hv]; rfl
  | remove i k =>
    obtain ⟨rfl, hg⟩ := hg
    obtain ⟨hk, hp⟩ := hg m hm
    simp only [Sys.step, ht] at hs
    simp only [Sys.step, hl]
    simp only [Sys.remove] at hs ⊢
    obtain ⟨n, ks, e, g⟩ := h3.remove h.holed hk hp
    have e' : deleteAt sa.db (hops sa.db (Trie.path k)) tr.root (Trie.path k) = (ks, .ok (n, true)) := by
      obtain ⟨tr', b, e2, _⟩ := Trie.remove_ok (h.inv.db.reads hnc0) (h.inv.tries.2 0 tr m ht hm) k (fun _ => hp)
      unfold Trie.remove at e2
      dsimp only at e2
      rcases hr : deleteAt sa.db (hops sa.db (Trie.path k)) tr.root (Trie.path k) with ⟨ks', e3 | n'⟩
      · rw [hr] at e2
        rcases e3 with e3 | e3 <;> cases e2
      · have := deleteAt_same hw.alike (hops sl.db (Trie.path k)) (hops sa.db (Trie.path k)) tr.root (Trie.path k) (n, true) n' (by rw [e]) (by rw [hr])
        rw [← hr, ← this, e]
    have rem : ∀ d, deleteAt d (hops d (Trie.path k)) tr.root (Trie.path k) = (ks, .ok (n, true)) →
        tr.remove d k = .ok ({ tr with root := n, passingKeys := ks ++ tr.passingKeys }, .ok true) := by
      intro d hd
      unfold Trie.remove
      dsimp only
      rw [hd]
    rw [rem _ e'] at hs
    rw [rem _ e]
    cases hs
    refine ⟨_, rfl, hinv', ?_, h.roots, h.log, h.holed, _, _, ?_, ?_, g⟩
    · simp only [Sys.put, h.tries]
    · simp only [Sys.put, h1]; rfl
    · rw [show Spec.step σ (.remove 0 k) = σ.update 0 (fun m => m.set k none) from rfl, getElem?_update hm, h2]; rfl
  | commit i =>
    obtain ⟨rfl, hg⟩ := hg
    simp only [Sys.step, ht] at hs
    simp only [Sys.step, hl]
    simp only [Sys.commit] at hs ⊢
    obtain ⟨tr1, t, f1, f2, f3, f4, f5⟩ := Trie.commit_light h.holed h3 hcache (hg m hm) False.elim (fun _ => False)
    have hda := h.inv.db.insertBatch f3
    have hlog : (sl.db.insertBatch tr1.cache).log = (sa.db.insertBatch tr1.cache).log := by
      rw [insertBatch_log_eq, insertBatch_log_eq, h.log]
    have harch := removeBatch_archive hda.archive (tr1.passingKeys.filter (fun k => !(tr1.genKeys.contains k)))
    obtain ⟨c, hcg⟩ := Option.isSome_iff_exists.1 (hda.complete (enc K t) ((insertBatch_log _ _).2 (.inr f4)))
    obtain ⟨s, hs1, hs2⟩ := hda.encs c (hda.sound _ _ hcg).2
    have hrec : recover (sa.db.insertBatch tr1.cache) (K (enc K t)) = .ok (some (top K s)) := by
      have : K (enc K t) = K (enc K s) := by rw [← hs2]; exact (hda.sound _ _ hcg).1
      rw [this]
      exact recover_has hs1 (by unfold Has; rw [← this, hcg, hs2])
    have ea := commit_of (d := sa.db) f1 harch.symm hrec
    rw [ea] at hs
    cases hs
    have hcs : enc K s = enc K t := by
      rw [← hs2]
      exact hnc c (hda.sound _ _ hcg).2 _ ((insertBatch_log _ _).2 (.inr f4)) (hda.sound _ _ hcg).1.symm
    obtain ⟨tr', d', e, k1, k2, k3, -, -, -, k4, -⟩ := f5 (by rw [hlog]; exact hnc)
    rw [e]
    refine ⟨_, rfl, hinv', ?_, ?_, ?_, k3, tr', m, ?_, ?_, k4⟩
    · simp only [h.tries, k1, top_of_enc hs1 f2 hcs]
    · simp only [h.roots]
    · exact k2.trans hlog
    · simp only [h1, k1, top_of_enc hs1 f2 hcs]; rfl
    · simp only [Spec.step, hm]
      exact h2
  | proof i k =>
    obtain rfl : i = 0 := hg
    simp only [Sys.step, ht] at hs
    simp only [Sys.step, hl]
    simp only [Sys.proof] at hs ⊢
    have hp : tr.getProof K sl.db k = tr.getProof K sa.db k := by
      obtain ⟨t, L, g1, g2, g3, -⟩ := h3
      obtain ⟨l, e1, -⟩ := pathAt_root (reads_has sl.db) g3 (.node g1) (hops_ge (nibsOf k))
      obtain ⟨-, t', a1, a2, -⟩ := h.inv.tries.2 0 tr m ht hm
      obtain ⟨l', e2, -⟩ := pathAt_root (h.inv.db.reads hnc0) a2 a1 (hops_ge (nibsOf k))
      have := pathAt_same hw.alike _ _ _ _ _ _ e1 e2
      unfold Trie.getProof
      rw [path_eq, e1, e2, this]
    rw [hp]
    rcases hq : tr.getProof K sa.db k with e | ⟨tr', x⟩
    · rw [hq] at hs; cases hs
    · have same : tr'.root = tr.root ∧ tr'.passingKeys = tr.passingKeys := by
        unfold Trie.getProof at hq
        split at hq
        · cases hq
        · cases hq; exact ⟨rfl, rfl⟩
        · dsimp only at hq
          rename_i l _
          obtain ⟨⟨bs, w⟩, hq⟩ := bind_ok hq
          cases hq
          exact ⟨rfl, rfl⟩
      have h3' : LightInv K P (fun _ => False) sl.roots sl.db tr' m := by
        obtain ⟨t, L, g1, g2, g3, g4, g5, g6, g7, g8, -⟩ := h3
        rw [← same.1] at g1 g2 g7
        rw [← same.2] at g6
        exact ⟨t, L, g1, g2, g3, g4, g5, g6, g7, g8, fun hP => (hnp hP).elim⟩
      rw [hq] at hs
      rcases x with x | x <;> (cases hs; refine ⟨_, rfl, hinv', ?_, h.roots, h.log, h.holed, tr', m, ?_, h2, h3'⟩ <;> simp [Sys.put, h.tries, h1])

theorem Twin.run {sl sa sa' : Sys} {σ : Spec.State} {ops : List Op} {rs : List Ret} (h : Twin K P sl sa σ) (hfit : ∀ op ∈ ops, Spec.Fits op)
    (hg : Spec.GentleFrom σ ops) (hnp : P → ∀ op ∈ ops, Spec.NoProof op) (hrun : sa.run K ops = .ok (sa', rs)) (hnc : NoClash K sa'.db.log) :
    ∃ sl', sl.run K ops = .ok (sl', rs) ∧ Twin K P sl' sa' (ops.foldl Spec.step σ) := by
  induction ops generalizing sl sa σ rs with
  | nil => cases hrun; exact ⟨_, rfl, h⟩
  | cons op t ih =>
    obtain ⟨s1, r, rs', h1, h2, rfl⟩ := Sys.run_cons hrun
    obtain ⟨sl1, e1, g1⟩ := h.step (hfit op (by simp)) hg.1 (fun hP => hnp hP op (by simp)) h1 (hnc.subset (Sys.run_log h2))
    obtain ⟨sl', e2, g2⟩ := ih g1 (fun o ho => hfit o (by simp [ho])) hg.2 (fun hP o ho => hnp hP o (by simp [ho])) h2
    refine ⟨sl', ?_, g2⟩
    unfold Sys.run
    rw [e1]
    simp only [e2]

theorem run_append {s s' : Sys} {a b : List Op} {rs : List Ret} (h : s.run K (a ++ b) = .ok (s', rs)) :
    ∃ s1 r1 r2, s.run K a = .ok (s1, r1) ∧ s1.run K b = .ok (s', r2) := by
  induction a generalizing s rs with
  | nil => exact ⟨s, [], rs, rfl, h⟩
  | cons op t ih =>
    obtain ⟨s1, r, rs', h1, h2, _⟩ := Sys.run_cons h
    obtain ⟨s2, r1, r2, h3, h4⟩ := ih h2
    refine ⟨s2, r :: r1, r2, ?_, h4⟩
    unfold Sys.run
    rw [h1]
    simp only [h3]

/-- Both programs succeed, or after some of the calls there is a collision. -/
theorem Twin.total {sl sa : Sys} {σ : Spec.State} {ops : List Op} (h : Twin K P sl sa σ) (hfit : ∀ op ∈ ops, Spec.Fits op)
    (hg : Spec.GentleFrom σ ops) (hnp : P → ∀ op ∈ ops, Spec.NoProof op) (hnc : NoClash K sa.db.log) :
    (∃ sl' sa' rs, sl.run K ops = .ok (sl', rs) ∧ sa.run K ops = .ok (sa', rs) ∧ Twin K P sl' sa' (ops.foldl Spec.step σ) ∧
      Spec.AnswersFrom σ ops rs) ∨
    ∃ pre sa' rs, pre <+: ops ∧ sa.run K pre = .ok (sa', rs) ∧ ¬ NoClash K sa'.db.log := by
  induction ops generalizing sl sa σ with
  | nil => exact .inl ⟨sl, sa, [], rfl, rfl, h, rfl⟩
  | cons op t ih =>
    have hplain : Spec.PlainRemoval σ op := by
      have hg1 := hg.1
      cases op with
      | remove i k =>
        obtain ⟨rfl, hg2⟩ := hg1
        exact fun m hm => (hg2 m hm).2
      | _ => trivial
    rcases h.inv.step (op := op) (hfit op (by simp)) (fun _ => hplain) hnc with ⟨sa1, r, e, ha, _⟩ | ⟨i, k, tr, msg, rfl, ht, hh, e⟩
    · by_cases hnc1 : NoClash K sa1.db.log
      · obtain ⟨sl1, e1, g1⟩ := h.step (hfit op (by simp)) hg.1 (fun hP => hnp hP op (by simp)) e hnc1
        rcases ih g1 (fun o ho => hfit o (by simp [ho])) hg.2 (fun hP o ho => hnp hP o (by simp [ho])) hnc1 with ⟨sl', sa', rs, a1, a2, a3, a4⟩ | ⟨pre, sa', rs, b1, b2, b3⟩
        · refine .inl ⟨sl', sa', r :: rs, ?_, ?_, a3, r, rs, rfl, ha, a4⟩
          · unfold Sys.run
            rw [e1]
            simp only [a1]
          · unfold Sys.run
            rw [e]
            simp only [a2]
        · refine .inr ⟨op :: pre, sa', r :: rs, by rw [List.cons_prefix_cons]; exact ⟨rfl, b1⟩, ?_, b3⟩
          unfold Sys.run
          rw [e]
          simp only [b2]
      · refine .inr ⟨[op], sa1, [r], by simp, ?_, hnc1⟩
        simp only [Sys.run, e]
    · obtain rfl : i = 0 := hg.1
      obtain ⟨tr', m, h1, h2, t, L, _, h3, _⟩ := h.one
      rw [h1] at ht
      cases ht
      exact absurd hh h3

end Verif.Pmt
