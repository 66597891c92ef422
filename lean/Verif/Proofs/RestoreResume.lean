import Verif.Proofs.RestoreHonest
import Verif.Proofs.Sub
/-! Resuming a restore from the store. -/

set_option autoImplicit false

namespace Verif.Jmt
open VTree Verif.Spec
variable {D : Type}

/-! ### the rightmost leaf -/

/-- One step of the search. -/
def rightStep (acc : Option (NodeKey × LeafNode D)) (e : NodeKey × Node D) : Option (NodeKey × LeafNode D) :=
  match e.2 with
  | .leaf l =>
    match acc with
    | none => some (e.1, l)
    | some a => if a.2.keyHash < l.keyHash then some (e.1, l) else acc
  | _ => acc

theorem getRightmostLeaf_eq (s : Store D) : s.getRightmostLeaf = s.nodes.entries.foldl rightStep none := rfl

theorem foldl_rightStep {nk : NodeKey} {l : LeafNode D} (L : List (NodeKey × Node D))
    (hlt : ∀ nk' l', (nk', Node.leaf l') ∈ L → (nk' = nk ∧ l' = l) ∨ l'.keyHash < l.keyHash) (acc : Option (NodeKey × LeafNode D))
    (hacc : ∀ a, acc = some a → a = (nk, l) ∨ a.2.keyHash < l.keyHash)
    (hor : acc = some (nk, l) ∨ (nk, Node.leaf l) ∈ L) : L.foldl rightStep acc = some (nk, l) := by
  induction L generalizing acc with
  | nil => simpa using hor
  | cons e t ih =>
    rw [List.foldl_cons]
    have hlt' : ∀ nk' l', (nk', Node.leaf l') ∈ t → (nk' = nk ∧ l' = l) ∨ l'.keyHash < l.keyHash :=
      fun nk' l' hm => hlt nk' l' (List.mem_cons_of_mem _ hm)
    obtain ⟨nk1, x⟩ := e
    cases x with
    | null =>
      refine ih hlt' acc hacc (hor.imp id ?_)
      intro h; rcases List.mem_cons.1 h with h | h
      · cases h
      · exact h
    | internal n =>
      refine ih hlt' acc hacc (hor.imp id ?_)
      intro h; rcases List.mem_cons.1 h with h | h
      · cases h
      · exact h
    | leaf l1 =>
      have h1 := hlt nk1 l1 List.mem_cons_self
      have hsome : ∀ a, rightStep acc (nk1, .leaf l1) = some a → a = (nk, l) ∨ a.2.keyHash < l.keyHash := by
        intro a ha
        unfold rightStep at ha
        cases acc with
        | none =>
          simp only [Option.some.injEq] at ha
          subst ha
          rcases h1 with ⟨rfl, rfl⟩ | h1
          · exact .inl rfl
          · exact .inr h1
        | some b =>
          simp only at ha
          split at ha
          · simp only [Option.some.injEq] at ha
            subst ha
            rcases h1 with ⟨rfl, rfl⟩ | h1
            · exact .inl rfl
            · exact .inr h1
          · exact hacc a ha
      refine ih hlt' _ hsome ?_
      rcases hor with rfl | hm
      · left
        unfold rightStep
        simp only
        rw [if_neg]
        rcases h1 with ⟨rfl, rfl⟩ | h1
        · exact Key.lt_irrefl _
        · exact fun h => Key.lt_irrefl _ (Key.lt_trans h h1)
      · rcases List.mem_cons.1 hm with hm | hm
        · cases hm
          left
          unfold rightStep
          cases acc with
          | none => rfl
          | some a =>
            simp only
            rcases hacc a rfl with rfl | ha
            · simp
            · rw [if_pos ha]
        · exact .inr hm

theorem nib_lt {a b : Nibble} (h : a ≤ b) (hne : b ≠ a) : a < b :=
  Fin.lt_def.2 (Nat.lt_of_le_of_ne (Fin.le_def.1 h) (fun h => hne (Fin.ext h.symm)))

/-! ### the zipper without its pending leaf -/

def Zip.back (z : Zip D) (k0 : Key) : Zip D := ⟨k0, z.n, z.C, upd z.B (z.key.nibble z.n) .empty⟩

theorem VTree.at?_internal {H : Hasher D} {v : Version} {m : Bool} {t : VTree D} (hu : Uni v m t) {a b : List Nibble} {x : Node D}
    (h : t.at? H v (a ++ b) = some x) (hb : b ≠ []) : ∃ n, t.at? H v a = some (.internal n) := by
  induction t generalizing a with
  | empty => simp at h
  | leaf v' k d =>
    rw [at?_leaf] at h
    split at h
    · rename_i hh; exact absurd (List.append_eq_nil_iff.1 hh.2).2 hb
    · cases h
  | node v' m' ch ih =>
    cases a with
    | nil => exact ⟨_, by rw [at?_node_nil, if_pos hu.1.symm]; rfl⟩
    | cons i a =>
      rw [List.cons_append, at?_node_cons] at h
      rw [at?_node_cons]
      exact ih i (hu.2.2 i) h

section
variable {H : Hasher D} {v : Version} {m : Bool} {P0 : List (Key × Value)} {e0 e : Key × Value} {z : Zip D} {r : Restore D}

theorem RInv.pendLeaf (h : RInv H v m (P0 ++ [e]) z true r) : z.key = e.1 ∧ z.B (e.1.nibble z.n) = .leaf v e.1 (H.value e.2) ∧
    (z.back z.key).entries = hashed H P0 := by
  have hk : z.key = e.1 := h.key e (by simp)
  obtain ⟨d, hd⟩ := h.pen.leaf rfl
  have hB : z.B = upd (upd z.B (z.key.nibble z.n) .empty) (z.key.nibble z.n) (.leaf v z.key d) := by
    funext i
    by_cases hi : i = z.key.nibble z.n
    · subst hi; rw [upd_same, hd]
    · rw [upd_ne _ _ hi, upd_ne _ _ hi]
  have hemp : ∀ j, z.key.nibble z.n ≤ j → upd z.B (z.key.nibble z.n) .empty j = .empty := by
    intro j hj
    by_cases hi : j = z.key.nibble z.n
    · subst hi; rw [upd_same]
    · rw [upd_ne _ _ hi]
      exact h.core.good.bemp j (nib_lt hj hi)
  have he : z.entries = (z.back z.key).entries ++ [(z.key, d)] := by
    unfold Zip.entries Zip.back
    simp only
    conv_lhs => rw [hB, esOf_upd_last hemp]
    rw [List.append_assoc]; rfl
  have h2 := h.ents
  rw [he] at h2
  have h3 : hashed H (P0 ++ [e]) = hashed H P0 ++ [(e.1, H.value e.2)] := by simp [hashed]
  rw [h3] at h2
  obtain ⟨h4, h5⟩ := List.append_inj' h2 rfl
  simp only [List.cons.injEq, Prod.mk.injEq, and_true] at h5
  refine ⟨hk, ?_, h4⟩
  rw [← h5.2, ← hk]; exact hd

theorem prefix_nibble {k : Key} {a : List Nibble} {i : Nibble} (h : a ++ [i] <+: k.nibbles) : a = k.nibbles.take a.length ∧ i = k.nibble a.length := by
  have hlen : a.length + 1 ≤ 64 := by have := h.length_le; simpa using this
  have h1 : a ++ [i] = k.nibbles.take (a.length + 1) := by
    have := List.prefix_iff_eq_take.1 h
    simpa using this
  rw [Key.take_succ k (by omega)] at h1
  obtain ⟨h2, h3⟩ := List.append_inj' h1 rfl
  exact ⟨h2, by simpa using h3⟩

/-- What is known about the last key but one. -/
structure Second (H : Hasher D) (v : Version) (m : Bool) (P0 : List (Key × Value)) (e0 e : Key × Value) (z : Zip D) : Prop where
  lt : e0.1 < e.1
  take : e0.1.nibbles.take z.n = z.path z.n
  nib : e0.1.nibble z.n < z.key.nibble z.n
  lcp : e0.1.commonPrefixNibblesLen e.1 = z.n
  mem : (e0.1, H.value e0.2) ∈ (z.B (e0.1.nibble z.n)).entries
  good : (z.back e0.1).Good v m
  one : 1 ≤ (esOf (z.back e0.1).B (List.finRange 16)).length
  ents : (z.back e0.1).entries = hashed H P0

theorem RInv.second (h : RInv H v m (P0 ++ [e]) z true r) (hl : P0.getLast? = some e0) : Second H v m P0 e0 e z := by
  obtain ⟨hk, hb, he⟩ := h.pendLeaf
  have hg := h.core.good
  have hlt64 := hg.lt
  have hsort := h.sorted
  have hlt : e0.1 < e.1 := (List.pairwise_append.1 hsort).2.2 e0 (List.mem_of_getLast? hl) e (by simp)
  have hBne : ∀ i, i ≠ z.key.nibble z.n → (z.back e0.1).B i = z.B i := fun i hi => upd_ne _ _ hi
  have hBeq : (z.back e0.1).B (z.key.nibble z.n) = .empty := upd_same _ _ _
  have hents : (z.back e0.1).entries = hashed H P0 := he
  -- the bottom level still has an entry
  have hone : 1 ≤ (esOf (z.back e0.1).B (List.finRange 16)).length := by
    rcases Nat.eq_zero_or_pos z.n with h0 | h0
    · have : (z.back e0.1).entries = esOf (z.back e0.1).B (List.finRange 16) := by
        show (List.range z.n).flatMap _ ++ _ = _
        rw [h0]; rfl
      rw [← this, hents]
      have : P0 ≠ [] := by rintro rfl; cases hl
      have := List.length_pos_iff.2 this
      rw [hashed, List.length_map]; exact this
    · have h2 : 2 ≤ _ := h.pen.two h0
      have hB : z.B = upd (z.back e0.1).B (z.key.nibble z.n) (.leaf v e.1 (H.value e.2)) := by
        funext i
        by_cases hi : i = z.key.nibble z.n
        · subst hi; rw [upd_same, hk]; exact hb
        · rw [upd_ne _ _ hi, hBne i hi]
      have hemp : ∀ j, z.key.nibble z.n ≤ j → (z.back e0.1).B j = .empty := by
        intro j hj
        by_cases hi : j = z.key.nibble z.n
        · subst hi; exact hBeq
        · rw [hBne j hi]; exact hg.bemp j (nib_lt hj hi)
      rw [hB, esOf_upd_last hemp, List.length_append] at h2
      have : (VTree.leaf v e.1 (H.value e.2)).entries.length = 1 := rfl
      omega
  have hlast : (esOf (z.back e0.1).B (List.finRange 16)).getLast? = some (e0.1, H.value e0.2) := by
    have h1 : (hashed H P0).getLast? = some (e0.1, H.value e0.2) := by
      rw [hashed, List.getLast?_map, hl]; rfl
    rw [← hents] at h1
    unfold Zip.entries at h1
    rw [List.getLast?_append] at h1
    cases h2 : (esOf (z.back e0.1).B (List.finRange 16)).getLast? with
    | none =>
      rw [List.getLast?_eq_none_iff.1 h2] at hone
      simp at hone
    | some a => rw [h2] at h1; simpa using h1
  obtain ⟨i, _, hi⟩ := List.mem_flatMap.1 (List.mem_of_getLast? hlast)
  have hine : i ≠ z.key.nibble z.n := by
    rintro rfl
    rw [hBeq] at hi; cases hi
  rw [hBne i hine] at hi
  have hpre := mem_entries_prefix (hg.bwf i) hi
  have hplen : (z.path z.n).length = z.n := Key.take_length _ (by omega)
  obtain ⟨hp1, hp2⟩ := prefix_nibble hpre
  rw [hplen] at hp1 hp2
  subst hp2
  have hnib : e0.1.nibble z.n < z.key.nibble z.n := by
    rcases Fin.lt_or_lt_of_ne hine with h1 | h1
    · exact h1
    · rw [hg.bemp _ h1] at hi; cases hi
  have hpath : ∀ j, j ≤ z.n → (z.back e0.1).path j = z.path j := by
    intro j hj
    exact Key.take_eq_of_take (c := z.n) hp1.symm hj
  have hnibj : ∀ j, j < z.n → e0.1.nibble j = z.key.nibble j := fun j hj => Key.nibble_eq_of_take (c := z.n) (by omega) hp1.symm hj
  refine ⟨hlt, hp1.symm, hnib, ?_, hi, ⟨hlt64, ?_, ?_, ?_, ?_, ?_, ?_⟩, hone, hents⟩
  · obtain ⟨c, hc, h1, h2, h3⟩ := Key.lt_split hlt
    rw [h1]
    rw [← hk] at h2 h3
    rcases Nat.lt_trichotomy c z.n with h4 | h4 | h4
    · have := hnibj c h4
      rw [this] at h3
      exact absurd h3 (Fin.lt_irrefl _)
    · exact h4
    · have := Key.nibble_eq_of_take (by omega) h2 h4
      rw [this] at hnib
      exact absurd hnib (Fin.lt_irrefl _)
  · intro j hj i; rw [hpath j (Nat.le_of_lt hj)]; exact hg.cwf j hj i
  · intro j hj i; exact hg.cuni j hj i
  · intro j hj i hi
    have hi : e0.1.nibble j ≤ i := hi
    rw [hnibj j hj] at hi
    exact hg.cemp j hj i hi
  · intro i
    show WF ((z.back e0.1).path z.n ++ [i]) (upd _ _ _ i)
    rw [hpath _ (Nat.le_refl _)]
    by_cases hi : i = z.key.nibble z.n
    · subst hi; rw [upd_same]; trivial
    · rw [upd_ne _ _ hi]; exact hg.bwf i
  · intro i
    by_cases hi : i = z.key.nibble z.n
    · subst hi; rw [hBeq]; trivial
    · rw [hBne i hi]; exact hg.buni i
  · intro i hgt
    have hgt : e0.1.nibble z.n < i := hgt
    by_cases hii : i = z.key.nibble z.n
    · subst hii; exact hBeq
    · by_contra hne
      have hne' : ((z.back e0.1).B i).entries ≠ [] := by
        rw [hBne i hii] at hne ⊢
        intro h0; exact hne ((entries_eq_nil (hg.bwf i)).1 h0)
      obtain ⟨x, hx⟩ := List.exists_mem_of_ne_nil _ hne'
      have hx2 : x ∈ (z.back e0.1).entries := List.mem_append_right _ (List.mem_flatMap.2 ⟨i, List.mem_finRange i, hx⟩)
      rw [hents] at hx2
      obtain ⟨a, ha, rfl⟩ := List.mem_map.1 hx2
      have hle := sorted_le_last (List.pairwise_append.1 hsort).1 hl ha
      rw [hBne i hii] at hx
      have hpa := mem_entries_prefix (hg.bwf i) (k := a.1) (x := H.value a.2) hx
      exact hle (prefix_snoc_lt hpre hpa hgt)

theorem path_inj {z : Zip D} {j j' : Nat} {i i' : Nibble} {q q' : List Nibble} (hj : j < 64) (hj' : j' < 64)
    (h : z.path j ++ i :: q = z.path j' ++ i' :: q') : (j = j' ∧ i = i' ∧ q = q') ∨ (j < j' ∧ i = z.key.nibble j) ∨ (j' < j ∧ i' = z.key.nibble j') := by
  have key : ∀ {a b : Nat} {i i' : Nibble} {q q' : List Nibble}, a < b → b < 64 → z.path a ++ i :: q = z.path b ++ i' :: q' → i = z.key.nibble a := by
    intro a b i i' q q' hab hb h
    have h1 : (z.path a ++ i :: q)[a]? = (z.path b ++ i' :: q')[a]? := by rw [h]
    rw [List.getElem?_append_right (by simp [Zip.path, Key.take_length _ (show a ≤ 64 by omega)]),
      List.getElem?_append_left (by rw [Zip.path, Key.take_length _ (by omega)]; exact hab)] at h1
    rw [Zip.path, Zip.path, Key.take_length _ (by omega), Nat.sub_self, List.getElem?_cons_zero, List.getElem?_take, if_pos hab] at h1
    have h2 : z.key.nibbles[a]? = some (z.key.nibble a) := by
      rw [List.getElem?_eq_getElem (by simp; omega)]
      simp [Key.nibbles]
    rw [h2] at h1
    exact Option.some.inj h1
  rcases Nat.lt_trichotomy j j' with hlt | rfl | hlt
  · exact .inr (.inl ⟨hlt, key hlt hj' h⟩)
  · left
    have := List.append_cancel_left h
    simp only [List.cons.injEq] at this
    exact ⟨rfl, this.1, this.2⟩
  · exact .inr (.inr ⟨hlt, key hlt hj h.symm⟩)

theorem Second.fr (h : RInv H v m (P0 ++ [e]) z true r) (hs : Second H v m P0 e0 e z) (q : List Nibble) (x : Node D) :
    (z.back e0.1).Fr H v q x ↔ z.Fr H v q x ∧ q ≠ z.path (z.n + 1) := by
  obtain ⟨hk, hb, _⟩ := h.pendLeaf
  have hg := h.core.good
  have hlt := hg.lt
  have hpath : ∀ j, j ≤ z.n → (z.back e0.1).path j = z.path j := fun j hj => Key.take_eq_of_take (c := z.n) hs.take hj
  have hsucc : z.path (z.n + 1) = z.path z.n ++ z.key.nibble z.n :: [] := Key.take_succ _ hlt
  constructor
  · rintro (⟨j, hj, i, q', rfl, hx⟩ | ⟨i, q', rfl, hx⟩)
    · have hj : j < z.n := hj
      rw [hpath j (Nat.le_of_lt hj)]
      refine ⟨.inl ⟨j, hj, i, q', rfl, hx⟩, ?_⟩
      rw [hsucc]
      intro heq
      rcases path_inj (by omega) hlt heq with h1 | h1 | h1
      · omega
      · rw [h1.2] at hx
        have hx : (z.C j (z.key.nibble j)).at? H v q' = some x := hx
        rw [hg.cemp j hj _ (Nat.le_refl _)] at hx; simp at hx
      · omega
    · have hx : (upd z.B (z.key.nibble z.n) .empty i).at? H v q' = some x := hx
      have hpn : (z.back e0.1).path (z.back e0.1).n = z.path z.n := hpath _ (Nat.le_refl _)
      rw [hpn]
      by_cases hi : i = z.key.nibble z.n
      · subst hi; rw [upd_same] at hx; simp at hx
      · rw [upd_ne _ _ hi] at hx
        refine ⟨.inr ⟨i, q', rfl, hx⟩, ?_⟩
        rw [hsucc]
        intro heq
        have := List.append_cancel_left heq
        simp only [List.cons.injEq] at this
        exact hi this.1
  · rintro ⟨⟨j, hj, i, q', rfl, hx⟩ | ⟨i, q', rfl, hx⟩, hne⟩
    · exact .inl ⟨j, hj, i, q', by rw [hpath j (Nat.le_of_lt hj)], hx⟩
    · refine .inr ⟨i, q', by rw [show (z.back e0.1).path (z.back e0.1).n = z.path z.n from hpath _ (Nat.le_refl _)], ?_⟩
      show (upd z.B (z.key.nibble z.n) .empty i).at? H v q' = some x
      by_cases hi : i = z.key.nibble z.n
      · subst hi
        rw [hk, hb, at?_leaf] at hx
        split at hx
        · rename_i hc
          exact absurd (by rw [hsucc, hc.2]) hne
        · cases hx
      · rw [upd_ne _ _ hi]; exact hx

end

/-- The nodes of the store are those of the zipper. -/
def Shown (H : Hasher D) (v : Version) (z : Zip D) (s : Store D) : Prop :=
  ∀ nk x, s.nodes.get nk = some x ↔ nk.version = v ∧ z.Fr H v nk.path x

section
variable {H : Hasher D} {v : Version} {m : Bool} {z : Zip D} {s : Store D}

theorem Shown.up (h : Shown H v z s) (g : z.Good v m) {j : Nat} (hj : j < z.n) {i : Nibble} (hi : i ≠ z.key.nibble j) :
    s.nodes.get ⟨v, z.path j ++ [i]⟩ = (z.C j i).at? H v [] := by
  have hlt := g.lt
  apply Option.ext
  intro x
  rw [h]
  simp only [true_and]
  constructor
  · rintro (⟨j', hj', i', q', heq, hx⟩ | ⟨i', q', heq, hx⟩)
    · rcases path_inj (by omega) (by omega) heq with ⟨rfl, rfl, rfl⟩ | ⟨h1, h2⟩ | ⟨h1, h2⟩
      · exact hx
      · exact absurd h2 hi
      · rw [h2, g.cemp j' hj' _ (Nat.le_refl _)] at hx; simp at hx
    · rcases path_inj (by omega) (by omega) heq with ⟨rfl, _⟩ | ⟨h1, h2⟩ | ⟨h1, h2⟩
      · omega
      · exact absurd h2 hi
      · omega
  · intro hx
    exact .inl ⟨j, hj, i, [], rfl, hx⟩

theorem Shown.bot (h : Shown H v z s) (g : z.Good v m) (i : Nibble) : s.nodes.get ⟨v, z.path z.n ++ [i]⟩ = (z.B i).at? H v [] := by
  have hlt := g.lt
  apply Option.ext
  intro x
  rw [h]
  simp only [true_and]
  constructor
  · rintro (⟨j', hj', i', q', heq, hx⟩ | ⟨i', q', heq, hx⟩)
    · rcases path_inj (by omega) (by omega) heq with ⟨rfl, _⟩ | ⟨h1, h2⟩ | ⟨h1, h2⟩
      · omega
      · omega
      · rw [h2, g.cemp j' hj' _ (Nat.le_refl _)] at hx; simp at hx
    · have := List.append_cancel_left heq
      simp only [List.cons.injEq] at this
      rw [this.1, this.2]; exact hx
  · intro hx
    exact .inr ⟨i, [], rfl, hx⟩

/-- One round over the child positions. -/
theorem recoverChildren_eq {p : List Nibble} (hp : p.length < 64) (ch : Nibble → VTree D) (hu : ∀ i, Uni v m (ch i)) (L : List Nibble)
    (hget : ∀ i ∈ L, s.nodes.get ⟨v, p ++ [i]⟩ = (ch i).at? H v []) (info : InternalInfo D) (hk : info.nodeKey = ⟨v, p⟩)
    (hnone : ∀ i ∈ L, info.children i = none) (hL : L.Nodup) :
    Restore.recoverChildren H s.reader v L info = .ok ⟨⟨v, p⟩, fun i => if i ∈ L then (ch i).info H else info.children i⟩ := by
  induction L generalizing info with
  | nil =>
    simp only [Restore.recoverChildren, List.not_mem_nil, if_false, ← hk]
  | cons i t ih =>
    obtain ⟨hit, ht⟩ := List.nodup_cons.1 hL
    have hgc : info.nodeKey.genChild v i = .ok ⟨v, p ++ [i]⟩ := by
      unfold NodeKey.genChild
      rw [hk, if_pos]
      exact hp
    have hr : s.reader.getNodeOption ⟨v, p ++ [i]⟩ = (ch i).at? H v [] := hget i List.mem_cons_self
    have hget' : ∀ j ∈ t, s.nodes.get ⟨v, p ++ [j]⟩ = (ch j).at? H v [] := fun j hj => hget j (List.mem_cons_of_mem _ hj)
    have hset : ∀ c, (ch i).info H = some c →
        Restore.recoverChildren H s.reader v t (info.setChild i c) =
          .ok ⟨⟨v, p⟩, fun j => if j ∈ i :: t then (ch j).info H else info.children j⟩ := by
      intro c hc
      rw [ih hget' (info.setChild i c) hk (by
        intro j hj
        have : j ≠ i := by rintro rfl; exact hit hj
        simp only [InternalInfo.setChild, this, if_false]
        exact hnone j (List.mem_cons_of_mem _ hj)) ht]
      congr 2
      funext j
      by_cases hj : j = i
      · subst hj; simp [hit, InternalInfo.setChild, hc]
      · simp [hj, InternalInfo.setChild]
    unfold Restore.recoverChildren
    rw [hgc]
    simp only [Res.ok_bind, hr]
    cases hc : ch i with
    | empty =>
      simp only [at?_empty]
      rw [ih hget' info hk (fun j hj => hnone j (List.mem_cons_of_mem _ hj)) ht]
      congr 2
      funext j
      by_cases hj : j = i
      · subst hj; simp [hit, hc, VTree.info, hnone j List.mem_cons_self]
      · simp [hj]
    | leaf v' k d =>
      have hv := hu i
      rw [hc] at hv
      rw [at?_leaf, if_pos ⟨hv.symm, rfl⟩]
      exact hset _ (by rw [hc]; rfl)
    | node v' m' c' =>
      have hv := hu i
      rw [hc] at hv
      rw [at?_node_nil, if_pos hv.1.symm]
      exact hset _ (by rw [hc]; rfl)

theorem recover_up (h : Shown H v z s) (g : z.Good v m) {j : Nat} (hj : j < z.n) :
    Restore.recoverChildren H s.reader v ((List.finRange 16).filter (fun i => decide (i < z.key.nibble j))) (.newEmpty ⟨v, z.path j⟩) =
      .ok ⟨⟨v, z.path j⟩, fun i => if i ∈ (List.finRange 16).filter (fun i => decide (i < z.key.nibble j)) then (z.C j i).info H else none⟩ :=
  recoverChildren_eq (m := m) (by have := g.lt; rw [Zip.path, Key.take_length _ (by omega)]; omega) (z.C j) (g.cuni j hj) _
    (by
      intro i hi
      refine h.up g hj ?_
      have hi : i < z.key.nibble j := by simpa using (List.mem_filter.1 hi).2
      exact fun h0 => Fin.lt_irrefl _ (h0 ▸ hi)) _ rfl (fun _ _ => rfl) ((List.nodup_finRange 16).filter _)

theorem upInfo_eq (g : z.Good v m) {j : Nat} (hj : j < z.n) :
    (InternalInfo.setChild ⟨⟨v, z.path j⟩, fun i => if i ∈ (List.finRange 16).filter (fun i => decide (i < z.key.nibble j)) then (z.C j i).info H else none⟩
      (z.key.nibble j) (.internal none none) : InternalInfo D) = z.upInfo H v j := by
  unfold InternalInfo.setChild Zip.upInfo
  congr 1
  funext i
  by_cases hi : i = z.key.nibble j
  · simp [hi]
  · simp only [hi, if_false, List.mem_filter, List.mem_finRange, true_and, decide_eq_true_eq]
    by_cases hlt : i < z.key.nibble j
    · simp [hlt]
    · simp only [hlt, if_false]
      rw [g.cemp j hj i (Fin.not_lt.1 hlt)]; rfl

theorem path_last {j : Nat} (hj : j < 64) : (z.path (j + 1)).getLast? = some (z.key.nibble j) ∧ (z.path (j + 1)).dropLast = z.path j := by
  unfold Zip.path
  rw [Key.take_succ _ hj]
  simp

theorem recoverLoop_up (h : Shown H v z s) (g : z.Good v m) (j : Nat) (hj : j < z.n) (acc : List (InternalInfo D)) (fuel : Nat) (hf : j < fuel) :
    Restore.recoverLoop H s.reader v fuel ⟨v, z.path j⟩ (some (z.key.nibble j)) acc = .ok ((List.range (j + 1)).map (z.upInfo H v) ++ acc) := by
  have hlt := g.lt
  induction j generalizing acc fuel with
  | zero =>
    obtain ⟨fuel, rfl⟩ : ∃ f, fuel = f + 1 := ⟨fuel - 1, by omega⟩
    unfold Restore.recoverLoop
    simp only [recover_up h g hj, Res.ok_bind, upInfo_eq g hj]
    rfl
  | succ j ih =>
    obtain ⟨fuel, rfl⟩ : ∃ f, fuel = f + 1 := ⟨fuel - 1, by omega⟩
    unfold Restore.recoverLoop
    obtain ⟨p1, p2⟩ := path_last (z := z) (j := j) (by omega)
    simp only [recover_up h g hj, Res.ok_bind, upInfo_eq g hj, p1, p2]
    rw [ih (by omega) _ _ (by omega)]
    rw [List.range_succ (n := j + 1)]
    simp

theorem recoverLoop_eq (h : Shown H v z s) (g : z.Good v m) (fuel : Nat) (hf : z.n < fuel) :
    Restore.recoverLoop H s.reader v fuel ⟨v, z.path z.n⟩ none [] = .ok (z.infos H v) := by
  have hlt := g.lt
  obtain ⟨fuel, rfl⟩ : ∃ f, fuel = f + 1 := ⟨fuel - 1, by omega⟩
  have hb : Restore.recoverChildren H s.reader v (List.finRange 16) (.newEmpty ⟨v, z.path z.n⟩) = .ok (z.botInfo H v) := by
    rw [recoverChildren_eq (m := m) (by rw [Zip.path, Key.take_length _ (by omega)]; omega) z.B g.buni _ (fun i _ => h.bot g i) _ rfl (fun _ _ => rfl)
      (List.nodup_finRange 16)]
    congr 2
    funext i
    simp
  unfold Restore.recoverLoop
  simp only [hb, Res.ok_bind]
  rcases Nat.eq_zero_or_pos z.n with h0 | h0
  · have : z.path z.n = [] := by rw [h0]; rfl
    simp only [this, List.getLast?_nil, Res.pure_eq]
    rw [Zip.infos, h0]; rfl
  · obtain ⟨j, hj⟩ : ∃ j, z.n = j + 1 := ⟨z.n - 1, by omega⟩
    obtain ⟨p1, p2⟩ := path_last (z := z) (j := j) (by omega)
    simp only [hj, p1, p2]
    rw [recoverLoop_up h g j (by omega) _ _ (by omega), Zip.infos, hj]

/-- Climbing from a stored node below the open path. -/
theorem recoverStart_eq (h : Shown H v z s) (g : z.Good v m) {i : Nibble} {q : List Nibble} {x : Node D} (hx : (z.B i).at? H v q = some x)
    (a b : List Nibble) (hab : i :: q = a ++ b) (hb : b ≠ []) (fuel : Nat) (hf : a.length < fuel) :
    Restore.recoverStart s.reader fuel ⟨v, z.path z.n ++ a⟩ = .ok ⟨v, z.path z.n⟩ := by
  obtain ⟨n, hn⟩ : ∃ n, n = a.length := ⟨_, rfl⟩
  induction n generalizing a b fuel with
  | zero =>
    have : a = [] := List.length_eq_zero_iff.1 hn.symm
    subst this
    obtain ⟨fuel, rfl⟩ : ∃ f, fuel = f + 1 := ⟨fuel - 1, by omega⟩
    unfold Restore.recoverStart
    have : s.reader.getNodeOption ⟨v, z.path z.n ++ []⟩ = none := by
      show s.nodes.get _ = none
      rw [List.append_nil]
      cases hg : s.nodes.get ⟨v, z.path z.n⟩ with
      | none => rfl
      | some y => exact absurd ((h _ _).1 hg).2 (g.fr_path (Nat.le_refl _) y)
    rw [this]
    simp
  | succ n ih =>
    obtain ⟨fuel, rfl⟩ : ∃ f, fuel = f + 1 := ⟨fuel - 1, by omega⟩
    have hane : a ≠ [] := by rintro rfl; cases hn
    obtain ⟨a', c, rfl⟩ : ∃ a' c, a = a' ++ [c] := ⟨a.dropLast, a.getLast hane, (List.dropLast_concat_getLast hane).symm⟩
    have hst : ∃ y, s.nodes.get ⟨v, z.path z.n ++ (a' ++ [c])⟩ = some y := by
      cases ha : a' ++ [c] with
      | nil => simp at ha
      | cons j a'' =>
        rw [ha, List.cons_append, List.cons.injEq] at hab
        rw [hab.2] at hx
        obtain ⟨y, hy⟩ := VTree.at?_internal (g.buni i) hx hb
        exact ⟨_, (h _ _).2 ⟨rfl, .inr ⟨i, a'', by rw [hab.1], hy⟩⟩⟩
    obtain ⟨y, hy⟩ := hst
    unfold Restore.recoverStart
    have : s.reader.getNodeOption ⟨v, z.path z.n ++ (a' ++ [c])⟩ = some y := hy
    rw [this]
    have hp : NodeKey.genParent ⟨v, z.path z.n ++ (a' ++ [c])⟩ = .ok ⟨v, z.path z.n ++ a'⟩ := by
      unfold NodeKey.genParent
      simp only
      split
      · rename_i h0; simp at h0
      · congr 2
        rw [← List.append_assoc]; simp
    simp only [hp, Res.ok_bind]
    exact ih a' (c :: b) (by rw [hab]; simp) (by simp) fuel (by simp at hf; omega) (by simp at hn; omega)

/-- The whole recovery, from the leaf of the zipper's key. -/
theorem recoverPartialNodes_eq (h : Shown H v z s) (g : z.Good v m) {i : Nibble} {q : List Nibble} {x : Node D}
    (hx : (z.B i).at? H v q = some x) : Restore.recoverPartialNodes H s.reader v ⟨v, z.path z.n ++ i :: q⟩ = .ok (z.infos H v) := by
  have hlt := g.lt
  unfold Restore.recoverPartialNodes
  have h1 : (!(z.path z.n ++ i :: q).isEmpty) = true := by simp
  have hp : NodeKey.genParent ⟨v, z.path z.n ++ i :: q⟩ = .ok ⟨v, z.path z.n ++ (i :: q).dropLast⟩ := by
    unfold NodeKey.genParent
    simp only
    split
    · rename_i h0; simp at h0
    · congr 2
      rw [List.dropLast_append_of_ne_nil (by simp)]
  have hs := recoverStart_eq h g hx (i :: q).dropLast [(i :: q).getLast (by simp)] (List.dropLast_concat_getLast _).symm (by simp)
    ((z.path z.n ++ (i :: q).dropLast).length + 1) (by rw [List.length_append]; omega)
  simp only [h1, ensure_true, Res.ok_bind, hp, hs]
  exact recoverLoop_eq h g _ (by rw [Zip.path, Key.take_length _ (by omega)]; omega)

end

section
variable {H : Hasher D} {v : Version} {m : Bool} {P0 : List (Key × Value)} {e0 e : Key × Value} {z : Zip D} {r : Restore D}

theorem Shown.leaf_mem {s : Store D} (h : Shown H v z s) {nk : NodeKey} {l : LeafNode D} (hg : s.nodes.get nk = some (.leaf l)) :
    (l.keyHash, l.valueHash) ∈ z.entries := by
  have leafIn : ∀ {t : VTree D} {q : List Nibble}, t.at? H v q = some (.leaf l) → (l.keyHash, l.valueHash) ∈ t.entries := by
    intro t q ht
    obtain ⟨h1, h2, h3⟩ := at?_sub.1 ht
    apply mem_sub (q := q)
    cases hs : t.sub q with
    | empty => exact absurd hs h1
    | leaf v' k d => rw [hs] at h3; cases h3; exact List.mem_singleton.2 rfl
    | node => rw [hs] at h3; cases h3
  obtain ⟨_, ⟨j, hj, i, q, _, hx⟩ | ⟨i, q, _, hx⟩⟩ := (h _ _).1 hg
  · exact List.mem_append_left _ (List.mem_flatMap.2 ⟨j, List.mem_range.2 hj, List.mem_flatMap.2 ⟨i, List.mem_finRange i, leafIn hx⟩⟩)
  · exact List.mem_append_right _ (List.mem_flatMap.2 ⟨i, List.mem_finRange i, leafIn hx⟩)

/-- A stored leaf with the zipper's key is below the open path. -/
theorem Shown.leaf_pos {s : Store D} (h : Shown H v z s) (g : z.Good v m) {nk nk' : NodeKey} {l l' : LeafNode D} (hg : s.nodes.get nk = some (.leaf l))
    (hk : l.keyHash = z.key) (hg' : s.nodes.get nk' = some (.leaf l')) (hk' : l'.keyHash = z.key) : nk' = nk := by
  have hlt := g.lt
  have pos : ∀ {nk : NodeKey} {l : LeafNode D}, s.nodes.get nk = some (.leaf l) → l.keyHash = z.key →
      nk.version = v ∧ ∃ q v', nk.path = z.path z.n ++ z.key.nibble z.n :: q ∧ (z.B (z.key.nibble z.n)).sub q = .leaf v' z.key l.valueHash ∧
        z.path z.n ++ z.key.nibble z.n :: q <+: z.key.nibbles := by
    intro nk l hg hk
    have leafAt : ∀ {t : VTree D} {q : List Nibble}, t.at? H v q = some (.leaf l) → ∃ v', t.sub q = .leaf v' z.key l.valueHash := by
      intro t q ht
      obtain ⟨h1, h2, h3⟩ := at?_sub.1 ht
      cases hs : t.sub q with
      | empty => exact absurd hs h1
      | leaf v' k d => rw [hs] at h3; cases h3; exact ⟨v', by rw [← hk]⟩
      | node => rw [hs] at h3; cases h3
    obtain ⟨h0, ⟨j, hj, i, q, hp, hx⟩ | ⟨i, q, hp, hx⟩⟩ := (h _ _).1 hg
    · exfalso
      obtain ⟨v', hs⟩ := leafAt hx
      have hw := wf_sub (g.cwf j hj i) q
      rw [hs] at hw
      have hpre : z.path j ++ [i] <+: z.key.nibbles := List.IsPrefix.trans (List.prefix_append _ _) hw
      obtain ⟨_, hi⟩ := prefix_nibble hpre
      rw [Zip.path, Key.take_length _ (by omega)] at hi
      rw [hi, g.cemp j hj _ (Nat.le_refl _)] at hx
      simp at hx
    · obtain ⟨v', hs⟩ := leafAt hx
      have hw := wf_sub (g.bwf i) q
      rw [hs] at hw
      have hpre : z.path z.n ++ [i] <+: z.key.nibbles := List.IsPrefix.trans (List.prefix_append _ _) hw
      obtain ⟨_, hi⟩ := prefix_nibble hpre
      rw [Zip.path, Key.take_length _ (by omega)] at hi
      subst hi
      exact ⟨h0, q, v', hp, hs, by rw [List.append_assoc] at hw; exact hw⟩
  obtain ⟨a1, q, w, a2, a3, a4⟩ := pos hg hk
  obtain ⟨b1, q', w', b2, b3, b4⟩ := pos hg' hk'
  have hq : q' = q := by
    have hpre : q' <+: q ∨ q <+: q' := by
      have := List.prefix_or_prefix_of_prefix b4 a4
      simpa using this
    rcases hpre with ⟨c, hc⟩ | ⟨c, hc⟩
    · rw [← hc, sub_append, b3] at a3
      cases c with
      | nil => simpa using hc
      | cons => simp at a3
    · rw [← hc, sub_append, a3] at b3
      cases c with
      | nil => simpa using hc.symm
      | cons => simp at b3
  obtain ⟨n1, p1⟩ := nk
  obtain ⟨n2, p2⟩ := nk'
  simp only at a1 a2 b1 b2
  rw [a1, a2, b1, b2, hq]

/-- The state of a restore resumed from the store. -/
theorem resume_two (h : RInv H v m (P0 ++ [e]) z true r) (hl : P0.getLast? = some e0) (hw : r.frozenNodes = .empty) (root : D) :
    ∃ r', Restore.new H r.store v root m = .ok r' ∧ RBase H v m P0 (z.back e0.1) false r' ∧ e0.1.commonPrefixNibblesLen e.1 = (z.back e0.1).n ∧
      r'.store = r.store ∧ r'.expectedRootHash = root ∧ ∀ k, r'.curVal v k = r.curVal v k := by
  have hs := h.second hl
  have hM : ∀ nk, r.M nk = r.store.nodes.get nk := by
    intro nk; unfold Restore.M; rw [hw]; rfl
  have hsh : Shown H v (z.back e0.1) r.store := by
    intro nk x
    rw [← hM, h.core.map, hs.fr h]
    simp
  obtain ⟨q, w, hq1, hq2⟩ := exists_leaf (h.core.good.bwf (e0.1.nibble z.n)) hs.mem
  have hB : (z.back e0.1).B (e0.1.nibble z.n) = z.B (e0.1.nibble z.n) := upd_ne _ _ (fun h0 => Fin.lt_irrefl _ (h0 ▸ hs.nib))
  have hat : ((z.back e0.1).B (e0.1.nibble z.n)).at? H v q = some (.leaf ⟨e0.1, H.value e0.2⟩) := by
    rw [hB, at?_sub, hq1]
    refine ⟨by simp, ?_, rfl⟩
    have : (z.B (e0.1.nibble z.n)).at? H w q = some (.leaf ⟨e0.1, H.value e0.2⟩) := by
      rw [at?_sub, hq1]; exact ⟨by simp, rfl, rfl⟩
    exact VTree.at?_uni (h.core.good.buni _) this
  have hget : r.store.nodes.get ⟨v, (z.back e0.1).path z.n ++ e0.1.nibble z.n :: q⟩ = some (.leaf ⟨e0.1, H.value e0.2⟩) :=
    (hsh _ _).2 ⟨rfl, .inr ⟨_, q, rfl, hat⟩⟩
  have hright : r.store.getRightmostLeaf = some (⟨v, (z.back e0.1).path z.n ++ e0.1.nibble z.n :: q⟩, ⟨e0.1, H.value e0.2⟩) := by
    rw [getRightmostLeaf_eq]
    refine foldl_rightStep _ ?_ none (by simp) (.inr (FMap.mem_of_get hget))
    intro nk' l' hm
    have hg' : r.store.nodes.get nk' = some (.leaf l') := FMap.get_of_mem h.snodup hm
    have hmem := hsh.leaf_mem hg'
    rw [hs.ents] at hmem
    obtain ⟨a, ha, heq⟩ := List.mem_map.1 hmem
    simp only [Prod.mk.injEq] at heq
    have hsort := (List.pairwise_append.1 h.sorted).1
    obtain ⟨ys, rfl⟩ := List.getLast?_eq_some_iff.1 hl
    rcases List.mem_append.1 ha with ha | ha
    · right
      rw [← heq.1]
      exact (List.pairwise_append.1 hsort).2.2 a ha e0 (by simp)
    · left
      simp only [List.mem_singleton] at ha
      subst ha
      refine ⟨hsh.leaf_pos hs.good hget rfl hg' heq.1.symm, ?_⟩
      obtain ⟨lk, ld⟩ := l'
      simp only at heq
      rw [heq.1, heq.2]
  refine ⟨⟨r.store, v, (z.back e0.1).infos H v, .empty, some ⟨e0.1, H.value e0.2⟩, 0, root, m⟩, ?_, ?_, hs.lcp, rfl, rfl, ?_⟩
  · unfold Restore.new
    rw [hright]
    simp only
    have := recoverPartialNodes_eq hsh hs.good hat
    have hpe : (z.back e0.1).path (z.back e0.1).n = (z.back e0.1).path z.n := rfl
    rw [hpe] at this
    rw [this]
    rfl
  · refine ⟨⟨rfl, rfl, rfl, hs.good, ?_, fun _ => .inr rfl, FMap.nodupKeys_empty⟩, ⟨by simp, by simp, fun _ => hs.one⟩, hs.ents, ?_, ?_, ?_,
      (List.pairwise_append.1 h.sorted).1, List.Pairwise.nil, ?_, h.hist, h.snodup⟩
    · intro nk x
      show ((FMap.empty : FMap NodeKey (Node D)).get nk).or (r.store.nodes.get nk) = some x ↔ _
      rw [FMap.get_empty, Option.none_or, hsh]
      simp
    · rw [hl]; rfl
    · intro e' he'
      rw [hl] at he'
      cases he'; rfl
    · rintro rfl; cases hl
    · intro e' he'; simp [NodeBatch.empty, OMap.empty] at he'
  · intro k
    unfold Restore.curVal
    rw [hw]

/-- Resuming when one pair has been written: nothing is in the store but its value. -/
theorem resume_one (h : RInv H v m [e] z true r) (hw : r.frozenNodes = .empty) (root : D) :
    ∃ r' z', Restore.new H r.store v root m = .ok r' ∧ RBase H v m [] z' false r' ∧
      r'.store = r.store ∧ r'.expectedRootHash = root ∧ ∀ k, r'.curVal v k = r.curVal v k := by
  obtain ⟨hk, hb, he⟩ := RInv.pendLeaf (P0 := []) h
  have hn : z.n = 0 := by
    by_contra hne
    have h2 : 2 ≤ _ := h.pen.two (by omega)
    have h3 := congrArg List.length h.ents
    unfold Zip.entries at h3
    rw [List.length_append] at h3
    simp only [hashed, List.map_cons, List.map_nil, List.length_singleton] at h3
    omega
  have hemp : ∀ i, i ≠ z.key.nibble z.n → z.B i = .empty := by
    intro i hi
    have h1 : esOf (z.back z.key).B (List.finRange 16) = [] := (List.append_eq_nil_iff.1 he).2
    have h2 := List.flatMap_eq_nil_iff.1 h1 i (List.mem_finRange i)
    have h3 : (z.back z.key).B i = z.B i := upd_ne _ _ hi
    rw [h3] at h2
    exact (entries_eq_nil (h.core.good.bwf i)).1 h2
  have hnone : r.store.nodes.entries = [] := by
    rcases hs : r.store.nodes.entries with _ | ⟨⟨nk, x⟩, t⟩
    · rfl
    · exfalso
      have hg : r.store.nodes.get nk = some x := FMap.get_of_mem h.snodup (by rw [hs]; exact List.mem_cons_self)
      have hM : r.M nk = some x := by unfold Restore.M; rw [hw]; exact hg
      obtain ⟨_, hfr, hne⟩ := (h.core.map nk x).1 hM
      rcases hfr with ⟨j, hj, _⟩ | ⟨i, q, hp, hx⟩
      · omega
      · by_cases hi : i = z.key.nibble z.n
        · subst hi
          rw [hk, hb, at?_leaf] at hx
          split at hx
          · rename_i hc
            apply hne rfl
            rw [hp, hc.2, Zip.path, Zip.path, Key.take_succ _ h.core.good.lt]
          · cases hx
        · rw [hemp i hi] at hx; simp at hx
  refine ⟨_, _, new_fresh H hnone v root m, RBase.fresh H v m root hnone h.hist, rfl, rfl, ?_⟩
  intro k
  unfold Restore.curVal
  rw [hw]; rfl

/-- A restore resumed from the store of one that has written the pairs `P`: after the last of these pairs has been added again,
the state is that of an uninterrupted restore. -/
theorem resume {P : List (Key × Value)} (h : Live H v m P r) (hw : r.frozenNodes = .empty) (hl : P.getLast? = some e) (root : D) :
    ∃ r' r1, Restore.new H r.store v root m = .ok r' ∧ r'.inOrder e.1 = true ∧ r'.addPair H e.1 e.2 = .ok r1 ∧ Live H v m P r1 ∧
      r1.expectedRootHash = root ∧ r'.store = r.store ∧
      r'.previousLeaf = P.dropLast.getLast?.map (fun e => ⟨e.1, H.value e.2⟩) := by
  obtain ⟨P0, rfl⟩ := List.getLast?_eq_some_iff.1 hl
  obtain ⟨z, hz⟩ := h.nonempty (by simp)
  have hsort := hz.sorted
  have hle : ∀ e', P0.getLast? = some e' → e'.1 < e.1 := fun e' he' =>
    (List.pairwise_append.1 hsort).2.2 e' (List.mem_of_getLast? he') e (by simp)
  obtain ⟨r', z', a1, a2, a3, a4, a5, a6⟩ : ∃ r' z', Restore.new H r.store v root m = .ok r' ∧ RBase H v m P0 z' false r' ∧
      (∀ e', P0.getLast? = some e' → e'.1.commonPrefixNibblesLen e.1 = z'.n) ∧
      r'.store = r.store ∧ r'.expectedRootHash = root ∧ ∀ k, r'.curVal v k = r.curVal v k := by
    cases hl0 : P0.getLast? with
    | none =>
      have : P0 = [] := List.getLast?_eq_none_iff.1 hl0
      subst this
      obtain ⟨r', z', a1, a2, a3⟩ := resume_one hz hw root
      exact ⟨r', z', a1, a2, by simp, a3⟩
    | some e0 =>
      obtain ⟨r', a1, a2, a3, a4⟩ := resume_two hz hl0 hw root
      exact ⟨r', _, a1, a2, by intro e' he'; cases he'; exact a3, a4⟩
  obtain ⟨r1, z1, b1, b2, b3, b4, b5⟩ := a2.addPair e.1 e.2 (fun e' he' => ⟨hle e' he', .inr (a3 e' he')⟩)
  refine ⟨r', r1, a1, ?_, b1, ⟨z1, true, ⟨b2, ?_⟩, .inr rfl⟩, by rw [b4, a5], a4, by rw [a2.prev]; simp⟩
  · unfold Restore.inOrder
    rw [a2.prev]
    cases hl0 : P0.getLast? with
    | none => rfl
    | some e0 => simpa using hle e0 hl0
  · intro k x
    rw [b5, a6]
    by_cases hk : k = e.1
    · subst hk
      simp only [if_true, Option.some.injEq, ← hz.val]
      rw [(hz.val e.1 e.2).2 (by simp), Option.some.injEq]
    · simp only [hk, if_false]; exact hz.val k x

/-- The store between two sessions. `P` has been written; the last pair of `P` has to be given again. -/
inductive Between (H : Hasher D) (v : Version) (m : Bool) : List (Key × Value) → Store D → Prop
  | fresh {s : Store D} (h1 : s.nodes.entries = []) (h2 : s.valueHistory.entries = []) : Between H v m [] s
  | written {P : List (Key × Value)} {r : Restore D} (h : Live H v m P r) (hw : r.frozenNodes = .empty) (hP : P ≠ []) : Between H v m P r.store

/-- One session with genuine chunks. -/
theorem honest_session [DecidableEq D] {s : Store D} {w : Version} {f : Key → Option Value} {t : VTree D} (hf : VersionFacts H s w f t)
    {A B rest : List (Key × Value)} {root : D} {dst : Store D} (hb : Between H v m A dst)
    (calls : List (List (Key × Value) × SparseMerkleRangeProof D)) (hB : (calls.map Prod.fst).flatten = B)
    (hcalls : ∀ c ∈ calls, ∃ e, c.1.getLast? = some e ∧ Tree.getRangeProof H s.reader e.1 w = .ok c.2)
    (hhead : ∀ e, A.getLast? = some e → (B ++ rest).head? = some e)
    (hs : (A.dropLast ++ B ++ rest).Pairwise (fun a b => a.1 < b.1))
    (hP : ∀ k x, (k, x) ∈ A.dropLast ++ B ++ rest ↔ f k = some x)
    (hc : NoPlaceholder H (smtInputs H 256 (hashed H (A.dropLast ++ B ++ rest))))
    (hroot : root = smtRoot H (hashed H (A.dropLast ++ B ++ rest))) :
    ∃ r0 r, Restore.new H dst v root m = .ok r0 ∧ r0.addChunks H calls = .ok (r, calls.map (fun _ => none)) ∧
      r0.previousLeaf = A.dropLast.getLast?.map (fun e => ⟨e.1, H.value e.2⟩) ∧
      (calls = [] → r.store = dst) ∧ (calls ≠ [] → Live H v m (A.dropLast ++ B) r ∧ r.frozenNodes = .empty ∧ A.dropLast ++ B ≠ []) := by
  subst hB
  cases hb with
  | fresh h1 h2 =>
    obtain ⟨r, a1, a2, a3⟩ := honest_run hf calls (rest := rest) (Live.fresh H h1 h2 v root m) hs hP hc hroot hcalls
    refine ⟨_, r, new_fresh H h1 v root m, a1, rfl, ?_, ?_⟩
    · rintro rfl
      simp only [Restore.addChunks, Except.ok.injEq, Prod.mk.injEq] at a1
      rw [← a1.1]; rfl
    · intro hne
      refine ⟨a2, a3 (.inl hne), ?_⟩
      obtain ⟨c, cs, rfl⟩ := List.exists_cons_of_ne_nil hne
      obtain ⟨e, he, _⟩ := hcalls c List.mem_cons_self
      have : c.1 ≠ [] := by intro h0; rw [h0] at he; cases he
      simp [this]
  | written h hw hne =>
    rename_i r
    obtain ⟨e, he⟩ : ∃ e, A.getLast? = some e := by
      cases hl : A.getLast? with
      | none => exact absurd (List.getLast?_eq_none_iff.1 hl) hne
      | some e => exact ⟨e, rfl⟩
    obtain ⟨r', r1, a1, a2, a3, a4, a5, a6, a7⟩ := resume h hw he root
    cases calls with
    | nil => exact ⟨r', r', a1, rfl, a7, fun _ => a6, fun h => absurd rfl h⟩
    | cons c cs =>
      obtain ⟨e', he', hpr⟩ := hcalls c List.mem_cons_self
      have hcne : c.1 ≠ [] := by intro h0; rw [h0] at he'; cases he'
      obtain ⟨e2, ct, hct⟩ := List.exists_cons_of_ne_nil hcne
      have hA : A = A.dropLast ++ [e] := by
        obtain ⟨ys, rfl⟩ := List.getLast?_eq_some_iff.1 he
        simp
      have he2 : e2 = e := by
        have := hhead e he
        simp only [List.map_cons, List.flatten_cons, hct, List.cons_append, List.head?_cons, Option.some.injEq] at this
        exact this
      subst he2
      have hsplit : A.dropLast ++ ((c :: cs).map Prod.fst).flatten ++ rest = (A ++ ct) ++ ((cs.map Prod.fst).flatten ++ rest) := by
        conv_rhs => rw [hA]
        simp [hct]
      have hsplit' : A.dropLast ++ ((c :: cs).map Prod.fst).flatten = (A ++ ct) ++ (cs.map Prod.fst).flatten := by
        conv_rhs => rw [hA]
        simp [hct]
      rw [hsplit] at hs hP hc hroot
      have hris : rising (A.getLast?.map Prod.fst) ct = ct := rising_sorted _ (List.pairwise_append.1 hs).1
      have hrec : receive A ct = A ++ ct := by rw [receive, hris]
      obtain ⟨r2, out, b1, b2, b3, b4, b5⟩ := a4.addPairs ct
      obtain rfl : out = none := b5.2 hris
      rw [hrec] at b2
      have hadd : r'.addPairs H c.1 = .ok (r2, none) := by
        rw [hct]
        unfold Restore.addPairs
        rw [a2]
        simp only [if_true, a3, Res.ok_bind]
        exact b1
      have hlast : (A ++ ct).getLast? = some e' := by
        have : A ++ ct = A.dropLast ++ c.1 := by conv_lhs => rw [hA]
                                                 simp [hct]
        rw [this, List.getLast?_append, he']; rfl
      obtain ⟨r3, c1, c2, c3, c4⟩ := honest_chunk hf hadd b2 hs hP hc (by rw [b4, a5, hroot]) hlast hcne hpr
      obtain ⟨r4, d1, d2, d3⟩ := honest_run hf cs (rest := rest) c2 (by rw [List.append_assoc]; exact hs) (by rw [List.append_assoc]; exact hP)
        (by rw [List.append_assoc]; exact hc) (by rw [List.append_assoc, c4, b4, a5, hroot]) (fun c' hc' => hcalls c' (List.mem_cons_of_mem _ hc'))
      refine ⟨r', r4, a1, ?_, a7, fun h => absurd h (by simp), fun _ => ⟨by rw [hsplit']; exact d2, d3 (.inr c3), ?_⟩⟩
      · unfold Restore.addChunks
        rw [c1]
        simp only [Res.ok_bind, d1, Res.pure_eq, List.map_cons]
      · rw [hsplit']; simp [hne]

end

end Verif.Jmt
