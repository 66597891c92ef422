import Verif.Proofs.Restore
/-! Adding one key to a restore. -/

set_option autoImplicit false

namespace Verif.Jmt
open VTree
variable {D : Type}

/-- The pending leaf, if any: what `num_keys_received` and the zipper say about it. -/
structure Pending (v : Version) (z : Zip D) (pend : Bool) (r : Restore D) : Prop where
  num : r.numKeysReceived = 0 ↔ pend = false
  leaf : pend = true → ∃ h, z.B (z.key.nibble z.n) = .leaf v z.key h
  two : 0 < z.n → (if pend = true then 2 else 1) ≤ (esOf z.B (List.finRange 16)).length

theorem Core.length {H : Hasher D} {v : Version} {m : Bool} {z : Zip D} {pend : Bool} {r : Restore D} (h : Core H v m z pend r) :
    r.partialNodes.length = z.n + 1 := by rw [h.parts]; simp [Zip.infos]

theorem Core.get_up {H : Hasher D} {v : Version} {m : Bool} {z : Zip D} {pend : Bool} {r : Restore D} (h : Core H v m z pend r) {i : Nat}
    (hi : i < z.n) : r.partialNodes[i]? = some (z.upInfo H v i) := by
  rw [h.parts, Zip.infos, List.getElem?_append_left (by simpa using hi)]
  simp [hi]

theorem Core.get_bot {H : Hasher D} {v : Version} {m : Bool} {z : Zip D} {pend : Bool} {r : Restore D} (h : Core H v m z pend r) :
    r.partialNodes[z.n]? = some (z.botInfo H v) := by
  rw [h.parts, Zip.infos, List.getElem?_append_right (by simp)]
  simp

/-- `freeze` keeping the levels `0 … j`. -/
theorem Core.freeze {H : Hasher D} {v : Version} {m : Bool} {z : Zip D} {pend : Bool} {r : Restore D} (h : Core H v m z pend r)
    (hp : Pending v z pend r) {j : Nat} (hj : j ≤ z.n) (hor : pend = true ∨ z.n = j) :
    ∃ fz ps z', r.freeze H (j + 1) = .ok { r with partialNodes := ps, frozenNodes := fz } ∧
      fz.values = r.frozenNodes.values ∧ Core H v m z' false { r with partialNodes := ps, frozenNodes := fz } ∧
      z'.key = z.key ∧ z'.n = j ∧ z'.entries = z.entries ∧ (0 < z.n → 1 ≤ (esOf z'.B (List.finRange 16)).length) := by
  unfold Restore.freeze
  cases pend with
  | true =>
    obtain ⟨vh, hb⟩ := hp.leaf rfl
    obtain ⟨fz, h1, h2, h3⟩ := h.freezeLeaf hb (by rw [Ne, hp.num]; simp)
    rw [h1]
    simp only [Res.ok_bind]
    have hl := h3.length
    have e : ({ r with frozenNodes := fz } : Restore D).partialNodes.length - (j + 1) = z.n - j := by rw [hl]; omega
    rw [e]
    obtain ⟨fz', ps, z', a1, a2, a3, a4, a5, a6, a7⟩ := h3.popTo (z.n - j) (j := j) (by omega) hp.two
    exact ⟨fz', ps, z', a1, by rw [a2]; exact h2, a3, a4, a5, a6, fun h0 => Nat.le_of_succ_le (a7 h0)⟩
  | false =>
    have h0 : r.freezePreviousLeaf = .ok r := by unfold Restore.freezePreviousLeaf; rw [if_pos (hp.num.2 rfl)]
    rw [h0]
    simp only [Res.ok_bind]
    have hj0 : z.n = j := by simpa using hor
    have e : r.partialNodes.length - (j + 1) = 0 := by rw [h.length]; omega
    rw [e]
    exact ⟨r.frozenNodes, r.partialNodes, z, rfl, rfl, h, rfl, hj0, rfl, hp.two⟩

/-- Result of adding one key. -/
def Added (H : Hasher D) (v : Version) (m : Bool) (z : Zip D) (r : Restore D) (k : Key) (vh : D) (res : Res (Restore D)) : Prop :=
  ∃ fz ps z', res = .ok { r with partialNodes := ps, frozenNodes := fz } ∧
    fz.values = r.frozenNodes.values ∧ Core H v m z' true { r with partialNodes := ps, frozenNodes := fz } ∧
    z'.key = k ∧ z'.entries = z.entries ++ [(k, vh)] ∧ z'.B (z'.key.nibble z'.n) = .leaf v k vh ∧
    (0 < z'.n → 2 ≤ (esOf z'.B (List.finRange 16)).length)

/-- The loop of `add_one` walks along the open path. -/
theorem Core.walk {H : Hasher D} {v : Version} {m : Bool} {z : Zip D} {pend : Bool} {r : Restore D} (h : Core H v m z pend r)
    (k : Key) (vh : D) {j : Nat} (hj : j ≤ z.n) (hk : k.nibbles.take j = z.path j) (d : Nat) (hd : d ≤ j) :
    Restore.addOneLoop H r k vh (k.nibbles.drop (j - d)) (j - d) (k.nibbles.take (j - d)) =
      Restore.addOneLoop H r k vh (k.nibbles.drop j) j (k.nibbles.take j) := by
  have hlt := h.good.lt
  induction d with
  | zero => rfl
  | succ d ih =>
    rw [← ih (by omega)]
    have e : j - d = j - (d + 1) + 1 := by omega
    rw [Key.drop_nibbles k (by omega : j - (d + 1) < 64)]
    conv_lhs => unfold Restore.addOneLoop
    simp only [h.get_up (by omega : j - (d + 1) < z.n)]
    have hn : k.nibble (j - (d + 1)) = z.key.nibble (j - (d + 1)) := Key.nibble_eq_of_take (c := j) (by omega) hk (by omega)
    have hc : (z.upInfo H v (j - (d + 1))).children (k.nibble (j - (d + 1))) = some (.internal none none) := by simp [Zip.upInfo, hn]
    simp only [hc]
    rw [e, Key.take_succ k (by omega)]

/-- Adding a key that parts from the open path at level `j`, to the right. -/
theorem Core.addRight {H : Hasher D} {v : Version} {m : Bool} {z : Zip D} {pend : Bool} {r : Restore D} (h : Core H v m z pend r)
    (hp : Pending v z pend r) (k : Key) (vh : D) {j : Nat} (hj : j ≤ z.n) (hk : k.nibbles.take j = z.path j)
    (hor : pend = true ∨ z.n = j) (hgt : z.key.nibble j < k.nibble j ∨ z.n = 0 ∧ ∀ i, z.B i = .empty) : Added H v m z r k vh (r.addOne H k vh) := by
  have hlt := h.good.lt
  have hw := h.walk k vh hj hk j (Nat.le_refl _)
  rw [Nat.sub_self, List.drop_zero, List.take_zero] at hw
  unfold Restore.addOne
  rw [hw, Key.drop_nibbles k (by omega)]
  unfold Restore.addOneLoop
  obtain ⟨info, hi, hc⟩ : ∃ info, r.partialNodes[j]? = some info ∧ info.children (k.nibble j) = none := by
    by_cases hjn : j < z.n
    · refine ⟨_, h.get_up hjn, ?_⟩
      have hgt : z.key.nibble j < k.nibble j := by
        rcases hgt with hgt | ⟨h0, _⟩
        · exact hgt
        · omega
      simp [Zip.upInfo, Fin.ne_of_gt hgt, h.good.cemp j hjn _ (Nat.le_of_lt hgt), VTree.info]
    · have : j = z.n := by omega
      subst this
      refine ⟨_, h.get_bot, ?_⟩
      have : z.B (k.nibble z.n) = .empty := by
        rcases hgt with hgt | ⟨_, h0⟩
        · exact h.good.bemp _ hgt
        · exact h0 _
      simp [Zip.botInfo, this, VTree.info]
  simp only [hi, hc]
  obtain ⟨fz, ps, z', a1, a2, a3, a4, a5, a6, a7⟩ := h.freeze hp hj hor
  rw [a1]
  simp only [Res.ok_bind, Res.pure_eq]
  have hemp : ∀ i, k.nibble z'.n ≤ i → z'.B i = .empty := by
    intro i hi
    rcases hgt with hgt | ⟨h0, h1⟩
    · apply a3.good.bemp
      rw [a4, a5]
      rw [a5] at hi
      exact Nat.lt_of_lt_of_le (show (z.key.nibble j).val < _ from hgt) hi
    · -- nothing was there before
      have e0 : z.entries = [] := by
        unfold Zip.entries
        rw [h0]
        simp only [List.range_zero, List.flatMap_nil, List.nil_append]
        rw [esOf, List.flatMap_eq_nil_iff]
        intro i _; rw [h1 i]; rfl
      rw [e0] at a6
      have hj0 : z'.n = 0 := by omega
      unfold Zip.entries at a6
      rw [List.append_eq_nil_iff] at a6
      have := List.flatMap_eq_nil_iff.1 a6.2 i (List.mem_finRange i)
      exact (entries_eq_nil (a3.good.bwf i)).1 this
  have hput := a3.put (k := k) vh (by rw [a5]; rw [hk]; show z.key.nibbles.take j = z'.key.nibbles.take j; rw [a4]) hemp
  rw [a5] at hput
  refine ⟨fz, ps.modify j (fun p => p.setChild (k.nibble j) (.leaf ⟨k, vh⟩)), _, rfl, a2, hput.1, rfl, by rw [hput.2, a6], upd_same _ _ _, ?_⟩
  intro hj0
  show 2 ≤ (esOf (upd z'.B (k.nibble j) (.leaf v k vh)) _).length
  rw [a5] at hemp
  rw [esOf_upd_last hemp, List.length_append]
  have hj0 : 0 < j := hj0
  have := a7 (by omega)
  have hl : (VTree.leaf v k vh).entries.length = 1 := rfl
  omega

/-- The chain of internal nodes created by `insert_at_leaf`. -/
theorem insertChain_eq (v : Version) (k : Key) (d : Nat) {a : Nat} (ha : a + d ≤ 64) (ps : List (InternalInfo D)) :
    Restore.insertChain v d (k.nibbles.take a) (k.nibbles.drop a) ps =
      .ok (k.nibbles.take (a + d), ps ++ (List.range' a d).map (fun j =>
        (InternalInfo.newEmpty ⟨v, k.nibbles.take j⟩).setChild (k.nibble j) (.internal none none))) := by
  induction d generalizing a ps with
  | zero => simp [Restore.insertChain]
  | succ d ih =>
    rw [Key.drop_nibbles k (by omega)]
    unfold Restore.insertChain
    rw [← Key.take_succ k (by omega), ih (by omega)]
    rw [List.range'_succ, List.map_cons, List.append_assoc, List.singleton_append, show a + 1 + d = a + (d + 1) by omega]

/-- The zipper in the middle of `insert_at_leaf`: the last leaf has moved down to level `c`. -/
def Zip.down (v : Version) (z : Zip D) (vh : D) (c : Nat) : Zip D :=
  ⟨z.key, c, fun j => if j < z.n then z.C j else if j = z.n then upd z.B (z.key.nibble z.n) .empty else fun _ => .empty,
    upd (fun _ => .empty) (z.key.nibble c) (.leaf v z.key vh)⟩

theorem Zip.down_B (v : Version) (z : Zip D) (vh : D) (c : Nat) :
    (z.down v vh c).B = upd (fun _ => VTree.empty) (z.key.nibble c) (.leaf v z.key vh) := rfl

theorem Zip.down_good {v : Version} {m : Bool} {z : Zip D} (g : z.Good v m) (vh : D) {c : Nat} (hc : c < 64) :
    (z.down v vh c).Good v m := by
  refine ⟨hc, ?_, ?_, ?_, ?_, ?_, ?_⟩
  · intro j hj i
    show WF (z.path j ++ [i]) ((if j < z.n then _ else _ : Nibble → VTree D) i)
    split
    · exact g.cwf j ‹_› i
    · split
      · rename_i hjn; subst hjn
        by_cases hi : i = z.key.nibble z.n
        · subst hi; rw [upd_same]; trivial
        · rw [upd_ne _ _ hi]; exact g.bwf i
      · trivial
  · intro j hj i
    show Uni v m ((if j < z.n then _ else _ : Nibble → VTree D) i)
    split
    · exact g.cuni j ‹_› i
    · split
      · by_cases hi : i = z.key.nibble z.n
        · subst hi; rw [upd_same]; trivial
        · rw [upd_ne _ _ hi]; exact g.buni i
      · trivial
  · intro j hj i hi
    show ((if j < z.n then _ else _ : Nibble → VTree D) i) = VTree.empty
    split
    · exact g.cemp j ‹_› i hi
    · split
      · rename_i hjn; subst hjn
        by_cases hi' : i = z.key.nibble z.n
        · subst hi'; rw [upd_same]
        · rw [upd_ne _ _ hi']
          apply g.bemp
          exact Nat.lt_of_le_of_ne (show (z.key.nibble z.n).val ≤ i.val from hi) (fun he => hi' (Fin.ext he.symm))
      · rfl
  · intro i
    rw [Zip.down_B]
    show WF (z.path c ++ [i]) _
    by_cases hi : i = z.key.nibble c
    · subst hi
      rw [upd_same]
      show z.key.nibbles.take c ++ [z.key.nibble c] <+: z.key.nibbles
      rw [← Key.take_succ _ hc]; exact Key.take_prefix _ _
    · rw [upd_ne _ _ hi]; trivial
  · intro i
    rw [Zip.down_B]
    by_cases hi : i = z.key.nibble c
    · subst hi; rw [upd_same]; rfl
    · rw [upd_ne _ _ hi]; trivial
  · intro i hi
    rw [Zip.down_B]
    have hi : z.key.nibble c < i := hi
    rw [upd_ne _ _ (Fin.ne_of_gt hi)]

theorem range_split3 {n c : Nat} (h : n < c) : List.range c = List.range n ++ n :: List.range' (n + 1) (c - (n + 1)) := by
  have e : c = n + (1 + (c - (n + 1))) := by omega
  conv_lhs => rw [e, List.range_eq_range', ← List.range'_append]
  rw [← List.range_eq_range', Nat.add_comm 1 (c - (n + 1)), List.range'_succ]
  simp

theorem Zip.down_entries {v : Version} {m : Bool} {z : Zip D} (g : z.Good v m) {vh : D} (hb : z.B (z.key.nibble z.n) = .leaf v z.key vh)
    {c : Nat} (hn : z.n < c) : (z.down v vh c).entries = z.entries := by
  unfold Zip.entries Zip.down
  simp only
  rw [range_split3 hn, List.flatMap_append, List.flatMap_cons]
  have e1 : (List.range z.n).flatMap (fun j => esOf (if j < z.n then z.C j else if j = z.n then upd z.B (z.key.nibble z.n) .empty else fun _ => .empty) (List.finRange 16)) =
      (List.range z.n).flatMap (fun j => esOf (z.C j) (List.finRange 16)) := by
    rw [List.flatMap_def, List.flatMap_def]
    congr 1
    apply List.map_congr_left
    intro j hj
    rw [List.mem_range] at hj
    simp [hj]
  have e2 : (List.range' (z.n + 1) (c - (z.n + 1))).flatMap (fun j => esOf (if j < z.n then z.C j else if j = z.n then upd z.B (z.key.nibble z.n) .empty else fun _ => .empty) (List.finRange 16)) = [] := by
    rw [List.flatMap_eq_nil_iff]
    intro j hj
    rw [List.mem_range'_1] at hj
    rw [if_neg (by omega), if_neg (by omega)]
    simp [esOf, VTree.entries]
  rw [e1, e2]
  simp only [Nat.lt_irrefl, if_false, if_true, List.append_nil, List.append_assoc]
  have hemp : ∀ i, z.key.nibble z.n ≤ i → upd z.B (z.key.nibble z.n) .empty i = VTree.empty := by
    intro i hi
    by_cases hi' : i = z.key.nibble z.n
    · subst hi'; rw [upd_same]
    · rw [upd_ne _ _ hi']
      apply g.bemp
      exact Nat.lt_of_le_of_ne (show (z.key.nibble z.n).val ≤ i.val from hi) (fun he => hi' (Fin.ext he.symm))
  have h1 := esOf_upd_last hemp (.leaf v z.key vh)
  have e3 : upd (upd z.B (z.key.nibble z.n) .empty) (z.key.nibble z.n) (.leaf v z.key vh) = z.B := by
    funext i
    by_cases hi : i = z.key.nibble z.n
    · subst hi; rw [upd_same, hb]
    · rw [upd_ne _ _ hi, upd_ne _ _ hi]
  rw [e3] at h1
  rw [h1]
  congr 2
  rw [esOf_upd_last (fun _ _ => rfl)]
  simp [esOf, VTree.entries]

theorem Core.down {H : Hasher D} {v : Version} {m : Bool} {z : Zip D} {r : Restore D} (h : Core H v m z true r) {vh : D}
    (hb : z.B (z.key.nibble z.n) = .leaf v z.key vh) {c : Nat} (hc : c < 64) (hn : z.n < c) :
    Core H v m (z.down v vh c) true { r with partialNodes := (z.down v vh c).infos H v } := by
  have hlt := h.good.lt
  refine ⟨h.ver, h.mig, rfl, Zip.down_good h.good vh hc, ?_, h.disj, h.nodup⟩
  intro nk x
  show r.M nk = some x ↔ _
  rw [h.map]
  simp only [true_imp_iff]
  have hp : ∀ j, (z.down v vh c).path j = z.path j := fun _ => rfl
  have hn' : (z.down v vh c).n = c := rfl
  rw [hp, hn']
  have key : (z.Fr H v nk.path x ∧ nk.path ≠ z.path (z.n + 1)) ↔ ((z.down v vh c).Fr H v nk.path x ∧ nk.path ≠ z.path (c + 1)) := by
    constructor
    · rintro ⟨h1 | h1, h2⟩
      · obtain ⟨j, hj, i, q, hq, hx⟩ := h1
        refine ⟨.inl ⟨j, by rw [hn']; omega, i, q, hq, ?_⟩, ?_⟩
        · simp only [Zip.down, hj, if_true]; exact hx
        · intro he
          rw [he] at hq
          obtain ⟨_, rfl⟩ := path_split (by omega) (by omega) hq
          rw [h.good.cemp j hj _ (Nat.le_refl _)] at hx
          simp at hx
      · obtain ⟨i, q, hq, hx⟩ := h1
        have hi : i ≠ z.key.nibble z.n := by
          rintro rfl
          rw [hb, at?_leaf] at hx
          split at hx
          · rename_i hh
            apply h2
            rw [hq, hh.2]
            unfold Zip.path
            rw [Key.take_succ _ hlt]
          · cases hx
        refine ⟨.inl ⟨z.n, by rw [hn']; exact hn, i, q, hq, ?_⟩, ?_⟩
        · simp only [Zip.down, Nat.lt_irrefl, if_false, if_true]
          rw [upd_ne _ _ hi]; exact hx
        · intro he
          rw [he] at hq
          exact hi (path_split (by omega) hlt hq).2
    · rintro ⟨h1 | h1, h2⟩
      · obtain ⟨j, hj, i, q, hq, hx⟩ := h1
        rw [hp] at hq
        rw [hn'] at hj
        simp only [Zip.down] at hx
        by_cases hjn : j < z.n
        · simp only [hjn, if_true] at hx
          refine ⟨.inl ⟨j, hjn, i, q, hq, hx⟩, ?_⟩
          intro he
          rw [he] at hq
          obtain ⟨_, rfl⟩ := path_split (by omega) (by omega) hq
          rw [h.good.cemp j hjn _ (Nat.le_refl _)] at hx
          simp at hx
        · by_cases hje : j = z.n
          · subst hje
            simp only [Nat.lt_irrefl, if_false, if_true] at hx
            have hi : i ≠ z.key.nibble z.n := by
              rintro rfl
              rw [upd_same] at hx
              simp at hx
            rw [upd_ne _ _ hi] at hx
            refine ⟨.inr ⟨i, q, hq, hx⟩, ?_⟩
            intro he
            rw [he] at hq
            exact hi (path_split (by omega) hlt hq).2
          · simp [hjn, hje] at hx
      · obtain ⟨i, q, hq, hx⟩ := h1
        rw [hp, hn'] at hq
        simp only [Zip.down] at hx
        exfalso
        by_cases hi : i = z.key.nibble c
        · subst hi
          rw [upd_same, at?_leaf] at hx
          split at hx
          · rename_i hh
            apply h2
            rw [hq, hh.2]
            unfold Zip.path
            rw [Key.take_succ _ hc]
          · cases hx
        · rw [upd_ne _ _ hi] at hx
          simp at hx
  rw [key]

/-- Adding a key that shares the whole open path with the last one: `insert_at_leaf`. -/
theorem Core.addBelow {H : Hasher D} {v : Version} {m : Bool} {z : Zip D} {r : Restore D} (h : Core H v m z true r)
    (hp : Pending v z true r) (k : Key) (vh : D) {c : Nat} (hc : c < 64) (hn : z.n < c) (hcpl : z.key.commonPrefixNibblesLen k = c)
    (hk : z.key.nibbles.take c = k.nibbles.take c) (hgt : z.key.nibble c < k.nibble c) : Added H v m z r k vh (r.addOne H k vh) := by
  obtain rfl := h.ver
  have hlt := h.good.lt
  obtain ⟨vh0, hb⟩ := hp.leaf rfl
  have hkn : k.nibbles.take z.n = z.path z.n := (Key.take_eq_of_take hk (by omega)).symm
  have hw := h.walk k vh (Nat.le_refl _) hkn z.n (Nat.le_refl _)
  rw [Nat.sub_self, List.drop_zero, List.take_zero] at hw
  have hnib : ∀ j, j < c → k.nibble j = z.key.nibble j := fun j hj => (Key.nibble_eq_of_take (by omega) hk hj).symm
  have htake : ∀ j, j ≤ c → k.nibbles.take j = z.key.nibbles.take j := fun j hj => (Key.take_eq_of_take hk hj).symm
  unfold Restore.addOne
  rw [hw, Key.drop_nibbles k hlt]
  unfold Restore.addOneLoop
  have hci : (z.botInfo H r.version).children (k.nibble z.n) = some (.leaf ⟨z.key, vh0⟩) := by
    rw [hnib z.n hn]
    simp [Zip.botInfo, hb, VTree.info]
  have hlen : decide (z.n = r.partialNodes.length - 1) = true := by rw [h.length]; simp
  simp only [h.get_bot, hci, hlen, assert_true, Res.ok_bind]
  unfold Restore.insertAtLeaf
  simp only [hcpl]
  rw [← Key.take_succ k hlt, h.length, insertChain_eq r.version k _ (by omega)]
  simp only [Res.ok_bind, decide_true, hc, assert_true]
  have e1 : z.n + 1 + (c - (z.n + 1)) = c := by omega
  have e2 : z.n + 1 - 1 = z.n := by omega
  rw [e1, e2]
  have hps : (r.partialNodes.modify z.n fun p => p.setChild (k.nibble z.n) (.internal none none)) ++
        (List.range' (z.n + 1) (c - (z.n + 1))).map (fun j =>
          (InternalInfo.newEmpty ⟨r.version, k.nibbles.take j⟩).setChild (k.nibble j) (.internal none none)) ++
        [(InternalInfo.newEmpty ⟨r.version, k.nibbles.take c⟩).setChild (z.key.nibble c) (.leaf ⟨z.key, vh0⟩)] =
      (z.down r.version vh0 c).infos H r.version := by
    rw [h.parts]
    unfold Zip.infos
    rw [modify_last (by simp), show (z.down r.version vh0 c).n = c from rfl, range_split3 hn]
    simp only [List.map_append, List.map_cons, List.append_assoc, List.cons_append, List.nil_append]
    congr 1
    · apply List.map_congr_left
      intro j hj
      rw [List.mem_range] at hj
      unfold Zip.upInfo
      simp only [Zip.down, hj, if_true]
      rfl
    · congr 1
      · unfold InternalInfo.setChild Zip.upInfo Zip.botInfo
        simp only [Zip.down, Nat.lt_irrefl, if_false, if_true]
        congr 1
        funext i
        rw [hnib z.n hn]
        by_cases hi : i = z.key.nibble z.n
        · simp [hi]
        · simp [hi, upd]
      · congr 1
        · apply List.map_congr_left
          intro j hj
          rw [List.mem_range'_1] at hj
          unfold InternalInfo.setChild Zip.upInfo InternalInfo.newEmpty
          rw [hnib j (by omega), htake j (by omega)]
          simp only [Zip.down]
          rw [if_neg (by omega), if_neg (by omega)]
          rfl
        · congr 1
          unfold InternalInfo.setChild Zip.botInfo InternalInfo.newEmpty
          rw [htake c (Nat.le_refl _)]
          simp only [Zip.down]
          congr 1
          funext i
          by_cases hi : i = z.key.nibble c
          · simp [hi, VTree.info]
          · simp [hi, upd, VTree.info]
  rw [hps]
  have hd := h.down hb hc hn
  have hdb : (z.down r.version vh0 c).B ((z.down r.version vh0 c).key.nibble (z.down r.version vh0 c).n) = .leaf r.version (z.down r.version vh0 c).key vh0 := by
    rw [Zip.down_B]; exact upd_same _ _ _
  have hnum : ({ r with partialNodes := (z.down r.version vh0 c).infos H r.version } : Restore D).numKeysReceived ≠ 0 := by
    show r.numKeysReceived ≠ 0
    rw [Ne, hp.num]; simp
  obtain ⟨fz, f1, f2, f3⟩ := hd.freezeLeaf hdb hnum
  unfold Restore.freeze
  rw [f1]
  simp only [Res.ok_bind, Nat.sub_self]
  have f0 : ∀ x : Restore D, Restore.freezeInternalNodes H 0 x = .ok x := fun _ => rfl
  rw [f0]
  simp only [Res.ok_bind, hgt, decide_true, assert_true, Res.pure_eq]
  have hl2 : ((z.down r.version vh0 c).infos H r.version).length - 1 = c := by
    have := hd.length
    rw [this]; rfl
  rw [hl2]
  have hemp : ∀ i, k.nibble (z.down r.version vh0 c).n ≤ i → (z.down r.version vh0 c).B i = .empty := by
    intro i hi
    apply f3.good.bemp
    exact Nat.lt_of_lt_of_le (show (z.key.nibble c).val < _ from hgt) hi
  have hput := f3.put (k := k) vh (hk.symm : k.nibbles.take c = _) hemp
  refine ⟨fz, _, _, rfl, f2, hput.1, rfl, by rw [hput.2, Zip.down_entries h.good hb hn], upd_same _ _ _, ?_⟩
  intro _
  show 2 ≤ (esOf (upd (z.down r.version vh0 c).B (k.nibble c) (.leaf r.version k vh)) _).length
  rw [esOf_upd_last (show ∀ i, k.nibble c ≤ i → _ from hemp), List.length_append]
  have : (esOf (z.down r.version vh0 c).B (List.finRange 16)).length = 1 := by
    rw [Zip.down_B]
    rw [esOf_upd_last (fun _ _ => rfl)]
    have : esOf (fun _ => VTree.empty) (List.finRange 16) = ([] : List (Key × D)) := by
      rw [esOf, List.flatMap_eq_nil_iff]; intro _ _; rfl
    rw [this]; rfl
  rw [this]
  simp [VTree.entries]

/-- Adding a key to a restore that holds smaller keys only. -/
theorem Core.addOne {H : Hasher D} {v : Version} {m : Bool} {z : Zip D} {pend : Bool} {r : Restore D} (h : Core H v m z pend r)
    (hp : Pending v z pend r) (k : Key) (vh : D)
    (hk : (z.n = 0 ∧ ∀ i, z.B i = .empty) ∨ (z.key < k ∧ (pend = true ∨ z.key.commonPrefixNibblesLen k = z.n))) :
    Added H v m z r k vh (r.addOne H k vh) := by
  rcases hk with ⟨h0, hb⟩ | ⟨hlt, hor⟩
  · exact h.addRight hp k vh (j := 0) (by omega) (by simp [Zip.path]) (.inr h0) (.inr ⟨h0, hb⟩)
  · obtain ⟨c, hc, h1, h2, h3⟩ := Key.lt_split hlt
    rcases Nat.lt_or_ge z.n c with hn | hn
    · rcases hor with rfl | hle
      · exact h.addBelow hp k vh hc hn h1 h2 h3
      · omega
    · exact h.addRight hp k vh hn h2.symm (hor.imp id (fun h => by omega)) (.inl h3)

end Verif.Jmt
