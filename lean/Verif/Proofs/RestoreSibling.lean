import Verif.Proofs.RestoreRun
import Verif.Proofs.Range
/-! The left siblings computed by `JellyfishMerkleRestore::verify` are the specified ones. -/

set_option autoImplicit false

namespace Verif.Jmt
open VTree Verif.Spec
variable {D : Type}

/-- No input hashes to the placeholder. -/
def NoPlaceholder (H : Hasher D) (xs : List (HashInput D)) : Prop := ∀ x ∈ xs, x.digest H ≠ H.placeholder

theorem NoPlaceholder.mono {H : Hasher D} {xs ys : List (HashInput D)} (h : NoPlaceholder H ys) (hs : ∀ x ∈ xs, x ∈ ys) : NoPlaceholder H xs :=
  fun x hx => h x (hs x hx)

theorem smt_eq_placeholder {H : Hasher D} {n : Nat} {l : List (Key × D)} (hl : n = 0 → l.length ≤ 1)
    (hc : NoPlaceholder H (smtInputs H n l)) : smt H n l = H.placeholder ↔ l = [] := by
  constructor
  · intro h
    rcases list_cases l with rfl | ⟨⟨k, d⟩, rfl⟩ | h2
    · rfl
    · rw [smt_single] at h
      exact absurd h (hc (.leaf k d) (by simp))
    · cases n with
      | zero => have := hl rfl; omega
      | succ n =>
        rw [smt_two H n l h2] at h
        rw [smtInputs_two H n l h2] at hc
        exact absurd h (hc _ List.mem_cons_self)
  · rintro rfl; simp

theorem smtInputs_half (H : Hasher D) (n : Nat) (l : List (Key × D)) (b : Bool) :
    ∀ x ∈ smtInputs H n (l.filter (fun e => e.1.bit (256 - (n + 1)) == b)), x ∈ smtInputs H (n + 1) l := by
  intro x hx
  rcases list_cases l with rfl | ⟨⟨k, d⟩, rfl⟩ | h2
  · simp at hx
  · by_cases hb : (k.bit (256 - (n + 1)) == b) = true
    · rw [List.filter_cons_of_pos (by simpa using hb)] at hx
      simpa using hx
    · rw [List.filter_cons_of_neg (by simpa using hb)] at hx
      simp at hx
  · rw [smtInputs_two H n l h2]
    cases b with
    | true =>
      have e : (fun e : Key × D => e.1.bit (256 - (n + 1)) == true) = fun e => e.1.bit (256 - (n + 1)) := by funext e; simp
      rw [e] at hx
      exact List.mem_cons_of_mem _ (List.mem_append_right _ hx)
    | false =>
      have e : (fun e : Key × D => e.1.bit (256 - (n + 1)) == false) = fun e => !e.1.bit (256 - (n + 1)) := by funext e; simp
      rw [e] at hx
      exact List.mem_cons_of_mem _ (List.mem_append_left _ hx)

theorem smt_two' (H : Hasher D) (n : Nat) (l : List (Key × D)) (h : 2 ≤ l.length) :
    smt H (n + 1) l = H.node (smt H n (l.filter (fun e => e.1.bit (256 - (n + 1)) == false)))
      (smt H n (l.filter (fun e => e.1.bit (256 - (n + 1)) == true))) := by
  rw [smt_two H n l h]
  congr 3
  · funext e; simp
  · funext e; simp

theorem VTree.info_hash {H : Hasher D} {p : List Nibble} {v : Version} {m : Bool} {ch : Nibble → VTree D} (h : WF p (.node v m ch)) :
    (InternalNode.ofFun m (fun i => (ch i).child H)).hash H = smt H (256 - 4 * p.length) (VTree.node v m ch).entries :=
  hash_eq_smt H h

theorem filter_bit_length (l : List (Key × D)) (i : Nat) :
    l.length = (l.filter (fun e => e.1.bit i == false)).length + (l.filter (fun e => e.1.bit i == true)).length := by
  induction l with
  | nil => rfl
  | cons a l ih =>
    rw [List.filter_cons, List.filter_cons]
    cases hb : a.1.bit i
    · simp only [beq_self_eq_true, if_true, List.length_cons, Bool.false_beq, Bool.not_true, Bool.false_eq_true, if_false]; omega
    · simp only [beq_self_eq_true, if_true, List.length_cons, Bool.true_beq, Bool.false_eq_true, if_false]; omega

/-- `compute_left_sibling_impl` on a range of finished children. -/
theorem leftSiblingImpl_eq {H : Hasher D} [DecidableEq D] {T : Nibble → VTree D} {p : List Nibble} (hp : p.length < 64)
    (hw : ∀ i, WF (p ++ [i]) (T i)) {f : Nibble → Option (ChildInfo D)} (h : Nat) (hh : h ≤ 4) {start : Nat}
    (hal : start % 2 ^ h = 0) (hend : start + 2 ^ h ≤ 16)
    (hf : ∀ i ∈ rangeL start (2 ^ h), f i = (T i).info H)
    (hc : NoPlaceholder H (smtInputs H (256 - 4 * (p.length + 1) + h) (esOf T (rangeL start (2 ^ h))))) :
    Restore.computeLeftSiblingImpl H f h start =
      .ok (smt H (256 - 4 * (p.length + 1) + h) (esOf T (rangeL start (2 ^ h))),
        decide ((esOf T (rangeL start (2 ^ h))).length ≤ 1)) := by
  induction h generalizing start with
  | zero =>
    have hr : rangeL start (2 ^ 0) = [Fin.ofNat 16 start] := by
      have hs : start < 16 := by omega
      have key : ∀ s : Fin 16, rangeL s.val (2 ^ 0) = [Fin.ofNat 16 s.val] := by decide
      exact key ⟨start, hs⟩
    rw [hr] at hf hc ⊢
    have hf := hf _ List.mem_cons_self
    have he : esOf T [Fin.ofNat 16 start] = (T (Fin.ofNat 16 start)).entries := by simp [esOf]
    have hpl : (p ++ [Fin.ofNat 16 start]).length = p.length + 1 := by simp
    unfold Restore.computeLeftSiblingImpl
    rw [he, hf, Nat.add_zero]
    have hw := hw (Fin.ofNat 16 start)
    cases hT : T (Fin.ofNat 16 start) with
    | empty => simp [VTree.info, entries]
    | leaf v k d => simp [VTree.info, entries, LeafNode.hash]
    | node v m ch =>
      rw [hT] at hw
      simp only [VTree.info]
      rw [VTree.info_hash hw, hpl]
      have : ¬ (VTree.node v m ch).entries.length ≤ 1 := by
        have h2 : 2 ≤ (VTree.node v m ch).entries.length := hw.2
        omega
      simp [this]
  | succ h ih =>
    have hpow : 2 ^ (h + 1) = 2 ^ h + 2 ^ h := by rw [Nat.pow_succ]; omega
    have hpos : 0 < 2 ^ h := Nat.pow_pos (by omega)
    have h1 : start % 2 ^ h = 0 := by
      rw [hpow] at hal
      exact Nat.mod_eq_zero_of_dvd (Nat.dvd_trans ⟨2, by omega⟩ (Nat.dvd_of_mod_eq_zero hal))
    have h2 : (start + 2 ^ h) % 2 ^ h = 0 := by rw [Nat.add_mod_right]; exact h1
    have en : 256 - (256 - 4 * (p.length + 1) + (h + 1)) = 256 - (256 - 4 * (p.length + 1) + h + 1) := rfl
    have fl : ∀ b, (esOf T (rangeL start (2 ^ (h + 1)))).filter (fun e => e.1.bit (256 - (256 - 4 * (p.length + 1) + h + 1)) == b) =
        esOf T (rangeL (start + if b then 2 ^ h else 0) (2 ^ h)) := fun b =>
      esOf_filter_bit hp hw (by omega) (by omega) hal b
    have f0 := fl false
    have f1 := fl true
    simp only [Bool.false_eq_true, if_false, Nat.add_zero, if_true] at f0 f1
    have i0 : NoPlaceholder H (smtInputs H (256 - 4 * (p.length + 1) + h) (esOf T (rangeL start (2 ^ h)))) := by
      rw [← f0]; exact hc.mono (smtInputs_half H _ _ false)
    have i1 : NoPlaceholder H (smtInputs H (256 - 4 * (p.length + 1) + h) (esOf T (rangeL (start + 2 ^ h) (2 ^ h)))) := by
      rw [← f1]; exact hc.mono (smtInputs_half H _ _ true)
    have r0 := ih (by omega) h1 (by omega) (fun i hi => hf i (by rw [mem_rangeL] at hi ⊢; omega)) i0
    have r1 := ih (by omega) h2 (by omega) (fun i hi => hf i (by rw [mem_rangeL] at hi ⊢; omega)) i1
    have small : ∀ s, s + 2 ^ h ≤ 16 → 256 - 4 * (p.length + 1) + h = 0 → (esOf T (rangeL s (2 ^ h))).length ≤ 1 := by
      intro s hs h0
      have hh0 : h = 0 := by omega
      subst hh0
      have hr : rangeL s (2 ^ 0) = [Fin.ofNat 16 s] := by
        have key : ∀ s : Fin 16, rangeL s.val (2 ^ 0) = [Fin.ofNat 16 s.val] := by decide
        exact key ⟨s, by omega⟩
      rw [hr]
      have he : esOf T [Fin.ofNat 16 s] = (T (Fin.ofNat 16 s)).entries := by simp [esOf]
      rw [he]
      have hw := hw (Fin.ofNat 16 s)
      cases hT : T (Fin.ofNat 16 s) with
      | empty => simp [entries]
      | leaf => simp [entries]
      | node v m ch =>
        rw [hT] at hw
        have := wf_node_length hw
        simp at this; omega
    have p0 := smt_eq_placeholder (small start (by omega)) i0
    have p1 := smt_eq_placeholder (small (start + 2 ^ h) (by omega)) i1
    have hsum : (esOf T (rangeL start (2 ^ (h + 1)))).length = (esOf T (rangeL start (2 ^ h))).length + (esOf T (rangeL (start + 2 ^ h) (2 ^ h))).length := by
      rw [← f0, ← f1]
      exact filter_bit_length _ _
    have hbig := fun h2 => smt_two' H (256 - 4 * (p.length + 1) + h) (esOf T (rangeL start (2 ^ (h + 1)))) h2
    rw [f0, f1] at hbig
    unfold Restore.computeLeftSiblingImpl
    rw [r0, r1]
    simp only [Res.ok_bind, p0, p1, decide_eq_true_eq]
    rw [← Nat.add_assoc]
    generalize hN : 256 - 4 * (p.length + 1) + h = N at *
    generalize hA : esOf T (rangeL start (2 ^ h)) = A at *
    generalize hB : esOf T (rangeL (start + 2 ^ h) (2 ^ h)) = B at *
    generalize hC : esOf T (rangeL start (2 ^ (h + 1))) = C at *
    by_cases c1 : A = [] ∧ B.length ≤ 1
    · rw [if_pos c1]
      obtain ⟨rfl, hb⟩ := c1
      have hCB : B = C := by
        rw [← f1, List.filter_eq_self]
        intro a ha
        by_contra hne
        have : a ∈ C.filter (fun e => e.1.bit (256 - (N + 1)) == false) := by
          rw [List.mem_filter]; exact ⟨ha, by simpa using hne⟩
        rw [f0] at this; cases this
      subst hCB
      have : smt H N B = smt H (N + 1) B := by
        rcases list_cases B with rfl | ⟨⟨k, d⟩, rfl⟩ | h2
        · simp
        · simp
        · omega
      simp [this, hb]
    · rw [if_neg c1]
      by_cases c2 : A.length ≤ 1 ∧ B = []
      · rw [if_pos c2]
        obtain ⟨ha, rfl⟩ := c2
        have hCA : A = C := by
          rw [← f0, List.filter_eq_self]
          intro a ha
          by_contra hne
          have : a ∈ C.filter (fun e => e.1.bit (256 - (N + 1)) == true) := by
            rw [List.mem_filter]; exact ⟨ha, by simpa using hne⟩
          rw [f1] at this; cases this
        subst hCA
        have : smt H N A = smt H (N + 1) A := by
          rcases list_cases A with rfl | ⟨⟨k, d⟩, rfl⟩ | h2
          · simp
          · simp
          · omega
        simp [this, ha]
      · rw [if_neg c2]
        have h2 : 2 ≤ C.length := by
          rw [hsum]
          rcases list_cases A with rfl | ⟨a, rfl⟩ | hA2
          · simp at c1 ⊢; omega
          · rcases list_cases B with rfl | ⟨b, rfl⟩ | hB2
            · simp at c2
            · simp
            · simp; omega
          · omega
        rw [hbig h2]
        simp; omega

/-! ### the entries off the path -/

/-- The children at level `j`. -/
def Zip.level (z : Zip D) (j : Nat) : Nibble → VTree D := if j < z.n then z.C j else z.B

theorem Zip.mem_entries {z : Zip D} {e : Key × D} : e ∈ z.entries ↔ ∃ j, j ≤ z.n ∧ ∃ i, e ∈ (z.level j i).entries := by
  unfold Zip.entries
  rw [List.mem_append]
  constructor
  · rintro (h | h)
    · obtain ⟨j, hj, h⟩ := List.mem_flatMap.1 h
      rw [List.mem_range] at hj
      obtain ⟨i, _, h⟩ := List.mem_flatMap.1 h
      exact ⟨j, by omega, i, by simp only [Zip.level, hj, if_true]; exact h⟩
    · obtain ⟨i, _, h⟩ := List.mem_flatMap.1 h
      exact ⟨z.n, Nat.le_refl _, i, by simp only [Zip.level, Nat.lt_irrefl, if_false]; exact h⟩
  · rintro ⟨j, hj, i, h⟩
    unfold Zip.level at h
    split at h
    · left
      exact List.mem_flatMap.2 ⟨j, List.mem_range.2 ‹_›, List.mem_flatMap.2 ⟨i, List.mem_finRange i, h⟩⟩
    · right
      exact List.mem_flatMap.2 ⟨i, List.mem_finRange i, h⟩

theorem Zip.Good.level_wf {v : Version} {m : Bool} {z : Zip D} (g : z.Good v m) {j : Nat} (hj : j ≤ z.n) (i : Nibble) :
    WF (z.path j ++ [i]) (z.level j i) := by
  unfold Zip.level
  split
  · exact g.cwf j ‹_› i
  · have : j = z.n := by omega
    subst this; exact g.bwf i

theorem Zip.path_length {z : Zip D} {j : Nat} (hj : j ≤ 64) : (z.path j).length = j := Key.take_length _ hj

theorem Zip.path_succ {z : Zip D} {j : Nat} (hj : j < 64) : z.path (j + 1) = z.path j ++ [z.key.nibble j] := Key.take_succ _ hj

theorem Zip.path_prefix (z : Zip D) (j : Nat) : z.path j <+: z.key.nibbles := Key.take_prefix _ _

theorem Zip.bit_key {z : Zip D} {j t : Nat} (hj : j < 64) (ht : t < 4) : z.key.bit (4 * j + t) = (z.key.nibble j).val.testBit (3 - t) := by
  have h := Key.bit_of_prefix (k := z.key) (p := z.path j) (i := z.key.nibble j) (by rw [← Zip.path_succ hj]; exact z.path_prefix _) t ht
  rw [Zip.path_length (by omega)] at h
  exact h

theorem prefix_agree {p : List Nibble} {a b : Key} (ha : p <+: a.nibbles) (hb : p <+: b.nibbles) {i : Nat} (hi : i < 4 * p.length) : a.bit i = b.bit i := by
  have hj : i / 4 < p.length := by omega
  have e : p.take (i / 4 + 1) = p.take (i / 4) ++ [p[i / 4]] := List.take_succ_eq_append_getElem hj
  have h1 := Key.bit_of_prefix (k := a) (p := p.take (i / 4)) (i := p[i / 4]) (by rw [← e]; exact (List.take_prefix _ _).trans ha) (i % 4) (by omega)
  have h2 := Key.bit_of_prefix (k := b) (p := p.take (i / 4)) (i := p[i / 4]) (by rw [← e]; exact (List.take_prefix _ _).trans hb) (i % 4) (by omega)
  have hl : (p.take (i / 4)).length = i / 4 := by simp; omega
  rw [hl] at h1 h2
  have : 4 * (i / 4) + i % 4 = i := by omega
  rw [this] at h1 h2
  rw [h1, h2]

theorem nib_bits_eq : ∀ a b : Nibble, (∀ t : Fin 4, a.val.testBit (3 - t.val) = b.val.testBit (3 - t.val)) → a = b := by decide +kernel

theorem half_table : ∀ (t : Fin 4) (a b : Nibble),
    ((∀ t' : Fin 4, t' < t → a.val.testBit (3 - t'.val) = b.val.testBit (3 - t'.val)) ∧ a.val.testBit (3 - t.val) ≠ b.val.testBit (3 - t.val)) ↔
      ((InternalNode.childAndSiblingHalfStart b (3 - t.val)).2 ≤ a.val ∧
        a.val < (InternalNode.childAndSiblingHalfStart b (3 - t.val)).2 + 2 ^ (3 - t.val)) := by decide +kernel

/-- Entries at a level above leave the path before. -/
theorem Zip.agree_level {v : Version} {m : Bool} {z : Zip D} (g : z.Good v m) {j : Nat} (hj : j ≤ z.n) {i : Nibble} {e : Key × D}
    (he : e ∈ (z.level j i).entries) {b : Nat} (hb : 4 * (j + 1) ≤ b) (ha : agreeTo b e.1 z.key = true) : i = z.key.nibble j := by
  have hlt := g.lt
  have hpre := mem_entries_prefix (g.level_wf hj i) (k := e.1) (x := e.2) he
  apply nib_bits_eq
  intro t
  have h1 := Key.bit_of_prefix hpre t.val t.isLt
  rw [Zip.path_length (by omega)] at h1
  have h2 := agreeTo_iff.1 ha (4 * j + t.val) (by have := t.isLt; omega)
  rw [Zip.bit_key (by omega) t.isLt] at h2
  rw [← h1, h2]

theorem Zip.level_key {v : Version} {m : Bool} {z : Zip D} (g : z.Good v m) {j : Nat} (hj : j < z.n) : z.level j (z.key.nibble j) = .empty := by
  unfold Zip.level
  rw [if_pos hj]
  exact g.cemp j hj _ (Nat.le_refl _)

/-- The entries beside the path at bit `4 * j + t` are those in the sibling range of level `j`. -/
theorem Zip.offPath_iff {v : Version} {m : Bool} {z : Zip D} (g : z.Good v m) {j t : Nat} (hj : j ≤ z.n) (ht : t < 4) (e : Key × D) :
    e ∈ offPath z.key (4 * j + t) z.entries ↔
      e ∈ esOf (z.level j) (rangeL (InternalNode.childAndSiblingHalfStart (z.key.nibble j) (3 - t)).2 (2 ^ (3 - t))) := by
  have hlt := g.lt
  unfold offPath
  rw [List.mem_filter, Bool.and_eq_true, bne_iff_ne]
  constructor
  · rintro ⟨hm, ha, hne⟩
    obtain ⟨j', hj', i, hi⟩ := Zip.mem_entries.1 hm
    have hpre := mem_entries_prefix (g.level_wf hj' i) (k := e.1) (x := e.2) hi
    rcases Nat.lt_trichotomy j' j with h | h | h
    · have := Zip.agree_level g hj' hi (b := 4 * j + t) (by omega) ha
      rw [this, Zip.level_key g (by omega)] at hi
      cases hi
    · subst h
      refine List.mem_flatMap.2 ⟨i, ?_, hi⟩
      rw [mem_rangeL]
      refine (half_table ⟨t, ht⟩ i (z.key.nibble j')).1 ⟨?_, ?_⟩
      · intro t' ht'
        have h1 := Key.bit_of_prefix hpre t'.val t'.isLt
        rw [Zip.path_length (by omega)] at h1
        have ht'' : t'.val < t := ht'
        have h2 := agreeTo_iff.1 ha (4 * j' + t'.val) (by omega)
        rw [Zip.bit_key (by omega) t'.isLt] at h2
        rw [← h1, h2]
      · have h1 := Key.bit_of_prefix hpre t ht
        rw [Zip.path_length (by omega)] at h1
        rw [Zip.bit_key (by omega) ht, h1] at hne
        exact hne
    · exfalso
      apply hne
      have hp2 : z.path j' <+: e.1.nibbles := (List.prefix_append _ _).trans hpre
      exact prefix_agree hp2 (z.path_prefix j') (by rw [Zip.path_length (by omega)]; omega)
  · intro h
    obtain ⟨i, hi, he⟩ := List.mem_flatMap.1 h
    rw [mem_rangeL] at hi
    have hpre := mem_entries_prefix (g.level_wf hj i) (k := e.1) (x := e.2) he
    have hb : ∀ t', t' < 4 → e.1.bit (4 * j + t') = i.val.testBit (3 - t') := by
      intro t' ht'
      have h1 := Key.bit_of_prefix hpre t' ht'
      rw [Zip.path_length (by omega)] at h1
      exact h1
    obtain ⟨h1, h2⟩ := (half_table ⟨t, ht⟩ i (z.key.nibble j)).2 hi
    refine ⟨Zip.mem_entries.2 ⟨j, hj, i, he⟩, ?_, ?_⟩
    · rw [agreeTo_iff]
      intro b hb'
      rcases Nat.lt_or_ge b (4 * j) with hlt' | hge
      · have hp2 : z.path j <+: e.1.nibbles := (List.prefix_append _ _).trans hpre
        exact prefix_agree hp2 (z.path_prefix j) (by rw [Zip.path_length (by omega)]; omega)
      · obtain ⟨t', rfl⟩ : ∃ t', b = 4 * j + t' := ⟨b - 4 * j, by omega⟩
        rw [hb t' (by omega), Zip.bit_key (by omega) (by omega)]
        exact h1 ⟨t', by omega⟩ (by show t' < t; omega)
    · rw [hb t ht, Zip.bit_key (by omega) ht]
      exact h2

theorem Zip.level_sublist (z : Zip D) (j : Nat) : (esOf (z.level j) (List.finRange 16)).Sublist z.entries := by
  unfold Zip.entries Zip.level
  split
  · refine List.Sublist.trans ?_ (List.sublist_append_left _ _)
    rw [List.flatMap_def]
    exact List.sublist_flatten_of_mem (List.mem_map.2 ⟨j, List.mem_range.2 ‹_›, rfl⟩)
  · exact List.sublist_append_right _ _

theorem esOf_sublist (T : Nibble → VTree D) {L L' : List Nibble} (h : L.Sublist L') : (esOf T L).Sublist (esOf T L') := by
  unfold esOf
  induction h with
  | slnil => exact List.Sublist.refl _
  | cons a _ ih => rw [List.flatMap_cons]; exact ih.trans (List.sublist_append_right _ _)
  | cons_cons a _ ih => rw [List.flatMap_cons, List.flatMap_cons]; exact List.Sublist.append (List.Sublist.refl _) ih

theorem Zip.offPath_perm {v : Version} {m : Bool} {z : Zip D} (g : z.Good v m) (hN : (z.entries.map Prod.fst).Nodup) {j t : Nat} (hj : j ≤ z.n) (ht : t < 4) :
    (offPath z.key (4 * j + t) z.entries).Perm
      (esOf (z.level j) (rangeL (InternalNode.childAndSiblingHalfStart (z.key.nibble j) (3 - t)).2 (2 ^ (3 - t)))) := by
  refine (List.perm_ext_iff_of_nodup ?_ ?_).2 (Zip.offPath_iff g hj ht)
  · exact (nodup_of_map _ hN).filter _
  · exact ((esOf_sublist _ List.filter_sublist).trans (z.level_sublist j)).nodup (nodup_of_map _ hN)

theorem smtInputs_perm (H : Hasher D) (n : Nat) {l l' : List (Key × D)} (h : l.Perm l') : ∀ x, x ∈ smtInputs H n l → x ∈ smtInputs H n l' := by
  induction n generalizing l l' with
  | zero =>
    rcases list_cases l with rfl | ⟨e, rfl⟩ | h2
    · rw [List.nil_perm.1 h]; simp
    · rw [List.singleton_perm.1 h]; simp
    · have h2' : 2 ≤ l'.length := by rw [← h.length_eq]; exact h2
      match l, l', h2, h2' with
      | _ :: _ :: _, _ :: _ :: _, _, _ => simp [smtInputs]
  | succ n ih =>
    rcases list_cases l with rfl | ⟨e, rfl⟩ | h2
    · rw [List.nil_perm.1 h]; simp
    · rw [List.singleton_perm.1 h]; simp
    · rw [smtInputs_two H n l h2, smtInputs_two H n l' (by rw [← h.length_eq]; exact h2)]
      intro x hx
      rw [List.mem_cons, List.mem_append] at hx ⊢
      rcases hx with rfl | hx | hx
      · left; rw [smt_perm H n (h.filter _), smt_perm H n (h.filter _)]
      · exact .inr (.inl (ih (h.filter _) x hx))
      · exact .inr (.inr (ih (h.filter _) x hx))

/-- The inputs hashed for a sibling of a present key are among those hashed for the root. -/
theorem sibling_inputs (H : Hasher D) (k : Key) (E : List (Key × D)) {i : Nat} (hi : i < 256) :
    ∀ x ∈ smtInputs H (255 - i) (offPath k i E), x ∈ smtInputs H 256 E := by
  intro x hx
  have key : ∀ d, d ≤ i → ∀ y, y ∈ smtInputs H (256 - d) (E.filter (fun e => agreeTo d e.1 k)) → y ∈ smtInputs H 256 E := by
    intro d
    induction d with
    | zero =>
      intro _ y hy
      have e : E.filter (fun e => agreeTo 0 e.1 k) = E := by rw [List.filter_eq_self]; intro a _; rfl
      rw [e] at hy; exact hy
    | succ d ih =>
      intro hd y hy
      apply ih (by omega)
      have e1 : 256 - d = 256 - (d + 1) + 1 := by omega
      rw [e1]
      apply smtInputs_half H _ _ (k.bit d)
      rw [List.filter_filter]
      have e2 : 256 - (256 - (d + 1) + 1) = d := by omega
      rw [e2]
      have e3 : (fun e : Key × D => (e.1.bit d == k.bit d) && agreeTo d e.1 k) = fun e => agreeTo (d + 1) e.1 k := by
        funext e; rw [agreeTo_succ, Bool.and_comm]
      rw [e3]; exact hy
  apply key i (Nat.le_refl _)
  have e1 : 256 - i = 255 - i + 1 := by omega
  rw [e1]
  apply smtInputs_half H _ _ (!k.bit i)
  rw [List.filter_filter]
  have e2 : 256 - (255 - i + 1) = i := by omega
  rw [e2]
  have e3 : (fun e : Key × D => (e.1.bit i == !k.bit i) && agreeTo i e.1 k) = fun e => agreeTo i e.1 k && e.1.bit i != k.bit i := by
    funext e; rw [Bool.and_comm]; congr 1; cases e.1.bit i <;> cases k.bit i <;> rfl
  rw [e3]; exact hx

end Verif.Jmt
