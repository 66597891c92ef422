import Verif.Proofs.Reads
import Verif.Spec.Range
/-!
Range proofs: sibling lists by position, and the loop of `SparseMerkleRangeProof::verify`.
-/

set_option autoImplicit false

namespace Verif.Jmt
open Verif.Spec
variable {D : Type}

theorem agreeTo_iff {i : Nat} {a b : Key} : agreeTo i a b = true ↔ ∀ j, j < i → a.bit j = b.bit j := by
  simp [agreeTo]

theorem agreeTo_succ (i : Nat) (a b : Key) : agreeTo (i + 1) a b = (agreeTo i a b && a.bit i == b.bit i) := by
  simp [agreeTo, List.range_succ]

theorem smtPath_siblings (H : Hasher D) (k : Key) (L : List (Key × D)) (n : Nat) (hn : n ≤ 256) :
    ∃ m, (smtPath H k n (L.filter (fun e => agreeTo (256 - n) e.1 k))).1
      = (List.range' (256 - n) m).map (sibling H k L) := by
  induction n with
  | zero =>
    refine ⟨0, ?_⟩
    have := smtPath_length H k 0 (L.filter (fun e => agreeTo (256 - 0) e.1 k))
    rw [List.length_eq_zero_iff.1 (Nat.le_zero.1 this)]
    rfl
  | succ n ih =>
    rcases list_cases (L.filter (fun e => agreeTo (256 - (n + 1)) e.1 k)) with h | ⟨a, h⟩ | h
    · exact ⟨0, by rw [h]; simp⟩
    · exact ⟨0, by rw [h]; simp⟩
    · obtain ⟨m, hm⟩ := ih (by omega)
      refine ⟨m + 1, ?_⟩
      have e1 : 256 - n = 256 - (n + 1) + 1 := by omega
      have e2 : 255 - (256 - (n + 1)) = n := by omega
      have f1 : (L.filter (fun e => agreeTo (256 - (n + 1)) e.1 k)).filter
          (fun e => e.1.bit (256 - (n + 1)) == k.bit (256 - (n + 1))) = L.filter (fun e => agreeTo (256 - n) e.1 k) := by
        rw [List.filter_filter, e1]
        congr 1; funext e
        rw [agreeTo_succ, Bool.and_comm]
      have f2 : (L.filter (fun e => agreeTo (256 - (n + 1)) e.1 k)).filter
          (fun e => e.1.bit (256 - (n + 1)) != k.bit (256 - (n + 1))) = offPath k (256 - (n + 1)) L := by
        rw [List.filter_filter, offPath]
        congr 1; funext e
        rw [Bool.and_comm]
      rw [smtPath_two H k n _ h, f1, f2, hm, List.range'_succ, List.map_cons]
      simp only [sibling, e2, ← e1]

theorem smtPath_siblings_top (H : Hasher D) (k : Key) (L : List (Key × D)) :
    (smtPath H k 256 L).1 = (List.range (smtPath H k 256 L).1.length).map (sibling H k L) := by
  obtain ⟨m, hm⟩ := smtPath_siblings H k L 256 (Nat.le_refl _)
  have e : L.filter (fun e => agreeTo (256 - 256) e.1 k) = L := by simp [agreeTo]
  rw [e, Nat.sub_self, ← List.range_eq_range'] at hm
  have hl : (smtPath H k 256 L).1.length = m := by rw [hm]; simp
  rw [hl]; exact hm

/-- The loop on siblings that are already split by the bits. -/
theorem verifyLoop_split (H : Hasher D) (z : List (D × Bool)) (h : D) :
    SparseMerkleRangeProof.verifyLoop H (z.map Prod.snd) (z.filterMap (fun sb => if sb.2 then some sb.1 else none))
      (z.filterMap (fun sb => if sb.2 then none else some sb.1)) h
      = .ok (z.foldl (fun hash (sb : D × Bool) => if sb.2 then H.node sb.1 hash else H.node hash sb.1) h) := by
  induction z generalizing h with
  | nil => rfl
  | cons x z ih =>
    obtain ⟨s, b⟩ := x
    cases b <;> simp only [List.map_cons, List.filterMap_cons, if_true, Bool.false_eq_true, if_false,
      SparseMerkleRangeProof.verifyLoop, ih, List.foldl_cons]

theorem filterMap_zip_bits (H : Hasher D) (k : Key) (L : List (Key × D)) (n : Nat) (hn : n ≤ 256) :
    let z := ((List.range n).map (sibling H k L)).zip k.bits
    z.filterMap (fun sb => if sb.2 then some sb.1 else none) = ((List.range n).filter k.bit).map (sibling H k L) ∧
    z.filterMap (fun sb => if sb.2 then none else some sb.1) = ((List.range n).filter (fun i => !k.bit i)).map (sibling H k L) := by
  have hb : k.bits = (List.range n).map k.bit ++ k.bits.drop n := by
    have : k.bits.take n = (List.range n).map k.bit := by
      simp [Key.bits, ← List.map_take, List.take_range, Nat.min_eq_left hn]
    rw [← this, List.take_append_drop]
  have hz : ((List.range n).map (sibling H k L)).zip k.bits = (List.range n).map (fun i => (sibling H k L i, k.bit i)) := by
    rw [hb, ← List.append_nil ((List.range n).map (sibling H k L)), List.zip_append (by simp)]
    simp [List.zip_map']
  simp only [hz]
  generalize List.range n = r
  induction r with
  | nil => exact ⟨rfl, rfl⟩
  | cons i r ih =>
    cases hi : k.bit i <;> simp [hi, ih.1, ih.2]

theorem map_snd_zip' {α β : Type} (a : List α) (b : List β) : (a.zip b).map Prod.snd = b.take a.length := by
  induction a generalizing b with
  | nil => simp
  | cons x a ih => cases b <;> simp [ih]

/-- `verify` on the siblings of the first `depth` bits computes the climb. -/
theorem range_verify_climb (H : Hasher D) [DecidableEq D] (k : Key) (vh : D) (L : List (Key × D)) (n : Nat) (hn : n ≤ 256) (root : D) :
    SparseMerkleRangeProof.verify H ⟨rightSiblings H k n L⟩ root ⟨k, vh⟩ (leftSiblings H k n L)
      = ensure (decide (climb H ((List.range n).map (sibling H k L)) k.bits (H.leaf k vh) = root)) "Root hashes do not match." := by
  have hnum : (leftSiblings H k n L).length + (rightSiblings H k n L).length = n := by
    have : ∀ r : List Nat, (r.filter k.bit).length + (r.filter (fun i => !k.bit i)).length = r.length := by
      intro r
      induction r with
      | nil => rfl
      | cons i r ih => cases hi : k.bit i <;> simp [hi] <;> omega
    have := this (List.range n)
    simpa [leftSiblings, rightSiblings] using this
  unfold SparseMerkleRangeProof.verify
  simp only [hnum, hn, if_true]
  have hz := filterMap_zip_bits H k L n hn
  have hloop := verifyLoop_split H (((List.range n).map (sibling H k L)).zip k.bits).reverse (H.leaf k vh)
  rw [List.filterMap_reverse, List.filterMap_reverse, hz.1, hz.2] at hloop
  have hbits : (((List.range n).map (sibling H k L)).zip k.bits).reverse.map Prod.snd = k.bits.reverse.drop (256 - n) := by
    rw [List.map_reverse, map_snd_zip', List.drop_reverse]
    simp [Nat.sub_sub_self hn]
  rw [hbits, List.foldl_reverse] at hloop
  rw [climb_foldr]
  simp only [leftSiblings, rightSiblings]
  show (SparseMerkleRangeProof.verifyLoop H (k.bits.reverse.drop (256 - n)) _ _ (H.leaf k vh) >>= _) = _
  rw [hloop]
  rfl

theorem offPath_perm (k : Key) (i : Nat) {l l' : List (Key × D)} (h : l.Perm l') : (offPath k i l).Perm (offPath k i l') := h.filter _

theorem sibling_perm (H : Hasher D) (k : Key) (i : Nat) {l l' : List (Key × D)} (h : l.Perm l') : sibling H k l i = sibling H k l' i :=
  smt_perm H _ (offPath_perm k i h)

theorem lt_of_leaves_left {a k : Key} {i : Nat} (hi : i < 256) (h : agreeTo i a k = true) (ha : a.bit i = false) (hk : k.bit i = true) : a < k := by
  rw [Key.lt_iff_bits]
  have split : ∀ x : Key, x.bits = x.bits.take i ++ x.bit i :: x.bits.drop (i + 1) := by
    intro x
    have hl : i < x.bits.length := by simpa using hi
    have : x.bits[i] = x.bit i := by simp [Key.bits]
    rw [← this, ← List.drop_eq_getElem_cons hl, List.take_append_drop]
  have ht : a.bits.take i = k.bits.take i := by
    have : ∀ x : Key, x.bits.take i = (List.range i).map x.bit := by
      intro x
      simp [Key.bits, ← List.map_take, List.take_range, Nat.min_eq_left (Nat.le_of_lt hi)]
    rw [this, this]
    exact List.map_congr_left (fun j hj => agreeTo_iff.1 h j (List.mem_range.1 hj))
  rw [split a, split k, ht, ha, hk]
  exact List.append_left_lt (List.Lex.rel (by decide))

/-- The siblings on the left depend only on the keys up to `k`. -/
theorem sibling_left (H : Hasher D) (k : Key) (i : Nat) (hi : i < 256) (hk : k.bit i = true) (l : List (Key × D)) :
    sibling H k (l.filter (fun e => decide (e.1 ≤ k))) i = sibling H k l i := by
  unfold sibling offPath
  rw [List.filter_filter]
  congr 1
  apply List.filter_congr
  intro e _
  by_cases h : agreeTo i e.1 k && e.1.bit i != k.bit i
  · have h' := h
    rw [Bool.and_eq_true, hk, bne_iff_ne] at h'
    have hlt := lt_of_leaves_left hi h'.1 (by simpa using h'.2) hk
    have hle : e.1 ≤ k := by
      intro hgt
      exact (List.lt_asymm (show e.1.bytes < k.bytes from hlt)) hgt
    simp [h, hle]
  · simp [h]

theorem leftSiblings_upTo (H : Hasher D) (k : Key) (n : Nat) (hn : n ≤ 256) (l : List (Key × D)) :
    leftSiblings H k n (l.filter (fun e => decide (e.1 ≤ k))) = leftSiblings H k n l := by
  unfold leftSiblings
  congr 1
  apply List.map_congr_left
  intro i hi
  rw [List.mem_filter, List.mem_range] at hi
  exact sibling_left H k i (by omega) hi.2 l

end Verif.Jmt
