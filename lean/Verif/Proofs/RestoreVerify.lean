import Verif.Proofs.RestoreSibling
import Verif.Spec.Restore
/-! `JellyfishMerkleRestore::verify`: what a successful check says, and when it succeeds. -/

set_option autoImplicit false

namespace Verif.Jmt
open VTree Verif.Spec
variable {D : Type}

/-- The left siblings recorded for the first `b` bits, topmost first. -/
def lefts (k : Key) (s : Nat → D) (b : Nat) : List D := ((List.range b).filter k.bit).map s

/-- The number of zero bits among the first `b`. -/
def zeros (k : Key) (b : Nat) : Nat := ((List.range b).filter (fun i => !k.bit i)).length

theorem lefts_succ (k : Key) (s : Nat → D) (b : Nat) : lefts k s (b + 1) = lefts k s b ++ if k.bit b then [s b] else [] := by
  unfold lefts
  rw [List.range_succ, List.filter_append, List.map_append]
  congr 1
  cases h : k.bit b <;> simp [h]

theorem zeros_succ (k : Key) (b : Nat) : zeros k (b + 1) = zeros k b + if k.bit b then 0 else 1 := by
  unfold zeros
  rw [List.range_succ, List.filter_append, List.length_append]
  congr 1
  cases h : k.bit b <;> simp [h]

theorem lefts_zeros (k : Key) (s : Nat → D) (b : Nat) : (lefts k s b).length + zeros k b = b := by
  induction b with
  | zero => rfl
  | succ b ih =>
    rw [lefts_succ, zeros_succ, List.length_append]
    cases h : k.bit b <;> simp <;> omega

theorem zeros_mono (k : Key) {a b : Nat} (h : a ≤ b) : zeros k a ≤ zeros k b := by
  induction b with
  | zero => have : a = 0 := by omega
            subst this; exact Nat.le_refl _
  | succ b ih =>
    rcases Nat.lt_or_ge b a with h' | h'
    · have : a = b + 1 := by omega
      subst this; exact Nat.le_refl _
    · rw [zeros_succ]; have := ih h'; omega

/-- `collect`: the siblings at all one-bits. -/
theorem collectLeft_eq {H : Hasher D} [DecidableEq D] {ps : List (InternalInfo D)} {k : Key} {s : Nat → D}
    (hs : ∀ i, i < 256 → k.bit i = true → (match ps[i / 4]? with
      | none => Except.ok H.placeholder
      | some info => Restore.computeLeftSibling H info (k.nibble (i / 4)) (3 - i % 4)) = (.ok (s i) : Res D))
    (d : Nat) (b : Nat) (hb : b + d = 256) :
    Restore.collectLeft H ps k (List.range' b d) (lefts k s b) (zeros k b) = .ok (lefts k s 256, zeros k 256) := by
  induction d generalizing b with
  | zero => have : b = 256 := by omega
            subst this; rfl
  | succ d ih =>
    rw [List.range'_succ]
    unfold Restore.collectLeft
    have ih := ih (b + 1) (by omega)
    rw [lefts_succ, zeros_succ] at ih
    by_cases hbit : k.bit b = true
    · rw [if_pos hbit]
      simp only [hbit, if_true, Nat.add_zero] at ih
      have := hs b (by omega) hbit
      cases hp : ps[b / 4]? with
      | none =>
        rw [hp] at this
        simp only [Except.ok.injEq] at this
        simp only
        rw [this]; exact ih
      | some info =>
        rw [hp] at this
        simp only at this
        simp only [this, Res.ok_bind]
        exact ih
    · rw [if_neg hbit]
      simp only [hbit, Bool.false_eq_true, if_false, List.append_nil] at ih
      exact ih

theorem bits_rev_succ (k : Key) (b : Nat) : ((List.range (b + 1)).map k.bit).reverse = k.bit b :: ((List.range b).map k.bit).reverse := by
  rw [List.range_succ]; simp

/-- The trimming loop stops at some `b'`. -/
theorem trimLeft_spec {H : Hasher D} [DecidableEq D] {k : Key} {s : Nat → D} {R : Nat} (b : Nat) (hR : R ≤ zeros k b) :
    ∃ b', b' ≤ b ∧ Restore.trimLeft H R ((List.range b).map k.bit).reverse (lefts k s b) (zeros k b) = .ok (lefts k s b') ∧
      (∀ i, b' ≤ i → i < b → k.bit i = true → s i = H.placeholder) ∧ R ≤ zeros k b' ∧
      (zeros k b' = R ∨ (0 < b' ∧ k.bit (b' - 1) = true)) := by
  induction b with
  | zero =>
    refine ⟨0, Nat.le_refl _, rfl, by intro i _ h; omega, hR, .inl ?_⟩
    have : zeros k 0 = 0 := rfl
    omega
  | succ b ih =>
    rw [bits_rev_succ]
    by_cases hbit : k.bit b = true
    · rw [zeros_succ] at hR
      simp only [hbit, if_true, Nat.add_zero] at hR
      by_cases hp : s b = H.placeholder
      · obtain ⟨b', h1, h2, h3, h4, h5⟩ := ih hR
        refine ⟨b', by omega, ?_, ?_, h4, h5⟩
        · rw [hbit]
          unfold Restore.trimLeft
          rw [lefts_succ, zeros_succ]
          simp only [hbit, if_true, List.getLast?_append, List.getLast?_singleton, Option.some_or, hp, List.dropLast_concat, Nat.add_zero]
          exact h2
        · intro i hi1 hi2 hb
          rcases Nat.lt_or_ge i b with h | h
          · exact h3 i hi1 h hb
          · have : i = b := by omega
            subst this; exact hp
      · refine ⟨b + 1, Nat.le_refl _, ?_, by intro i _ h; omega, by rw [zeros_succ]; simp [hbit]; exact hR, .inr ⟨by omega, by simpa using hbit⟩⟩
        rw [hbit]
        unfold Restore.trimLeft
        rw [lefts_succ]
        simp only [hbit, if_true, List.getLast?_append, List.getLast?_singleton, Option.some_or, hp, if_false]
    · have hbf : k.bit b = false := by simpa using hbit
      by_cases hlt : R < zeros k (b + 1)
      · have hR' : R ≤ zeros k b := by rw [zeros_succ] at hlt; simp [hbf] at hlt; omega
        obtain ⟨b', h1, h2, h3, h4, h5⟩ := ih hR'
        refine ⟨b', by omega, ?_, ?_, h4, h5⟩
        · rw [hbf]
          unfold Restore.trimLeft
          rw [if_pos hlt, lefts_succ, zeros_succ]
          simp only [hbf, Bool.false_eq_true, if_false, List.append_nil, Nat.add_sub_cancel]
          exact h2
        · intro i hi1 hi2 hb
          rcases Nat.lt_or_ge i b with h | h
          · exact h3 i hi1 h hb
          · have : i = b := by omega
            subst this; rw [hbf] at hb; cases hb
      · refine ⟨b + 1, Nat.le_refl _, ?_, by intro i _ h; omega, hR, .inl (by omega)⟩
        rw [hbf]
        unfold Restore.trimLeft
        rw [if_neg hlt]

/-- The trimming loop stops at `d`. -/
theorem trimLeft_to {H : Hasher D} [DecidableEq D] {k : Key} {s : Nat → D} {d : Nat}
    (hstop : d = 0 ∨ k.bit (d - 1) = false ∨ s (d - 1) ≠ H.placeholder) (e : Nat)
    (hpl : ∀ i, d ≤ i → i < d + e → k.bit i = true → s i = H.placeholder) :
    Restore.trimLeft H (zeros k d) ((List.range (d + e)).map k.bit).reverse (lefts k s (d + e)) (zeros k (d + e)) = .ok (lefts k s d) := by
  induction e with
  | zero =>
    rw [Nat.add_zero]
    cases d with
    | zero => rfl
    | succ d =>
      rw [bits_rev_succ]
      have hstop : k.bit d = false ∨ s d ≠ H.placeholder := by
        rcases hstop with h | h
        · omega
        · exact h
      cases hbit : k.bit d with
      | true =>
        have hs : s d ≠ H.placeholder := by
          rcases hstop with h | h
          · rw [hbit] at h; cases h
          · exact h
        unfold Restore.trimLeft
        rw [lefts_succ]
        simp only [hbit, if_true, List.getLast?_append, List.getLast?_singleton, Option.some_or, hs, if_false]
      | false =>
        unfold Restore.trimLeft
        rw [if_neg (Nat.lt_irrefl _)]
  | succ e ih =>
    have ih := ih (fun i h1 h2 => hpl i h1 (by omega))
    rw [← Nat.add_assoc, bits_rev_succ]
    cases hbit : k.bit (d + e) with
    | true =>
      have hp := hpl (d + e) (by omega) (by omega) hbit
      unfold Restore.trimLeft
      rw [lefts_succ, zeros_succ]
      simp only [hbit, if_true, List.getLast?_append, List.getLast?_singleton, Option.some_or, hp, List.dropLast_concat, Nat.add_zero]
      exact ih
    | false =>
      have hlt : zeros k d < zeros k (d + e + 1) := by
        have := zeros_mono k (show d ≤ d + e by omega)
        rw [zeros_succ]; simp [hbit]; omega
      unfold Restore.trimLeft
      rw [if_pos hlt, lefts_succ, zeros_succ]
      simp only [hbit, Bool.false_eq_true, if_false, List.append_nil, Nat.add_sub_cancel]
      exact ih

/-! ### the loop of the range proof -/

/-- A run of the loop that succeeds consumes matching siblings. -/
theorem verifyLoop_ok {H : Hasher D} (bits : List Bool) {left right : List D} {h h' : D}
    (hv : SparseMerkleRangeProof.verifyLoop H bits left right h = .ok h') :
    ∃ (z : List (D × Bool)) (l' r' : List D), z.map Prod.snd = bits ∧
      left = z.filterMap (fun sb => if sb.2 then some sb.1 else none) ++ l' ∧
      right = z.filterMap (fun sb => if sb.2 then none else some sb.1) ++ r' ∧
      h' = z.foldl (fun hash (sb : D × Bool) => if sb.2 then H.node sb.1 hash else H.node hash sb.1) h := by
  induction bits generalizing left right h with
  | nil =>
    simp only [SparseMerkleRangeProof.verifyLoop, Except.ok.injEq] at hv
    exact ⟨[], left, right, rfl, rfl, rfl, hv.symm⟩
  | cons b bits ih =>
    cases b with
    | true =>
      cases left with
      | nil => simp [SparseMerkleRangeProof.verifyLoop] at hv
      | cons l left =>
        obtain ⟨z, l', r', h1, h2, h3, h4⟩ := ih hv
        exact ⟨(l, true) :: z, l', r', by simp [h1], by simp [h2], by simp [h3], by simpa using h4⟩
    | false =>
      cases right with
      | nil => simp [SparseMerkleRangeProof.verifyLoop] at hv
      | cons l left =>
        obtain ⟨z, l', r', h1, h2, h3, h4⟩ := ih hv
        exact ⟨(l, false) :: z, l', r', by simp [h1], by simp [h2], by simp [h3], by simpa using h4⟩

/-- Reading off the siblings at the one-bits. -/
theorem lefts_getElem {k : Key} {s : Nat → D} (b : Nat) (zz : List (D × Bool)) (h1 : zz.map Prod.snd = (List.range b).map k.bit)
    (h2 : zz.filterMap (fun sb => if sb.2 then some sb.1 else none) = lefts k s b) :
    ∀ i, i < b → k.bit i = true → (zz.map Prod.fst)[i]? = some (s i) := by
  induction b generalizing zz with
  | zero => intro i hi; omega
  | succ b ih =>
    have hl : zz.length = b + 1 := by have := congrArg List.length h1; simpa using this
    have hne : zz ≠ [] := by intro h0; rw [h0] at hl; simp at hl
    obtain ⟨ys, y, rfl⟩ : ∃ ys y, zz = ys ++ [y] := ⟨zz.dropLast, zz.getLast hne, (List.dropLast_concat_getLast hne).symm⟩
    rw [List.range_succ, List.map_append, List.map_append] at h1
    have hyl : ys.length = b := by simpa using hl
    have hap := List.append_inj h1 (by simp [hyl])
    have hy : y.2 = k.bit b := by simpa using hap.2
    rw [List.filterMap_append, lefts_succ] at h2
    have h2' : ys.filterMap (fun sb => if sb.2 then some sb.1 else none) = lefts k s b ∧ (k.bit b = true → y.1 = s b) := by
      cases hb : k.bit b with
      | true =>
        rw [hb] at hy
        simp only [hb, if_true, List.filterMap_cons, hy, List.filterMap_nil] at h2
        have := List.append_inj' h2 rfl
        exact ⟨this.1, fun _ => by simpa using this.2⟩
      | false =>
        rw [hb] at hy
        simp [hb, hy] at h2
        exact ⟨h2, fun h => by cases h⟩
    intro i hi hbit
    rw [List.map_append]
    rcases Nat.lt_or_ge i b with hlt | hge
    · rw [List.getElem?_append_left (by simpa [hyl] using hlt)]
      exact ih ys hap.1 h2'.1 i hlt hbit
    · have : i = b := by omega
      subst this
      rw [List.getElem?_append_right (by simp [hyl])]
      simp [hyl, h2'.2 hbit]

theorem filterMap_congr' {α β : Type} {f g : α → Option β} : ∀ {l : List α}, (∀ a ∈ l, f a = g a) → l.filterMap f = l.filterMap g
  | [], _ => rfl
  | a :: l, h => by
    rw [List.filterMap_cons, List.filterMap_cons, h a List.mem_cons_self, filterMap_congr' (fun b hb => h b (List.mem_cons_of_mem _ hb))]

/-- What the check of a chunk establishes: a sibling list of length `b` with the left siblings from the entries `E` received
and the right siblings from the proof, leading from the leaf `(k, vh)` to `root`; left siblings further down are empty. -/
structure ChunkChecked (H : Hasher D) (E : List (Key × D)) (k : Key) (vh : D) (root : D) (right : List D) (sibs : List D) : Prop where
  len : sibs.length ≤ 256
  asm : Assembled H E k right sibs
  rest : ∀ i, sibs.length ≤ i → i < 256 → k.bit i = true → sibling H k E i = H.placeholder
  climb : climb H sibs k.bits (H.leaf k vh) = root

theorem filterMap_zip_false (k : Key) (b : Nat) (zz : List (D × Bool)) (h1 : zz.map Prod.snd = (List.range b).map k.bit) :
    zz.filterMap (fun sb => if sb.2 then none else some sb.1) =
      ((List.range b).filter (fun i => !k.bit i)).filterMap (fun i => (zz.map Prod.fst)[i]?) := by
  induction b generalizing zz with
  | zero =>
    have hl : zz.length = 0 := by have := congrArg List.length h1; simpa using this
    rw [List.length_eq_zero_iff.1 hl]; rfl
  | succ b ih =>
    have hl : zz.length = b + 1 := by have := congrArg List.length h1; simpa using this
    have hne : zz ≠ [] := by intro h0; rw [h0] at hl; simp at hl
    obtain ⟨ys, y, rfl⟩ : ∃ ys y, zz = ys ++ [y] := ⟨zz.dropLast, zz.getLast hne, (List.dropLast_concat_getLast hne).symm⟩
    rw [List.range_succ, List.map_append, List.map_append] at h1
    have hyl : ys.length = b := by simpa using hl
    have hap := List.append_inj h1 (by simp [hyl])
    have hy : y.2 = k.bit b := by simpa using hap.2
    rw [List.filterMap_append, ih ys hap.1, List.range_succ, List.filter_append, List.filterMap_append]
    congr 1
    · apply filterMap_congr'
      intro i hi
      rw [List.mem_filter, List.mem_range] at hi
      rw [List.map_append, List.getElem?_append_left (by simpa [hyl] using hi.1)]
    · cases hb : k.bit b with
      | true => simp [hb, hy]
      | false => simp [hb, hy, hyl]

/-- Success of `SparseMerkleRangeProof::verify` on trimmed left siblings. -/
theorem range_verify_ok {H : Hasher D} [DecidableEq D] {k : Key} {vh : D} {s : Nat → D} {right : List D} {root : D} {b : Nat} (hb : b ≤ 256)
    (hR : right.length ≤ zeros k b) (hor : zeros k b = right.length ∨ (0 < b ∧ k.bit (b - 1) = true))
    (hv : SparseMerkleRangeProof.verify H ⟨right⟩ root ⟨k, vh⟩ (lefts k s b).reverse = .ok ()) :
    ∃ sibs, sibs.length = b ∧ (∀ i, i < b → k.bit i = true → sibs[i]? = some (s i)) ∧
      right = (((List.range b).filter (fun i => !k.bit i)).filterMap (fun i => sibs[i]?)).reverse ∧
      climb H sibs k.bits (H.leaf k vh) = root := by
  have hlz := lefts_zeros k s b
  unfold SparseMerkleRangeProof.verify at hv
  simp only [List.length_reverse] at hv
  generalize hc : (lefts k s b).length + right.length = c at hv
  have hcb : c ≤ b := by omega
  rw [if_pos (by omega : c ≤ 256)] at hv
  cases hloop : SparseMerkleRangeProof.verifyLoop H (k.bits.reverse.drop (256 - c)) (lefts k s b).reverse right (H.leaf k vh) with
  | error e =>
    simp only [LeafNode.hash, hloop, Res.error_bind] at hv
    cases hv
  | ok h' =>
    simp only [LeafNode.hash, hloop, Res.ok_bind] at hv
    have hroot : h' = root := by
      unfold ensure at hv
      split at hv
      · rename_i hdec; exact of_decide_eq_true hdec
      · cases hv
    obtain ⟨z, l', r', h1, h2, h3, h4⟩ := verifyLoop_ok _ hloop
    have hbits : k.bits.reverse.drop (256 - c) = ((List.range c).map k.bit).reverse := by
      rw [List.drop_reverse]
      congr 1
      have e : k.bits.length - (256 - c) = c := by simp [Key.bits]; omega
      rw [e]
      simp [Key.bits, ← List.map_take, List.take_range, Nat.min_eq_left (Nat.le_trans hcb hb)]
    rw [hbits] at h1
    have hzl : z.length = c := by have := congrArg List.length h1; simpa using this
    have hsum : ∀ z : List (D × Bool), (z.filterMap (fun sb => if sb.2 then some sb.1 else none)).length +
        (z.filterMap (fun sb => if sb.2 then none else some sb.1)).length = z.length := by
      intro z
      induction z with
      | nil => rfl
      | cons x z ih => obtain ⟨d, _ | _⟩ := x <;> simp <;> omega
    have hs := hsum z
    have l2 := congrArg List.length h2
    have l3 := congrArg List.length h3
    simp only [List.length_append, List.length_reverse] at l2 l3
    have e1 : l' = [] := List.length_eq_zero_iff.1 (by omega)
    have e2 : r' = [] := List.length_eq_zero_iff.1 (by omega)
    subst e1 e2
    rw [List.append_nil] at h2 h3
    -- the zero bits below `c` are as many as the right siblings
    have hz1 : z.reverse.map Prod.snd = (List.range c).map k.bit := by
      rw [List.map_reverse, h1, List.reverse_reverse]
    have hf := filterMap_zip_false k c z.reverse hz1
    have hr : right.length = zeros k c := by
      have := congrArg List.length hf
      rw [List.filterMap_reverse, List.length_reverse, ← h3] at this
      rw [this]
      unfold zeros
      generalize hfl : (List.range c).filter (fun i => !k.bit i) = L
      have hall : ∀ i ∈ L, i < c := by intro i hi; rw [← hfl] at hi; exact List.mem_range.1 (List.mem_filter.1 hi).1
      clear hfl hf this
      induction L with
      | nil => rfl
      | cons a L ih =>
        have ha : a < (z.reverse.map Prod.fst).length := by have := hall a List.mem_cons_self; simp; omega
        rw [List.filterMap_cons_some (List.getElem?_eq_getElem ha), List.length_cons, List.length_cons, ih (fun i hi => hall i (List.mem_cons_of_mem _ hi))]
    have hcb' : c = b := by
      rcases hor with h0 | ⟨hpos, hbit⟩
      · omega
      · have hlc := lefts_zeros k s c
        by_contra hne
        have hlt : c ≤ b - 1 := by omega
        -- the bit `b - 1` is one, so the left siblings below `c` are fewer
        have e : b = b - 1 + 1 := by omega
        have hl1 : (lefts k s b).length = (lefts k s (b - 1)).length + 1 := by
          conv_lhs => rw [e]
          rw [lefts_succ]; simp [hbit]
        have := lefts_zeros k s (b - 1)
        have := zeros_mono k hlt
        have hmono : ∀ {a b : Nat}, a ≤ b → (lefts k s a).length ≤ (lefts k s b).length := by
          intro a b hab
          induction b with
          | zero => have : a = 0 := by omega
                    subst this; exact Nat.le_refl _
          | succ b ih =>
            rcases Nat.lt_or_ge b a with h' | h'
            · have : a = b + 1 := by omega
              subst this; exact Nat.le_refl _
            · rw [lefts_succ, List.length_append]; have := ih h'; omega
        have := hmono hlt
        omega
    subst hcb'
    refine ⟨z.reverse.map Prod.fst, by simp [hzl], ?_, ?_, ?_⟩
    · apply lefts_getElem c z.reverse hz1
      rw [List.filterMap_reverse, ← h2, List.reverse_reverse]
    · rw [← hf, List.filterMap_reverse, List.reverse_reverse]; exact h3
    · rw [climb_foldr, ← hroot, h4]
      have hzz : (z.reverse.map Prod.fst).zip k.bits = z.reverse := by
        have e : k.bits = (List.range c).map k.bit ++ k.bits.drop c := by
          have : k.bits.take c = (List.range c).map k.bit := by
            simp [Key.bits, ← List.map_take, List.take_range, Nat.min_eq_left hb]
          rw [← this, List.take_append_drop]
        rw [e, ← hz1, ← List.append_nil (z.reverse.map Prod.fst), List.zip_append (by simp), List.zip_nil_left, List.append_nil]
        exact (List.zip_of_prod rfl rfl).symm
      rw [hzz, List.foldr_reverse]

theorem verifyLoop_total {H : Hasher D} (bits : List Bool) (left right : List D) (h : D) :
    (∃ h', SparseMerkleRangeProof.verifyLoop H bits left right h = .ok h') ∨ ∃ msg, SparseMerkleRangeProof.verifyLoop H bits left right h = .error (.err msg) := by
  induction bits generalizing left right h with
  | nil => exact .inl ⟨h, rfl⟩
  | cons b bits ih =>
    cases b with
    | true =>
      cases left with
      | nil => exact .inr ⟨_, rfl⟩
      | cons l left => exact ih _ _ _
    | false =>
      cases right with
      | nil => exact .inr ⟨_, rfl⟩
      | cons l left => exact ih _ _ _

theorem range_verify_total {H : Hasher D} [DecidableEq D] {p : SparseMerkleRangeProof D} {root : D} {leaf : LeafNode D} {left : List D}
    (hl : left.length + p.rightSiblings.length ≤ 256) : p.verify H root leaf left = .ok () ∨ ∃ msg, p.verify H root leaf left = .error (.err msg) := by
  unfold SparseMerkleRangeProof.verify
  simp only [hl, if_true]
  rcases verifyLoop_total (H := H) (leaf.keyHash.bits.reverse.drop (256 - (left.length + p.rightSiblings.length))) left p.rightSiblings (leaf.hash H) with ⟨h', hh⟩ | ⟨msg, hh⟩
  · simp only [hh, Res.ok_bind, ensure]
    split
    · exact .inl rfl
    · exact .inr ⟨_, rfl⟩
  · simp only [hh, Res.error_bind]
    exact .inr ⟨_, rfl⟩

/-! ### the whole check -/

theorem half_left : ∀ (h : Fin 4) (n : Nibble), n.val.testBit h.val = true → (InternalNode.childAndSiblingHalfStart n h.val).2 + 2 ^ h.val ≤ n.val := by
  decide +kernel

/-- No input hashed for a sibling on the left of the path of `k` hashes to the placeholder. -/
def LeftFree (H : Hasher D) (k : Key) (E : List (Key × D)) : Prop :=
  ∀ i, i < 256 → k.bit i = true → NoPlaceholder H (smtInputs H (255 - i) (offPath k i E))

theorem NoPlaceholder.leftFree {H : Hasher D} {k : Key} {E : List (Key × D)} (h : NoPlaceholder H (smtInputs H 256 E)) : LeftFree H k E :=
  fun _ hi _ => h.mono (sibling_inputs H k E hi)

/-- The left siblings computed from the partial nodes. -/
theorem RInv.siblings {H : Hasher D} [DecidableEq D] {v : Version} {m : Bool} {P : List (Key × Value)} {z : Zip D} {r : Restore D}
    (h : RInv H v m P z true r) (hN : (z.entries.map Prod.fst).Nodup) (hc : LeftFree H z.key z.entries) :
    ∀ i, i < 256 → z.key.bit i = true → (match r.partialNodes[i / 4]? with
      | none => Except.ok H.placeholder
      | some info => Restore.computeLeftSibling H info (z.key.nibble (i / 4)) (3 - i % 4)) = (.ok (sibling H z.key z.entries i) : Res D) := by
  intro i hi hbit
  have g := h.core.good
  have hlt := g.lt
  have hi4 : i = 4 * (i / 4) + i % 4 := by omega
  have hj64 : i / 4 < 64 := by omega
  have ht : i % 4 < 4 := Nat.mod_lt _ (by omega)
  generalize hj : i / 4 = j at *
  generalize htt : i % 4 = t at *
  by_cases hle : j ≤ z.n
  · have hperm := Zip.offPath_perm g hN hle ht
    have hinp := hc i hi hbit
    rw [hi4] at hinp
    have hb : (z.key.nibble j).val.testBit (3 - t) = true := by rw [← Zip.bit_key hj64 ht, ← hi4]; exact hbit
    have hl := half_left ⟨3 - t, by omega⟩ (z.key.nibble j) hb
    have hs := half_starts ⟨3 - t, by omega⟩ (z.key.nibble j)
    simp only at hl hs
    have hplen : (z.path j).length = j := Zip.path_length (by omega)
    have key : ∀ info : InternalInfo D, (∀ i', i' < z.key.nibble j → info.children i' = (z.level j i').info H) →
        Restore.computeLeftSibling H info (z.key.nibble j) (3 - t) = .ok (sibling H z.key z.entries i) := by
      intro info hinfo
      unfold Restore.computeLeftSibling
      have hn : 256 - 4 * ((z.path j).length + 1) + (3 - t) = 255 - (4 * j + t) := by rw [hplen]; omega
      rw [leftSiblingImpl_eq (T := z.level j) (p := z.path j) (by omega) (fun i' => g.level_wf hle i') (3 - t) (by omega) hs.2.2.2.2.1 hs.2.2.2.2.2.1
        (by
          intro i' hi'
          apply hinfo
          rw [mem_rangeL] at hi'
          show i'.val < (z.key.nibble j).val
          omega)
        (by
          rw [hn]
          exact hinp.mono (fun x hx => smtInputs_perm H _ hperm.symm x hx))]
      simp only [Res.ok_bind, Res.pure_eq]
      rw [hn, sibling, hi4, smt_perm H _ hperm]
    by_cases hjn : j < z.n
    · rw [h.core.get_up hjn]
      apply key
      intro i' hi'
      have : i' ≠ z.key.nibble j := by rintro rfl; exact Nat.lt_irrefl _ hi'
      simp only [Zip.upInfo, this, if_false, Zip.level, hjn, if_true]
    · have : j = z.n := by omega
      subst this
      rw [h.core.get_bot]
      apply key
      intro i' _
      simp only [Zip.botInfo, Zip.level, Nat.lt_irrefl, if_false]
  · have hnone : r.partialNodes[j]? = none := by
      rw [List.getElem?_eq_none_iff, h.core.length]; omega
    rw [hnone]
    have hoff : offPath z.key i z.entries = [] := by
      unfold offPath
      rw [List.filter_eq_nil_iff]
      intro e he hcon
      rw [Bool.and_eq_true, bne_iff_ne] at hcon
      obtain ⟨j', hj', i', he'⟩ := Zip.mem_entries.1 he
      have hii := Zip.agree_level g hj' he' (b := i) (by omega) hcon.1
      subst hii
      rcases Nat.lt_or_ge j' z.n with hlt' | hge'
      · rw [Zip.level_key g hlt'] at he'
        simp [entries] at he'
      · have : j' = z.n := by omega
        subst this
        obtain ⟨d, hd⟩ := h.pen.leaf rfl
        simp only [Zip.level, Nat.lt_irrefl, if_false, hd, entries, List.mem_singleton] at he'
        subst he'
        exact hcon.2 rfl
    simp [sibling, hoff]

theorem RInv.nodup {H : Hasher D} {v : Version} {m : Bool} {P : List (Key × Value)} {z : Zip D} {pend : Bool} {r : Restore D}
    (h : RInv H v m P z pend r) : (z.entries.map Prod.fst).Nodup := by
  rw [h.ents, hashed, List.map_map, List.Nodup, List.pairwise_map]
  refine h.sorted.imp ?_
  intro a b hab heq
  simp only [Function.comp] at heq
  rw [heq] at hab
  exact Key.lt_irrefl _ hab

/-- `verify` on what has been received, as a check of the trimmed left siblings. -/
theorem RInv.verify_eq {H : Hasher D} [DecidableEq D] {v : Version} {m : Bool} {P : List (Key × Value)} {z : Zip D} {r : Restore D}
    (h : RInv H v m P z true r) {e : Key × Value} (he : P.getLast? = some e) (hc : LeftFree H e.1 (hashed H P))
    (proof : SparseMerkleRangeProof D) :
    r.verify H proof = (ensure (decide (proof.rightSiblings.length ≤ zeros e.1 256)) "Too many right siblings in the proof.").bind (fun _ =>
      (Restore.trimLeft H proof.rightSiblings.length e.1.bits.reverse (lefts e.1 (sibling H e.1 (hashed H P)) 256) (zeros e.1 256)).bind (fun left =>
        proof.verify H r.expectedRootHash ⟨e.1, H.value e.2⟩ left.reverse)) := by
  have hk := h.key e he
  have hs := h.siblings h.nodup (by rw [h.ents, hk]; exact hc)
  rw [hk, h.ents] at hs
  have hcl := collectLeft_eq hs 256 0 rfl
  unfold Restore.verify
  rw [h.prev, he]
  simp only [Option.map_some]
  have hz : lefts e.1 (sibling H e.1 (hashed H P)) 0 = [] := rfl
  have hz' : zeros e.1 0 = 0 := rfl
  rw [hz, hz', ← List.range_eq_range'] at hcl
  rw [hcl]
  rfl

/-- What a successful check of a chunk establishes. -/
theorem RInv.verify_ok {H : Hasher D} [DecidableEq D] {v : Version} {m : Bool} {P : List (Key × Value)} {z : Zip D} {r : Restore D}
    (h : RInv H v m P z true r) {e : Key × Value} (he : P.getLast? = some e) (hc : LeftFree H e.1 (hashed H P))
    {proof : SparseMerkleRangeProof D} (hv : r.verify H proof = .ok ()) :
    ∃ sibs, ChunkChecked H (hashed H P) e.1 (H.value e.2) r.expectedRootHash proof.rightSiblings sibs := by
  rw [h.verify_eq he hc] at hv
  have hR : proof.rightSiblings.length ≤ zeros e.1 256 := by
    by_contra hn
    simp only [ensure, hn, decide_false, Bool.false_eq_true, if_false] at hv
    cases hv
  simp only [hR, decide_true, ensure_true] at hv
  obtain ⟨b, hb, h1, h2, h3, h4⟩ := trimLeft_spec (H := H) (s := sibling H e.1 (hashed H P)) 256 hR
  have hbits : e.1.bits.reverse = ((List.range 256).map e.1.bit).reverse := rfl
  rw [hbits] at hv
  have hv : (Restore.trimLeft H proof.rightSiblings.length ((List.range 256).map e.1.bit).reverse (lefts e.1 (sibling H e.1 (hashed H P)) 256) (zeros e.1 256)).bind (fun left =>
        proof.verify H r.expectedRootHash ⟨e.1, H.value e.2⟩ left.reverse) = .ok () := hv
  rw [h1] at hv
  obtain ⟨sibs, l1, l2, l3, l4⟩ := range_verify_ok hb h3 (h4.imp_left (fun h => h)) hv
  subst l1
  exact ⟨sibs, hb, ⟨l2, l3⟩, h2, l4⟩

/-- Computing a left sibling does not panic when all hashes are known. -/
theorem leftSiblingImpl_total {H : Hasher D} [DecidableEq D] {f : Nibble → Option (ChildInfo D)} (h : Nat) (start : Nat) (hend : start + 2 ^ h ≤ 16)
    (hf : ∀ i ∈ rangeL start (2 ^ h), ∀ c, f i ≠ some (.internal none c)) : ∃ p, Restore.computeLeftSiblingImpl H f h start = .ok p := by
  induction h generalizing start with
  | zero =>
    have hr : rangeL start (2 ^ 0) = [Fin.ofNat 16 start] := by
      have key : ∀ s : Fin 16, rangeL s.val (2 ^ 0) = [Fin.ofNat 16 s.val] := by decide
      exact key ⟨start, by omega⟩
    rw [hr] at hf
    have hf := hf _ List.mem_cons_self
    unfold Restore.computeLeftSiblingImpl
    cases hc : f (Fin.ofNat 16 start) with
    | none => exact ⟨_, rfl⟩
    | some c =>
      cases c with
      | leaf l => exact ⟨_, rfl⟩
      | internal hash lc =>
        cases hash with
        | none => exact absurd hc (hf lc)
        | some d => exact ⟨_, rfl⟩
  | succ h ih =>
    have hpow : 2 ^ (h + 1) = 2 ^ h + 2 ^ h := by rw [Nat.pow_succ]; omega
    have hpos : 0 < 2 ^ h := Nat.pow_pos (by omega)
    obtain ⟨p, hp⟩ := ih start (by omega) (fun i hi => hf i (by rw [mem_rangeL] at hi ⊢; omega))
    obtain ⟨q, hq⟩ := ih (start + 2 ^ h) (by omega) (fun i hi => hf i (by rw [mem_rangeL] at hi ⊢; omega))
    unfold Restore.computeLeftSiblingImpl
    rw [hp, hq]
    simp only [Res.ok_bind]
    split
    · exact ⟨_, rfl⟩
    · split <;> exact ⟨_, rfl⟩

theorem VTree.info_known {H : Hasher D} (t : VTree D) (c : Option Nat) : t.info H ≠ some (.internal none c) := by
  cases t <;> simp [VTree.info]

theorem RInv.siblings_total {H : Hasher D} [DecidableEq D] {v : Version} {m : Bool} {P : List (Key × Value)} {z : Zip D} {pend : Bool} {r : Restore D}
    (h : RInv H v m P z pend r) :
    ∃ s : Nat → D, ∀ i, i < 256 → z.key.bit i = true → (match r.partialNodes[i / 4]? with
      | none => Except.ok H.placeholder
      | some info => Restore.computeLeftSibling H info (z.key.nibble (i / 4)) (3 - i % 4)) = (.ok (s i) : Res D) := by
  have hex : ∀ i, ∃ d : D, i < 256 → z.key.bit i = true → (match r.partialNodes[i / 4]? with
      | none => Except.ok H.placeholder
      | some info => Restore.computeLeftSibling H info (z.key.nibble (i / 4)) (3 - i % 4)) = (.ok d : Res D) := by
    intro i
    by_cases hi : i < 256 ∧ z.key.bit i = true
    swap
    · exact ⟨H.placeholder, fun a b => absurd ⟨a, b⟩ hi⟩
    obtain ⟨hi, hbit⟩ := hi
    have g := h.core.good
    have hlt := g.lt
    have hi4 : i = 4 * (i / 4) + i % 4 := by omega
    have hj64 : i / 4 < 64 := by omega
    have ht : i % 4 < 4 := Nat.mod_lt _ (by omega)
    generalize hj : i / 4 = j at *
    generalize htt : i % 4 = t at *
    have hb : (z.key.nibble j).val.testBit (3 - t) = true := by rw [← Zip.bit_key hj64 ht, ← hi4]; exact hbit
    have hl := half_left ⟨3 - t, by omega⟩ (z.key.nibble j) hb
    have hs := half_starts ⟨3 - t, by omega⟩ (z.key.nibble j)
    simp only at hl hs
    have key : ∀ info : InternalInfo D, (∀ i', i' < z.key.nibble j → ∀ c, info.children i' ≠ some (.internal none c)) →
        ∃ d, Restore.computeLeftSibling H info (z.key.nibble j) (3 - t) = .ok d := by
      intro info hinfo
      obtain ⟨p, hp⟩ := leftSiblingImpl_total (H := H) (f := info.children) (3 - t) (InternalNode.childAndSiblingHalfStart (z.key.nibble j) (3 - t)).2
        hs.2.2.2.2.2.1 (by
          intro i' hi'
          apply hinfo
          rw [mem_rangeL] at hi'
          show i'.val < (z.key.nibble j).val
          omega)
      refine ⟨p.1, ?_⟩
      unfold Restore.computeLeftSibling
      rw [hp]; rfl
    by_cases hle : j ≤ z.n
    · by_cases hjn : j < z.n
      · obtain ⟨d, hd⟩ := key (z.upInfo H v j) (by
          intro i' hi' c
          have : i' ≠ z.key.nibble j := by rintro rfl; exact Nat.lt_irrefl _ hi'
          simp only [Zip.upInfo, this, if_false]
          exact VTree.info_known _ c)
        exact ⟨d, fun _ _ => by rw [h.core.get_up hjn]; exact hd⟩
      · have : j = z.n := by omega
        subst this
        obtain ⟨d, hd⟩ := key (z.botInfo H v) (by intro i' _ c; exact VTree.info_known _ c)
        exact ⟨d, fun _ _ => by rw [h.core.get_bot]; exact hd⟩
    · refine ⟨H.placeholder, fun _ _ => ?_⟩
      have hnone : r.partialNodes[j]? = none := by
        rw [List.getElem?_eq_none_iff, h.core.length]; omega
      rw [hnone]
  exact ⟨fun i => Classical.choose (hex i), fun i => Classical.choose_spec (hex i)⟩

/-- The check of a chunk does not panic. -/
theorem RInv.verify_total {H : Hasher D} [DecidableEq D] {v : Version} {m : Bool} {P : List (Key × Value)} {z : Zip D} {pend : Bool} {r : Restore D}
    (h : RInv H v m P z pend r) {e : Key × Value} (he : P.getLast? = some e)
    (proof : SparseMerkleRangeProof D) : r.verify H proof = .ok () ∨ ∃ msg, r.verify H proof = .error (.err msg) := by
  have hk := h.key e he
  obtain ⟨s, hs⟩ := h.siblings_total
  rw [hk] at hs
  have hcl := collectLeft_eq hs 256 0 rfl
  have hz : lefts e.1 s 0 = [] := rfl
  have hz' : zeros e.1 0 = 0 := rfl
  rw [hz, hz', ← List.range_eq_range'] at hcl
  have hv : r.verify H proof = (ensure (decide (proof.rightSiblings.length ≤ zeros e.1 256)) "Too many right siblings in the proof.").bind (fun _ =>
      (Restore.trimLeft H proof.rightSiblings.length e.1.bits.reverse (lefts e.1 s 256) (zeros e.1 256)).bind (fun left =>
        proof.verify H r.expectedRootHash ⟨e.1, H.value e.2⟩ left.reverse)) := by
    unfold Restore.verify
    rw [h.prev, he]
    simp only [Option.map_some]
    rw [hcl]
    rfl
  rw [hv]
  by_cases hR : proof.rightSiblings.length ≤ zeros e.1 256
  · obtain ⟨b, hb, h1, h2, h3, h4⟩ := trimLeft_spec (H := H) (s := s) 256 hR
    have hbits : e.1.bits.reverse = ((List.range 256).map e.1.bit).reverse := rfl
    rw [hbits, h1]
    simp only [hR, decide_true, ensure_true]
    show SparseMerkleRangeProof.verify _ _ _ _ _ = _ ∨ ∃ msg, SparseMerkleRangeProof.verify _ _ _ _ _ = _
    have hl := lefts_zeros e.1 s b
    exact range_verify_total (by rw [List.length_reverse]; omega)
  · right
    refine ⟨"Too many right siblings in the proof.", ?_⟩
    simp only [ensure, hR, decide_false, Bool.false_eq_true, if_false]
    rfl

end Verif.Jmt
