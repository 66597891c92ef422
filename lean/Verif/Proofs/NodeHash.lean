import Verif.Jmt.NodeType
import Verif.Proofs.Key
/-! The bitmap computations of `InternalNode` in terms of the list of children in a range. -/

namespace Verif.Jmt
namespace InternalNode
variable {D : Type}

/-- Children with index in `[start, start + w)`, in order. -/
def childrenIn (n : InternalNode D) (start w : Nat) : List (Nibble × Child D) :=
  n.children.iterSorted.filter (fun ic => decide (start ≤ ic.1.val ∧ ic.1.val < start + w))

/-- Bitmap bit `j` tells whether child `j` exists. -/
def exB (n : InternalNode D) (j : Nat) : Bool := n.children.iterSorted.any (fun ic => ic.1.val == j)
def lfB (n : InternalNode D) (j : Nat) : Bool := n.children.iterSorted.any (fun ic => ic.1.val == j && ic.2.isLeaf)

theorem testBit_one_shiftLeft (i j : Nat) : (1 <<< i).testBit j = (i == j) := by
  rw [Nat.one_shiftLeft, Nat.testBit_two_pow]
  simp [beq_eq_decide]

theorem generateBitmaps_fold (l : List (Nibble × Child D)) (acc : Nat × Nat) (j : Nat) :
    let r := l.foldl (fun (acc : Nat × Nat) ic =>
      (acc.1 ||| (1 <<< ic.1.val), if ic.2.isLeaf then acc.2 ||| (1 <<< ic.1.val) else acc.2)) acc
    r.1.testBit j = (acc.1.testBit j || l.any (fun ic => ic.1.val == j)) ∧
    r.2.testBit j = (acc.2.testBit j || l.any (fun ic => ic.1.val == j && ic.2.isLeaf)) := by
  induction l generalizing acc with
  | nil => simp
  | cons ic t ih =>
    simp only [List.foldl_cons, List.any_cons]
    obtain ⟨h1, h2⟩ := ih (acc.1 ||| (1 <<< ic.1.val), if ic.2.isLeaf then acc.2 ||| (1 <<< ic.1.val) else acc.2)
    refine ⟨?_, ?_⟩
    · rw [h1, Nat.testBit_or, testBit_one_shiftLeft, Bool.or_assoc]
    · rw [h2]
      by_cases h : ic.2.isLeaf = true
      · simp only [h, if_true, Nat.testBit_or, testBit_one_shiftLeft, Bool.or_assoc, Bool.and_true]
      · simp [h]

theorem generateBitmaps_testBit (n : InternalNode D) (j : Nat) :
    n.generateBitmaps.1.testBit j = n.exB j ∧ n.generateBitmaps.2.testBit j = n.lfB j := by
  have := generateBitmaps_fold n.children.iterSorted (0, 0) j
  simpa [generateBitmaps, exB, lfB] using this

/-- The `assert_eq!(existence_bitmap | leaf_bitmap, existence_bitmap)` in `generate_bitmaps` never fires. -/
theorem leafBitmap_subset (n : InternalNode D) :
    n.generateBitmaps.1 ||| n.generateBitmaps.2 = n.generateBitmaps.1 := by
  apply Nat.eq_of_testBit_eq
  intro j
  rw [Nat.testBit_or, (generateBitmaps_testBit n j).1, (generateBitmaps_testBit n j).2]
  simp only [exB, lfB]
  cases h : n.children.iterSorted.any (fun ic => ic.1.val == j) with
  | true => simp
  | false =>
    simp only [Bool.false_or]
    rw [List.any_eq_false] at h ⊢
    intro x hx
    have := h x hx
    simp_all

/-- Bitmaps that are right on a range. -/
def BmOk (n : InternalNode D) (start w : Nat) (bm : Nat × Nat) : Prop :=
  ∀ j, start ≤ j → j < start + w → bm.1.testBit j = n.exB j ∧ bm.2.testBit j = n.lfB j

theorem bmOk_generate (n : InternalNode D) (start w : Nat) : n.BmOk start w n.generateBitmaps :=
  fun j _ _ => generateBitmaps_testBit n j

theorem range_testBit (start w : Nat) (b j : Nat) :
    (b &&& (((1 <<< w) - 1) <<< start)).testBit j = (decide (start ≤ j ∧ j < start + w) && b.testBit j) := by
  rw [Nat.testBit_and, Nat.testBit_shiftLeft, Nat.one_shiftLeft, Nat.testBit_two_pow_sub_one, Bool.and_comm]
  congr 1
  by_cases h : start ≤ j <;> simp [h]
  omega

theorem rangeBitmaps_testBit {n : InternalNode D} {start w : Nat} {bm : Nat × Nat} (h : n.BmOk start w bm) (j : Nat) :
    (rangeBitmaps start w bm).1.testBit j = (decide (start ≤ j ∧ j < start + w) && n.exB j) ∧
    (rangeBitmaps start w bm).2.testBit j = (decide (start ≤ j ∧ j < start + w) && n.lfB j) := by
  simp only [rangeBitmaps, range_testBit]
  by_cases hj : start ≤ j ∧ j < start + w
  · simp [hj, (h j hj.1 hj.2).1, (h j hj.1 hj.2).2]
  · simp [hj]

theorem BmOk.range {n : InternalNode D} {start w start' w' : Nat} {bm : Nat × Nat} (h : n.BmOk start w bm)
    (h1 : start ≤ start') (h2 : start' + w' ≤ start + w) : n.BmOk start' w' (rangeBitmaps start w bm) := by
  intro j hj1 hj2
  have := rangeBitmaps_testBit h j
  have hd : start ≤ j ∧ j < start + w := ⟨by omega, by omega⟩
  simpa [hd] using this

/-! lists of set bits -/

theorem filterMap_fst_eq (l : List Nibble) (f : Nibble → Option (Child D)) (P : Nibble → Bool) :
    ((l.filterMap (fun i => (f i).map (fun c => (i, c)))).filter (fun ic => P ic.1)).map Prod.fst =
      l.filter (fun i => P i && (f i).isSome) := by
  induction l with
  | nil => rfl
  | cons a t ih =>
    cases h : f a with
    | none => simp [h, ih]
    | some c =>
      by_cases hp : P a = true <;> simp [h, hp, ih]

theorem mem_iterSorted (cs : Children D) (i : Nibble) (c : Child D) :
    (i, c) ∈ cs.iterSorted ↔ cs.children i = some c := by
  simp only [Children.iterSorted, List.mem_filterMap, List.mem_finRange, true_and, Option.map_eq_some_iff, Prod.mk.injEq]
  constructor
  · rintro ⟨a, b, h, rfl, rfl⟩; exact h
  · intro h; exact ⟨i, c, h, rfl, rfl⟩

theorem exB_iff (n : InternalNode D) (i : Nibble) : n.exB i.val = (n.child i).isSome := by
  rw [Bool.eq_iff_iff]
  simp only [exB, List.any_eq_true, child, Children.get, Option.isSome_iff_exists]
  constructor
  · rintro ⟨⟨a, c⟩, h1, h2⟩
    have : a = i := by simpa [Fin.ext_iff] using h2
    subst this
    exact ⟨c, (mem_iterSorted _ _ _).1 h1⟩
  · rintro ⟨c, h⟩
    exact ⟨(i, c), (mem_iterSorted _ _ _).2 h, by simp⟩

theorem exB_lt {n : InternalNode D} {j : Nat} (h : n.exB j = true) : j < 16 := by
  simp only [exB, List.any_eq_true] at h
  obtain ⟨⟨a, c⟩, _, h⟩ := h
  have := a.isLt
  simp at h; omega

theorem range16_eq : List.range 16 = (List.finRange 16).map Fin.val := by decide

/-- The set bits of the range existence bitmap are the indices of the children in the range. -/
theorem setBits_eq (n : InternalNode D) (start w : Nat) (bm : Nat × Nat) (h : n.BmOk start w bm) :
    (List.range 16).filter (rangeBitmaps start w bm).1.testBit = (n.childrenIn start w).map (fun ic => ic.1.val) := by
  rw [range16_eq, List.filter_map]
  have e : (n.childrenIn start w).map (fun ic => ic.1.val) =
      ((n.childrenIn start w).map Prod.fst).map Fin.val := by rw [List.map_map]; rfl
  rw [e]
  congr 1
  simp only [childrenIn, Children.iterSorted]
  rw [filterMap_fst_eq (List.finRange 16) n.children.children (fun i => decide (start ≤ i.val ∧ i.val < start + w))]
  apply List.filter_congr
  intro i _
  simp only [Function.comp, (rangeBitmaps_testBit h i.val).1, exB_iff]
  rfl

theorem rangeBitmaps_lt {n : InternalNode D} {start w : Nat} {bm : Nat × Nat} (h : n.BmOk start w bm) {j : Nat}
    (hj : (rangeBitmaps start w bm).1.testBit j = true) : j < 16 := by
  rw [(rangeBitmaps_testBit h j).1] at hj
  simp at hj
  exact exB_lt hj.2

theorem range_eq_zero_iff (n : InternalNode D) (start w : Nat) (bm : Nat × Nat) (h : n.BmOk start w bm) :
    (rangeBitmaps start w bm).1 = 0 ↔ n.childrenIn start w = [] := by
  have e := setBits_eq n start w bm h
  constructor
  · intro h0
    rw [h0] at e
    have e0 : (List.range 16).filter (Nat.testBit 0) = [] := by simp
    rw [e0] at e
    simpa using e.symm
  · intro h0
    rw [h0] at e
    apply Nat.eq_of_testBit_eq
    intro j
    rw [Nat.zero_testBit]
    by_contra hj
    have hj : (rangeBitmaps start w bm).1.testBit j = true := by simpa using hj
    have : j ∈ (List.range 16).filter (rangeBitmaps start w bm).1.testBit := by
      simp [hj, rangeBitmaps_lt h hj]
    rw [e] at this
    simp at this

theorem countOnes_eq (n : InternalNode D) (start w : Nat) (bm : Nat × Nat) (h : n.BmOk start w bm) :
    countOnes (rangeBitmaps start w bm).1 = (n.childrenIn start w).length := by
  have e := congrArg List.length (setBits_eq n start w bm h)
  rw [List.length_map] at e
  rw [countOnes, List.countP_eq_length_filter, e]

theorem find?_eq_head?_filter {α : Type} (p : α → Bool) (l : List α) : l.find? p = (l.filter p).head? := by
  induction l with
  | nil => rfl
  | cons a t ih =>
    rw [List.find?_cons, List.filter_cons]
    cases h : p a
    · exact ih
    · simp

theorem onlyChildIndex_eq (n : InternalNode D) (start w : Nat) (bm : Nat × Nat) (h : n.BmOk start w bm)
    {i : Nibble} {c : Child D} {t : List (Nibble × Child D)} (hc : n.childrenIn start w = (i, c) :: t) :
    onlyChildIndex (rangeBitmaps start w bm).1 = i := by
  rw [onlyChildIndex, trailingZeros, find?_eq_head?_filter, setBits_eq n start w bm h, hc]
  simp [Fin.ofNat_val_eq_self]

theorem leaf_range_ne_zero_iff (n : InternalNode D) (start w : Nat) (bm : Nat × Nat) (h : n.BmOk start w bm) :
    (rangeBitmaps start w bm).2 ≠ 0 ↔ ∃ ic ∈ n.childrenIn start w, ic.2.isLeaf = true := by
  have hb := fun j => (rangeBitmaps_testBit h j).2
  constructor
  · intro h0
    obtain ⟨j, hj⟩ := Nat.exists_testBit_of_ne_zero h0
    rw [hb] at hj
    simp only [Bool.and_eq_true, decide_eq_true_eq, lfB, List.any_eq_true] at hj
    obtain ⟨hr, ic, hm, he, hl⟩ := hj
    refine ⟨ic, ?_, hl⟩
    rw [childrenIn, List.mem_filter]
    refine ⟨hm, ?_⟩
    have : ic.1.val = j := by simpa using he
    rw [this]; simpa using hr
  · rintro ⟨ic, hm, hl⟩ h0
    have := hb ic.1.val
    rw [h0, Nat.zero_testBit] at this
    rw [childrenIn, List.mem_filter] at hm
    have hr : start ≤ ic.1.val ∧ ic.1.val < start + w := by simpa using hm.2
    simp only [hr, and_self, decide_true, Bool.true_and, lfB] at this
    have h2 := List.any_eq_false.1 this.symm ic hm.1
    simp [hl] at h2

theorem childrenIn_mem {n : InternalNode D} {start w : Nat} {i : Nibble} {c : Child D} :
    (i, c) ∈ n.childrenIn start w ↔ n.child i = some c ∧ start ≤ i.val ∧ i.val < start + w := by
  rw [childrenIn, List.mem_filter, mem_iterSorted]; simp [child, Children.get]

/-- "Only one child in the range and it is a leaf, or the range has width 1". -/
def stopAt (n : InternalNode D) (start h : Nat) : Bool :=
  match n.childrenIn start (2 ^ h) with
  | [(_, c)] => h == 0 || c.isLeaf
  | _ => h == 0

theorem stop_iff (n : InternalNode D) (start h : Nat) (bm : Nat × Nat) (hb : n.BmOk start (2 ^ h) bm) :
    (2 ^ h = 1 ∨ (countOnes (rangeBitmaps start (2 ^ h) bm).1 = 1 ∧ (rangeBitmaps start (2 ^ h) bm).2 ≠ 0)) ↔
      n.stopAt start h = true := by
  rw [countOnes_eq n start _ bm hb, leaf_range_ne_zero_iff n start _ bm hb]
  have h0 : 2 ^ h = 1 ↔ h = 0 := by simp
  rw [h0, stopAt]
  split
  · rename_i i c e; simp [e]
  · rename_i hne
    simp only [beq_iff_eq, or_iff_left_iff_imp]
    rintro ⟨hl, -⟩
    exfalso
    obtain ⟨x, hx⟩ := List.length_eq_one_iff.1 hl
    exact hne x.1 x.2 hx

/-- Hash of the range `[start, start + 2 ^ h)` of an internal node, in terms of the children. -/
def sub (H : Hasher D) (n : InternalNode D) : (h start : Nat) → D
  | 0, start =>
    match n.childrenIn start 1 with
    | [] => H.placeholder
    | (_, c) :: _ => c.hash
  | h + 1, start =>
    match n.childrenIn start (2 ^ (h + 1)) with
    | [] => H.placeholder
    | (_, c) :: _ =>
      if n.stopAt start (h + 1) then c.hash
      else H.node (sub H n h start) (sub H n h (start + 2 ^ h))

theorem merkleHash_eq_sub (H : Hasher D) (n : InternalNode D) (h start : Nat) (bm : Nat × Nat)
    (hb : n.BmOk start (2 ^ h) bm) : merkleHash H n h start bm = sub H n h start := by
  induction h generalizing start bm with
  | zero =>
    unfold merkleHash sub
    simp only [range_eq_zero_iff n start _ bm hb]
    cases hc : n.childrenIn start 1 with
    | nil => simp
    | cons ic t =>
      obtain ⟨i, c⟩ := ic
      have hch : n.child i = some c := (childrenIn_mem.1 (hc ▸ List.mem_cons_self : (i, c) ∈ n.childrenIn start 1)).1
      have hi := onlyChildIndex_eq n start 1 bm (by simpa using hb) hc
      simp [hi, hch]
  | succ h ih =>
    unfold merkleHash sub
    simp only [range_eq_zero_iff n start _ bm hb, stop_iff n start (h + 1) bm hb]
    have hw : 2 ^ (h + 1) / 2 = 2 ^ h := by rw [Nat.pow_succ]; omega
    have hw2 : 2 ^ (h + 1) = 2 ^ h + 2 ^ h := by rw [Nat.pow_succ]; omega
    cases hc : n.childrenIn start (2 ^ (h + 1)) with
    | nil => simp
    | cons ic t =>
      obtain ⟨i, c⟩ := ic
      have hch : n.child i = some c := (childrenIn_mem.1 (hc ▸ List.mem_cons_self : (i, c) ∈ n.childrenIn start _)).1
      have hi := onlyChildIndex_eq n start _ bm hb hc
      have r1 := ih start (rangeBitmaps start (2 ^ (h + 1)) bm) (hb.range (Nat.le_refl _) (by rw [hw2]; exact Nat.add_le_add_left (Nat.le_add_right _ _) _))
      have r2 := ih (start + 2 ^ h) (rangeBitmaps start (2 ^ (h + 1)) bm) (hb.range (Nat.le_add_right _ _) (by rw [hw2, Nat.add_assoc]; exact Nat.le_refl _))
      simp [hi, hch, hw, r1, r2]

theorem hash_eq_sub (H : Hasher D) (n : InternalNode D) : n.hash H = sub H n 4 0 :=
  merkleHash_eq_sub H n 4 0 _ (bmOk_generate n _ _)

end InternalNode
end Verif.Jmt
