import Verif.Proofs.Patricia
/-!
Paths: digits, terminator, compact encoding.
-/

set_option autoImplicit false

namespace Verif.Pmt

/-- Digits as the model has them. -/
def toNibs (l : List Nib) : Nibbles := l.map Fin.val

@[simp] theorem toNibs_nil : toNibs [] = [] := rfl
@[simp] theorem toNibs_cons (a : Nib) (l : List Nib) : toNibs (a :: l) = a.val :: toNibs l := rfl
@[simp] theorem toNibs_append (a b : List Nib) : toNibs (a ++ b) = toNibs a ++ toNibs b := by simp [toNibs]
@[simp] theorem toNibs_length (l : List Nib) : (toNibs l).length = l.length := by simp [toNibs]

theorem toNibs_inj {a b : List Nib} : toNibs a = toNibs b ↔ a = b := by
  constructor
  · intro h
    induction a generalizing b with
    | nil => cases b with
      | nil => rfl
      | cons y u => cases h
    | cons x t ih => cases b with
      | nil => cases h
      | cons y u =>
        simp only [toNibs_cons, List.cons.injEq] at h
        rw [Fin.ext h.1, ih h.2]
  · rintro rfl; rfl

theorem toNibs_lt (l : List Nib) (x : Nat) (h : x ∈ toNibs l) : x < 16 := by
  simp only [toNibs, List.mem_map] at h
  obtain ⟨i, _, rfl⟩ := h
  exact i.isLt

/-- The path of a leaf. -/
def leafPath (l : List Nib) : Nibbles := toNibs l ++ [16]

theorem leafPath_inj {a b : List Nib} : leafPath a = leafPath b ↔ a = b := by
  unfold leafPath
  rw [List.append_left_inj, toNibs_inj]

/-- The digits of a byte string. -/
def nibsOf (k : Bytes) : List Nib :=
  k.flatMap (fun b => [⟨b.toNat / 16, by have := b.toNat_lt; omega⟩, ⟨b.toNat % 16, by omega⟩])

theorem nibsOf_length (k : Bytes) : (nibsOf k).length = 2 * k.length := by
  induction k with
  | nil => rfl
  | cons b t ih => simp only [nibsOf, List.flatMap_cons, List.length_append, List.length_cons] at ih ⊢; simp only [List.length_nil]; omega

theorem fromRaw_nibs (k : Bytes) : Nibbles.fromRaw k false = toNibs (nibsOf k) := by
  induction k with
  | nil => rfl
  | cons b t ih =>
    simp only [Nibbles.fromRaw, nibsOf, List.flatMap_cons, List.append_nil, toNibs_append, Bool.false_eq_true, if_false] at ih ⊢
    rw [ih]; rfl

theorem fromRaw_leaf (k : Bytes) : Nibbles.fromRaw k true = leafPath (nibsOf k) := by
  have := fromRaw_nibs k
  simp only [Nibbles.fromRaw, Bool.false_eq_true, if_false, List.append_nil] at this
  simp only [Nibbles.fromRaw, if_true, this, leafPath]

theorem path_eq (k : Bytes) : Trie.path k = leafPath (nibsOf k) := fromRaw_leaf k

theorem byte_ext {a b : UInt8} (h1 : a.toNat / 16 = b.toNat / 16) (h2 : a.toNat % 16 = b.toNat % 16) : a = b := by
  apply UInt8.toNat_inj.1
  omega

theorem nibsOf_inj {a b : Bytes} (h : nibsOf a = nibsOf b) : a = b := by
  induction a generalizing b with
  | nil =>
    cases b with
    | nil => rfl
    | cons y u => simp [nibsOf] at h
  | cons x t ih =>
    cases b with
    | nil => simp [nibsOf] at h
    | cons y u =>
      simp only [nibsOf, List.flatMap_cons, List.cons_append, List.nil_append, List.cons.injEq, Fin.mk.injEq] at h
      rw [byte_ext h.1 h.2.1, ih h.2.2]

/-! ### Pairs of digits -/

theorem ofNat_toNat {n : Nat} (h : n < 256) : (UInt8.ofNat n).toNat = n := by
  rw [UInt8.toNat_ofNat']; exact Nat.mod_eq_of_lt h

/-- Bytes of an even number of digits. -/
def pack : List Nib → Bytes
  | a :: b :: t => UInt8.ofNat (a.val * 16 + b.val) :: pack t
  | _ => []

theorem pairs_toNibs : ∀ l : List Nib, Nibbles.pairs (toNibs l) = pack l
  | [] => rfl
  | [_] => rfl
  | a :: b :: t => by simp only [toNibs_cons, Nibbles.pairs, pack, pairs_toNibs t]

theorem nibsOf_pack : ∀ {l : List Nib}, l.length % 2 = 0 → nibsOf (pack l) = l
  | [], _ => rfl
  | [_], h => by simp at h
  | a :: b :: t, h => by
    have := nibsOf_pack (l := t) (by simp only [List.length_cons] at h; omega)
    have ha := a.isLt
    have hb := b.isLt
    simp only [nibsOf, pack, List.flatMap_cons, List.cons_append, List.nil_append] at this ⊢
    rw [this]
    simp only [List.cons.injEq, and_true]
    constructor
    · apply Fin.ext; simp only [ofNat_toNat (show a.val * 16 + b.val < 256 by omega)]; omega
    · apply Fin.ext; simp only [ofNat_toNat (show a.val * 16 + b.val < 256 by omega)]; omega

theorem pack_nibsOf (k : Bytes) : pack (nibsOf k) = k := by
  induction k with
  | nil => rfl
  | cons b t ih =>
    simp only [nibsOf, List.flatMap_cons, List.cons_append, List.nil_append, pack] at ih ⊢
    rw [ih]
    congr 1
    apply UInt8.toNat_inj.1
    have := b.toNat_lt
    rw [ofNat_toNat (by omega)]
    omega

theorem pack_length : ∀ l : List Nib, (pack l).length = l.length / 2
  | [] => rfl
  | [_] => by simp [pack]
  | a :: b :: t => by simp only [pack, List.length_cons, pack_length t]; omega

/-! ### Compact encoding -/

/-- Compact encoding of digits, with the mark for leaves. -/
def compact (leaf : Bool) (l : List Nib) : Bytes :=
  let flag := if leaf then 0x20 else 0x00
  match l with
  | [] => [UInt8.ofNat flag]
  | a :: t => if (a :: t).length % 2 = 1 then UInt8.ofNat (0x10 + a.val + flag) :: pack t else UInt8.ofNat flag :: pack (a :: t)

theorem isLeaf_leafPath (l : List Nib) : Nibbles.isLeaf (leafPath l) = .ok true := by
  simp [Nibbles.isLeaf, leafPath]

theorem isLeaf_toNibs {l : List Nib} (h : l ≠ []) : Nibbles.isLeaf (toNibs l) = .ok false := by
  unfold Nibbles.isLeaf
  rcases hl : (toNibs l).getLast? with _ | x
  · rw [List.getLast?_eq_none_iff] at hl
    exact absurd (toNibs_inj.1 (hl.trans toNibs_nil.symm)) h
  · have := toNibs_lt l x (List.mem_of_getLast? hl)
    have hne : (x == 16) = false := by simp; omega
    simp [hne]

theorem encodeCompact_of {n : Nibbles} {leaf : Bool} {l : List Nib} (h1 : Nibbles.isLeaf n = .ok leaf)
    (h2 : Nibbles.body n leaf = toNibs l) : Nibbles.encodeCompact n = .ok (compact leaf l) := by
  unfold Nibbles.encodeCompact
  rw [h1]
  simp only [Res.ok_bind, h2]
  cases l with
  | nil => rfl
  | cons a t =>
    simp only [toNibs_cons, compact, List.length_cons, toNibs_length]
    split
    · rw [pairs_toNibs]; rfl
    · rw [← toNibs_cons, pairs_toNibs]; rfl

theorem encodeCompact_leaf (l : List Nib) : Nibbles.encodeCompact (leafPath l) = .ok (compact true l) :=
  encodeCompact_of (isLeaf_leafPath l) (by simp [Nibbles.body, leafPath])

theorem encodeCompact_ext {l : List Nib} (h : l ≠ []) : Nibbles.encodeCompact (toNibs l) = .ok (compact false l) :=
  encodeCompact_of (isLeaf_toNibs h) (by simp [Nibbles.body])

theorem fromCompact_even (leaf : Bool) {l : List Nib} (h : l.length % 2 = 0) :
    Nibbles.fromCompact (UInt8.ofNat (if leaf then 0x20 else 0x00) :: pack l) = .ok (if leaf then leafPath l else toNibs l) := by
  cases leaf
  · have : Nibbles.fromCompact (UInt8.ofNat 0 :: pack l) = .ok (Nibbles.fromRaw (pack l) false) := rfl
    simp only [Bool.false_eq_true, if_false, this, fromRaw_nibs, nibsOf_pack h]
  · have : Nibbles.fromCompact (UInt8.ofNat 0x20 :: pack l) = .ok (Nibbles.fromRaw (pack l) true) := rfl
    simp only [if_true, this, fromRaw_leaf, nibsOf_pack h]

theorem fromCompact_odd (leaf : Bool) (a : Nib) {l : List Nib} (h : l.length % 2 = 0) :
    Nibbles.fromCompact (UInt8.ofNat (0x10 + a.val + if leaf then 0x20 else 0x00) :: pack l)
      = .ok (if leaf then leafPath (a :: l) else toNibs (a :: l)) := by
  have ha := a.isLt
  unfold Nibbles.fromCompact
  cases leaf
  · simp only [Bool.false_eq_true, if_false]
    rw [ofNat_toNat (by omega), show (0x10 + a.val + 0) / 16 = 1 by omega, show (0x10 + a.val + 0) % 16 = a.val by omega]
    simp only [fromRaw_nibs, nibsOf_pack h, toNibs_cons]
  · simp only [if_true]
    rw [ofNat_toNat (by omega), show (0x10 + a.val + 0x20) / 16 = 3 by omega, show (0x10 + a.val + 0x20) % 16 = a.val by omega]
    simp only [fromRaw_leaf, nibsOf_pack h, leafPath, toNibs_cons, List.cons_append]

theorem fromCompact_compact (leaf : Bool) (l : List Nib) :
    Nibbles.fromCompact (compact leaf l) = .ok (if leaf then leafPath l else toNibs l) := by
  cases l with
  | nil => cases leaf <;> rfl
  | cons a t =>
    unfold compact
    simp only
    split
    · next h => exact fromCompact_odd leaf a (by simp only [List.length_cons] at h; omega)
    · next h => exact fromCompact_even leaf (by omega)

theorem compact_length (leaf : Bool) (l : List Nib) : (compact leaf l).length = l.length / 2 + 1 := by
  cases l with
  | nil => rfl
  | cons a t =>
    unfold compact
    simp only
    split
    · next h => simp only [List.length_cons, pack_length] at h ⊢; omega
    · simp only [List.length_cons, pack_length]

/-! ### Common prefix -/

theorem commonPrefix_toNibs (p q : List Nib) : Nibbles.commonPrefix (leafPath p) (toNibs q) = lcp p q := by
  induction p generalizing q with
  | nil =>
    cases q with
    | nil => simp [leafPath, Nibbles.commonPrefix, lcp]
    | cons b u =>
      have := b.isLt
      simp only [leafPath, toNibs_nil, List.nil_append, toNibs_cons, Nibbles.commonPrefix, lcp]
      rw [if_neg (by omega)]
  | cons a t ih =>
    cases q with
    | nil => simp [leafPath, Nibbles.commonPrefix, lcp]
    | cons b u =>
      have e : leafPath (a :: t) = a.val :: leafPath t := rfl
      simp only [e, toNibs_cons, Nibbles.commonPrefix, lcp, ih, Fin.val_inj]

theorem commonPrefix_leaf (p q : List Nib) :
    Nibbles.commonPrefix (leafPath p) (leafPath q) = if p = q then p.length + 1 else lcp p q := by
  induction p generalizing q with
  | nil =>
    cases q with
    | nil => simp [leafPath, Nibbles.commonPrefix]
    | cons b u =>
      have := b.isLt
      simp only [leafPath, toNibs_nil, List.nil_append, toNibs_cons, List.cons_append, Nibbles.commonPrefix, lcp]
      rw [if_neg (by omega)]
      simp
  | cons a t ih =>
    cases q with
    | nil =>
      have := a.isLt
      simp only [leafPath, toNibs_nil, List.nil_append, toNibs_cons, List.cons_append, Nibbles.commonPrefix, lcp]
      rw [if_neg (by omega)]
      simp
    | cons b u =>
      have e : leafPath (a :: t) = a.val :: leafPath t := rfl
      have e2 : leafPath (b :: u) = b.val :: leafPath u := rfl
      simp only [e, e2, Nibbles.commonPrefix, lcp, ih, Fin.val_inj, List.cons.injEq, List.length_cons]
      by_cases hab : a = b
      · by_cases htu : t = u <;> simp [hab, htu]
      · simp [hab]

theorem leafPath_append (a b : List Nib) : leafPath (a ++ b) = toNibs a ++ leafPath b := by
  simp [leafPath, List.append_assoc]

theorem leafPath_drop (a b : List Nib) : (leafPath (a ++ b)).drop a.length = leafPath b := by
  rw [leafPath_append]
  have : a.length = (toNibs a).length := by simp
  rw [this, List.drop_left']
  rfl

theorem leafPath_take (a b : List Nib) : (leafPath (a ++ b)).take a.length = toNibs a := by
  rw [leafPath_append]
  have : a.length = (toNibs a).length := by simp
  rw [this, List.take_left']
  rfl

@[simp] theorem leafPath_length (a : List Nib) : (leafPath a).length = a.length + 1 := by simp [leafPath]

end Verif.Pmt
