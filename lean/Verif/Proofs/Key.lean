import Mathlib.Logic.Basic
import Mathlib.Tactic.ByContra
import Verif.Jmt.Key
/-! Lemmas about the byte, nibble and bit views of keys. -/

namespace Verif.Jmt

def byteHi (b : UInt8) : Nibble := Fin.ofNat 16 (b.toNat >>> 4)
def byteLo (b : UInt8) : Nibble := Fin.ofNat 16 (b.toNat &&& 0x0F)
def byteNibs (b : UInt8) : List Nibble := [byteHi b, byteLo b]
/-- The four bits of a nibble, most significant first. -/
def nibBits (n : Nibble) : List Bool := [n.val.testBit 3, n.val.testBit 2, n.val.testBit 1, n.val.testBit 0]
def byteBit (b : UInt8) (j : Nat) : Bool := (b.toNat >>> (7 - j)) &&& 1 != 0
def byteBits (b : UInt8) : List Bool := (List.range 8).map (byteBit b)

theorem range_two_mul_succ (n : Nat) :
    List.range (2 * (n + 1)) = 0 :: 1 :: (List.range (2 * n)).map (· + 2) := by
  rw [show 2 * (n + 1) = 2 + 2 * n by omega, List.range_add]
  simp [List.range_succ, Nat.add_comm]

theorem range_eight_mul_succ (n : Nat) :
    List.range (8 * (n + 1)) = List.range 8 ++ (List.range (8 * n)).map (8 + ·) := by
  rw [show 8 * (n + 1) = 8 + 8 * n by omega, List.range_add]

def nibOf (l : List UInt8) (i : Nat) : Nibble :=
  if i % 2 = 0 then Fin.ofNat 16 ((l.getD (i / 2) 0).toNat >>> 4)
  else Fin.ofNat 16 ((l.getD (i / 2) 0).toNat &&& 0x0F)

theorem map_nibOf (l : List UInt8) : (List.range (2 * l.length)).map (nibOf l) = l.flatMap byteNibs := by
  induction l with
  | nil => rfl
  | cons b t ih =>
    rw [List.length_cons, range_two_mul_succ, List.flatMap_cons, ← ih]
    simp only [List.map_cons, List.map_map, byteNibs, List.cons_append, List.nil_append]
    have h0 : nibOf (b :: t) 0 = byteHi b := by simp [nibOf, byteHi]
    have h1 : nibOf (b :: t) 1 = byteLo b := by simp [nibOf, byteLo]
    rw [h0, h1]
    congr 2
    apply List.map_congr_left
    intro i _
    have e1 : (i + 2) % 2 = i % 2 := by omega
    have e2 : (i + 2) / 2 = i / 2 + 1 := by omega
    simp [nibOf, e1, e2]

theorem Key.nibbles_eq (k : Key) : k.nibbles = k.bytes.flatMap byteNibs := by
  rw [← map_nibOf, k.len]; rfl

def bitOf (l : List UInt8) (i : Nat) : Bool := ((l.getD (i / 8) 0).toNat >>> (7 - i % 8)) &&& 1 != 0

theorem map_bitOf (l : List UInt8) : (List.range (8 * l.length)).map (bitOf l) = l.flatMap byteBits := by
  induction l with
  | nil => rfl
  | cons b t ih =>
    rw [List.length_cons, range_eight_mul_succ, List.flatMap_cons, ← ih, List.map_append, List.map_map]
    congr 1
    apply List.map_congr_left
    intro i _
    have e1 : (8 + i) % 8 = i % 8 := by omega
    have e2 : (8 + i) / 8 = i / 8 + 1 := by omega
    simp [bitOf, e1, e2]

theorem Key.bits_eq_bytes (k : Key) : k.bits = k.bytes.flatMap byteBits := by
  rw [← map_bitOf, k.len]; rfl

theorem byteBits_table : ∀ n : Fin 256, byteBits (UInt8.ofNat n.val) =
    (byteNibs (UInt8.ofNat n.val)).flatMap nibBits := by decide +kernel

theorem forall_byte {P : UInt8 → Prop} (h : ∀ n : Fin 256, P (UInt8.ofNat n.val)) (b : UInt8) : P b := by
  have := h ⟨b.toNat, b.toNat_lt⟩
  simpa using this

theorem byteBits_eq (b : UInt8) : byteBits b = (byteNibs b).flatMap nibBits :=
  forall_byte (P := fun b => byteBits b = (byteNibs b).flatMap nibBits) byteBits_table b

theorem flatMap_flatMap' {α β γ : Type} (l : List α) (f : α → List β) (g : β → List γ) :
    l.flatMap (fun a => (f a).flatMap g) = (l.flatMap f).flatMap g := by
  induction l with
  | nil => rfl
  | cons a t ih => simp [List.flatMap_cons, List.flatMap_append, ih]

/-- The bits of a key are the bits of its nibbles. -/
theorem Key.bits_eq (k : Key) : k.bits = k.nibbles.flatMap nibBits := by
  rw [k.bits_eq_bytes, k.nibbles_eq, ← flatMap_flatMap']
  congr 1
  funext b
  exact byteBits_eq b

@[simp] theorem Key.nibbles_length (k : Key) : k.nibbles.length = 64 := by simp [Key.nibbles]
@[simp] theorem Key.bits_length (k : Key) : k.bits.length = 256 := by simp [Key.bits]

@[simp] theorem nibBits_length (n : Nibble) : (nibBits n).length = 4 := rfl
@[simp] theorem byteNibs_length (b : UInt8) : (byteNibs b).length = 2 := rfl

theorem nibBits_inj : ∀ a b : Nibble, nibBits a = nibBits b → a = b := by decide
theorem nibBits_lt : ∀ a b : Nibble, a < b ↔ nibBits a < nibBits b := by decide

theorem byteNibs_inj (a b : UInt8) (h : byteNibs a = byteNibs b) : a = b := by
  have key : ∀ n : Nat, n < 256 → n = 16 * ((n >>> 4) % 16) + ((n &&& 0x0F) % 16) := by
    intro n hn
    have : n &&& 15 = n % 16 := Nat.and_two_pow_sub_one_eq_mod n 4
    rw [this, Nat.shiftRight_eq_div_pow]; omega
  simp only [byteNibs, byteHi, byteLo, List.cons.injEq, and_true, Fin.ext_iff, Fin.ofNat] at h
  apply UInt8.toNat_inj.1
  rw [key _ a.toNat_lt, key _ b.toNat_lt, h.1, h.2]

/-- Lexicographic comparison of appended lists with equal-length heads. -/
theorem append_lt_append_iff {α : Type} [LT α] [Std.Irrefl (α := α) (· < ·)] [Std.Asymm (α := α) (· < ·)]
    (a b x y : List α) (h : a.length = b.length) :
    a ++ x < b ++ y ↔ a < b ∨ (a = b ∧ x < y) := by
  induction a generalizing b with
  | nil =>
    cases b with
    | nil => simp
    | cons _ _ => simp at h
  | cons c t ih =>
    cases b with
    | nil => simp at h
    | cons d u =>
      have h' : t.length = u.length := by simpa using h
      simp only [List.cons_append, List.cons_lt_cons_iff, ih u h', List.cons.injEq]
      constructor
      · rintro (h1 | ⟨rfl, h1 | ⟨rfl, h1⟩⟩)
        · exact .inl (.inl h1)
        · exact .inl (.inr ⟨rfl, h1⟩)
        · exact .inr ⟨⟨rfl, rfl⟩, h1⟩
      · rintro ((h1 | ⟨rfl, h1⟩) | ⟨⟨rfl, rfl⟩, h1⟩)
        · exact .inl h1
        · exact .inr ⟨rfl, .inl h1⟩
        · exact .inr ⟨rfl, .inr ⟨rfl, h1⟩⟩

theorem flatMap_lt_iff {α β : Type} [LT α] [LT β] [Std.Irrefl (α := α) (· < ·)] [Std.Asymm (α := α) (· < ·)]
    [Std.Irrefl (α := β) (· < ·)] [Std.Asymm (α := β) (· < ·)]
    (f : α → List β) (n : Nat) (hlen : ∀ a, (f a).length = n) (hlt : ∀ a b, a < b ↔ f a < f b)
    (hinj : ∀ a b, f a = f b → a = b) (l m : List α) (h : l.length = m.length) :
    l < m ↔ l.flatMap f < m.flatMap f := by
  induction l generalizing m with
  | nil => cases m with
    | nil => simp
    | cons _ _ => simp at h
  | cons a t ih =>
    cases m with
    | nil => simp at h
    | cons b u =>
      have h' : t.length = u.length := by simpa using h
      rw [List.flatMap_cons, List.flatMap_cons, append_lt_append_iff _ _ _ _ (by rw [hlen, hlen]),
        List.cons_lt_cons_iff, ih u h', hlt]
      constructor
      · rintro (h1 | ⟨rfl, h1⟩)
        · exact .inl h1
        · exact .inr ⟨rfl, h1⟩
      · rintro (h1 | ⟨h2, h1⟩)
        · exact .inl h1
        · exact .inr ⟨hinj _ _ h2, h1⟩

theorem flatMap_inj {α β : Type} (f : α → List β) (n : Nat) (hlen : ∀ a, (f a).length = n)
    (hinj : ∀ a b, f a = f b → a = b) (l m : List α) (h : l.length = m.length)
    (he : l.flatMap f = m.flatMap f) : l = m := by
  induction l generalizing m with
  | nil => cases m with
    | nil => rfl
    | cons _ _ => simp at h
  | cons a t ih =>
    cases m with
    | nil => simp at h
    | cons b u =>
      rw [List.flatMap_cons, List.flatMap_cons] at he
      obtain ⟨h1, h2⟩ := List.append_inj he (by rw [hlen, hlen])
      rw [hinj _ _ h1, ih u (by simpa using h) h2]

theorem Key.ext_bytes {a b : Key} (h : a.bytes = b.bytes) : a = b := by
  cases a; cases b; simp_all

theorem Key.nibbles_inj {a b : Key} (h : a.nibbles = b.nibbles) : a = b := by
  rw [a.nibbles_eq, b.nibbles_eq] at h
  exact Key.ext_bytes (flatMap_inj byteNibs 2 byteNibs_length byteNibs_inj _ _ (by rw [a.len, b.len]) h)

theorem Key.bits_inj {a b : Key} (h : a.bits = b.bits) : a = b := by
  rw [a.bits_eq, b.bits_eq] at h
  exact Key.nibbles_inj (flatMap_inj nibBits 4 nibBits_length nibBits_inj _ _ (by simp) h)

theorem byteNibs_lt (a b : UInt8) : a < b ↔ byteNibs a < byteNibs b := by
  have key : ∀ n : Nat, n < 256 → (n >>> 4) % 16 = n / 16 ∧ (n &&& 0x0F) % 16 = n % 16 := by
    intro n hn
    have : n &&& 15 = n % 16 := Nat.and_two_pow_sub_one_eq_mod n 4
    rw [this, Nat.shiftRight_eq_div_pow]; omega
  simp only [byteNibs, byteHi, byteLo, List.cons_lt_cons_iff, UInt8.lt_iff_toNat_lt, Fin.lt_def,
    Fin.ext_iff, Fin.ofNat]
  have ha := key _ a.toNat_lt
  have hb := key _ b.toNat_lt
  rw [ha.1, ha.2, hb.1, hb.2]
  simp only [List.not_lt_nil, and_false, or_false]
  omega

theorem Key.lt_iff_nibbles (a b : Key) : a < b ↔ a.nibbles < b.nibbles := by
  rw [a.nibbles_eq, b.nibbles_eq]
  exact flatMap_lt_iff byteNibs 2 byteNibs_length byteNibs_lt byteNibs_inj _ _ (by rw [a.len, b.len])

instance : Std.Irrefl (α := Bool) (· < ·) := ⟨by decide⟩
instance : Std.Asymm (α := Bool) (· < ·) := ⟨by decide⟩

theorem Key.lt_iff_bits (a b : Key) : a < b ↔ a.bits < b.bits := by
  rw [Key.lt_iff_nibbles, a.bits_eq, b.bits_eq]
  exact flatMap_lt_iff nibBits 4 nibBits_length nibBits_lt nibBits_inj _ _ (by simp)

theorem takeWhile_zip_eq {α : Type} [DecidableEq α] [BEq α] [LawfulBEq α] (a b : List α) :
    ((a.zip b).takeWhile (fun p => p.1 == p.2)).length = commonPrefixLen a b := by
  induction a generalizing b with
  | nil => simp [commonPrefixLen]
  | cons x t ih =>
    cases b with
    | nil => simp [commonPrefixLen]
    | cons y u =>
      by_cases h : x = y
      · subst h; simp [commonPrefixLen, ih]
      · simp [commonPrefixLen, h]

theorem Key.commonPrefixBitsLen_eq (a b : Key) : a.commonPrefixBitsLen b = commonPrefixLen a.bits b.bits :=
  takeWhile_zip_eq _ _

/-! `commonPrefixLen` facts -/
section
variable {α : Type} [DecidableEq α]

theorem commonPrefixLen_le_left (a b : List α) : commonPrefixLen a b ≤ a.length := by
  induction a generalizing b with
  | nil => simp [commonPrefixLen]
  | cons x t ih =>
    cases b with
    | nil => simp [commonPrefixLen]
    | cons y u =>
      by_cases h : x = y
      · subst h; simpa [commonPrefixLen] using ih u
      · simp [commonPrefixLen, h]

theorem commonPrefixLen_comm (a b : List α) : commonPrefixLen a b = commonPrefixLen b a := by
  induction a generalizing b with
  | nil => cases b <;> simp [commonPrefixLen]
  | cons x t ih =>
    cases b with
    | nil => simp [commonPrefixLen]
    | cons y u =>
      by_cases h : x = y
      · subst h; simpa [commonPrefixLen] using ih u
      · simp [commonPrefixLen, h, Ne.symm h]

theorem commonPrefixLen_le_right (a b : List α) : commonPrefixLen a b ≤ b.length := by
  rw [commonPrefixLen_comm]; exact commonPrefixLen_le_left _ _

theorem take_commonPrefixLen (a b : List α) :
    a.take (commonPrefixLen a b) = b.take (commonPrefixLen a b) := by
  induction a generalizing b with
  | nil => simp [commonPrefixLen]
  | cons x t ih =>
    cases b with
    | nil => simp [commonPrefixLen]
    | cons y u =>
      by_cases h : x = y
      · subst h; simpa [commonPrefixLen] using ih u
      · simp [commonPrefixLen, h]

theorem commonPrefixLen_append_left (p a b : List α) :
    commonPrefixLen (p ++ a) (p ++ b) = p.length + commonPrefixLen a b := by
  induction p with
  | nil => simp
  | cons x t ih => simp [commonPrefixLen, ih]; omega

theorem commonPrefixLen_prefix (p l : List α) (h : p <+: l) : commonPrefixLen p l = p.length := by
  obtain ⟨t, rfl⟩ := h
  have := commonPrefixLen_append_left p [] t
  rw [List.append_nil] at this
  rw [this]; simp [commonPrefixLen]

/-- A common prefix of length `n` gives `n ≤ commonPrefixLen`. -/
theorem le_commonPrefixLen (a b : List α) (n : Nat) (ha : n ≤ a.length)
    (h : a.take n = b.take n) : n ≤ commonPrefixLen a b := by
  induction n generalizing a b with
  | zero => simp
  | succ n ih =>
    cases a with
    | nil => simp at ha
    | cons x t =>
      cases b with
      | nil => simp at h
      | cons y u =>
        simp at h
        have := ih t u (by simpa using ha) h.2
        simp [commonPrefixLen, h.1]; omega

theorem drop_commonPrefixLen (a b : List α) :
    (∃ x y s t, x ≠ y ∧ a.drop (commonPrefixLen a b) = x :: s ∧ b.drop (commonPrefixLen a b) = y :: t) ∨
    a.drop (commonPrefixLen a b) = [] ∨ b.drop (commonPrefixLen a b) = [] := by
  induction a generalizing b with
  | nil => simp
  | cons x t ih =>
    cases b with
    | nil => simp
    | cons y u =>
      by_cases h : x = y
      · subst h
        simpa [commonPrefixLen] using ih u
      · left
        exact ⟨x, y, t, u, h, by simp [commonPrefixLen, h], by simp [commonPrefixLen, h]⟩
end

end Verif.Jmt
