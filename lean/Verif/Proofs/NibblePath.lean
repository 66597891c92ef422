import Verif.Jmt.NibblePath
/-!
Packed nibble paths represent lists of nibbles.
-/

set_option autoImplicit false

namespace Verif.Jmt

/-- Two nibbles to a byte, the last half byte 0 when the number is odd. -/
def pack : List Nibble → List UInt8
  | [] => []
  | [a] => [nibbleByte a <<< 4]
  | a :: b :: l => (nibbleByte a <<< 4 ||| nibbleByte b) :: pack l

/-- The packed form of a list. -/
def packed (l : List Nibble) : NibblePath := ⟨l.length, pack l⟩

theorem or_low : ∀ a b : Nibble, byteNibble ((nibbleByte a <<< 4 ||| nibbleByte b) &&& 0x0f) = b := by decide +kernel
theorem or_high : ∀ a b : Nibble, ((nibbleByte a <<< 4 ||| nibbleByte b) &&& (0xf0 : UInt8)) = nibbleByte a <<< 4 := by decide +kernel
theorem or_shift : ∀ a b : Nibble, byteNibble ((nibbleByte a <<< 4 ||| nibbleByte b) >>> 4) = a := by decide +kernel
theorem shift_shift : ∀ a : Nibble, byteNibble ((nibbleByte a <<< 4) >>> 4) = a := by decide +kernel
theorem or_get0 : ∀ a b : Nibble, byteNibble (((nibbleByte a <<< 4 ||| nibbleByte b) >>> 4) &&& 0xf) = a := by decide +kernel
theorem or_get1 : ∀ a b : Nibble, byteNibble (((nibbleByte a <<< 4 ||| nibbleByte b) >>> 0) &&& 0xf) = b := by decide +kernel
theorem or_bit : ∀ (a b : Nibble) (j : Fin 8),
    (((nibbleByte a <<< 4 ||| nibbleByte b) >>> UInt8.ofNat (7 - j.val)) &&& 1 != 0)
      = if j.val < 4 then a.val.testBit (3 - j.val) else b.val.testBit (7 - j.val) := by decide +kernel
theorem shift_zero : ∀ a : Nibble, nibbleByte a <<< 4 ||| nibbleByte 0 = nibbleByte a <<< 4 := by decide +kernel
theorem byte_split : ∀ b : Fin 256, nibbleByte (byteNibble (UInt8.ofNat b.val >>> 4)) <<< 4
    ||| nibbleByte (byteNibble (UInt8.ofNat b.val &&& 0x0f)) = UInt8.ofNat b.val := by decide +kernel

theorem byte_split' (b : UInt8) : nibbleByte (byteNibble (b >>> 4)) <<< 4 ||| nibbleByte (byteNibble (b &&& 0x0f)) = b := by
  have h := byte_split ⟨b.toNat, b.toNat_lt⟩
  simpa using h

theorem pack_length (l : List Nibble) : (pack l).length = (l.length + 1) / 2 := by
  induction l using pack.induct with
  | case1 => rfl
  | case2 => simp [pack]
  | case3 a b l ih => simp only [pack, List.length_cons, ih]; omega

theorem pack_append (l r : List Nibble) (h : l.length % 2 = 0) : pack (l ++ r) = pack l ++ pack r := by
  induction l using pack.induct with
  | case1 => rfl
  | case2 => simp at h
  | case3 a b l ih =>
    simp only [List.cons_append, pack]
    rw [ih (by simp at h; omega)]

theorem pack_get (l : List Nibble) (i : Nat) (h : 2 * i < l.length) :
    (pack l)[i]? = some (nibbleByte (l.getD (2 * i) 0) <<< 4 ||| nibbleByte (l.getD (2 * i + 1) 0)) := by
  induction l using pack.induct generalizing i with
  | case1 => simp at h
  | case2 a =>
    have : i = 0 := by simp at h; omega
    subst this
    simp [pack, shift_zero]
  | case3 a b l ih =>
    cases i with
    | zero => simp [pack]
    | succ i =>
      simp only [pack, List.getElem?_cons_succ]
      rw [ih i (by simp at h; omega)]
      simp [Nat.mul_add]

/-- Every list is either even or an even list and one more element. -/
theorem odd_split (l : List Nibble) (h : l.length % 2 = 1) : ∃ l' a, l = l' ++ [a] ∧ l'.length % 2 = 0 := by
  have hne : l ≠ [] := by rintro rfl; simp at h
  refine ⟨l.dropLast, l.getLast hne, (List.dropLast_concat_getLast hne).symm, ?_⟩
  simp only [List.length_dropLast]; omega

theorem modify_snoc {α : Type} (l : List α) (a : α) (f : α → α) : (l ++ [a]).modify (l.length + 0) f = l ++ [f a] := by
  induction l with
  | nil => rfl
  | cons x l ih => simpa [List.modify_succ_cons] using ih

theorem pack_snoc_odd (l : List Nibble) (n : Nibble) (h : l.length % 2 = 1) :
    (pack l).modify (l.length / 2) (fun b => b ||| nibbleByte n) = pack (l ++ [n]) := by
  obtain ⟨l', a, rfl, h'⟩ := odd_split l h
  rw [List.append_assoc, pack_append _ _ h', pack_append _ _ h']
  have e : (l' ++ [a]).length / 2 = (pack l').length + 0 := by
    rw [pack_length]; simp only [List.length_append, List.length_cons, List.length_nil]; omega
  rw [e]
  exact modify_snoc (pack l') (nibbleByte a <<< 4) _

theorem push_packed (l : List Nibble) (n : Nibble) :
    (packed l).push n = if l.length < 64 then .ok (packed (l ++ [n]))
      else .error (.panic "assertion failed: ROOT_NIBBLE_HEIGHT > self.num_nibbles") := by
  simp only [NibblePath.push, packed, rootNibbleHeight, assert, gt_iff_lt]
  by_cases h : l.length < 64
  · simp only [h, decide_true, if_true]
    by_cases h2 : l.length % 2 = 0
    · simp [h2, pack_append, pack, pure, Except.pure, bind, Except.bind]
    · have h3 : l.length % 2 = 1 := by omega
      have h4 : l.length / 2 < (pack l).length := by rw [pack_length]; omega
      simp [h3, h4, pack_snoc_odd, pure, Except.pure, bind, Except.bind]
  · simp [h, bind, Except.bind]

theorem pop_nil : (packed []).pop = (none, packed []) := rfl

theorem pop_snoc (l : List Nibble) (n : Nibble) : (packed (l ++ [n])).pop = (some n, packed l) := by
  by_cases h : l.length % 2 = 0
  · have h2 : (l.length + 1) % 2 = 1 := by omega
    simp [NibblePath.pop, packed, pack_append _ _ h, pack, h2, shift_shift]
  · obtain ⟨l', a, rfl, h'⟩ := odd_split l (by omega)
    have h2 : (l'.length + 1 + 1) % 2 = 0 := by omega
    have e : pack (l' ++ [a] ++ [n]) = pack l' ++ [nibbleByte a <<< 4 ||| nibbleByte n] := by
      rw [List.append_assoc, pack_append _ _ h']; rfl
    simp [NibblePath.pop, packed, pack_append _ _ h', pack, h2, or_low]
    exact or_high a n

theorem last_packed (l : List Nibble) : (packed l).last = .ok l.getLast? := by
  rcases List.eq_nil_or_concat l with rfl | ⟨l, n, rfl⟩
  · rfl
  · by_cases h : l.length % 2 = 0
    · have h2 : (l.length + 1) % 2 = 1 := by omega
      simp [NibblePath.last, packed, pack_append _ _ h, pack, h2, shift_shift]
    · obtain ⟨l', a, rfl, h'⟩ := odd_split l (by omega)
      have h2 : (l'.length + 1 + 1) % 2 = 0 := by omega
      simp [NibblePath.last, packed, pack_append _ _ h', pack, h2, or_low]

theorem getNibble_packed (l : List Nibble) (i : Nat) (h : i < l.length) : (packed l).getNibble i = .ok l[i] := by
  have hp := pack_get l (i / 2) (by omega)
  simp only [NibblePath.getNibble, packed, assert, h, decide_true, if_true, hp]
  by_cases h2 : i % 2 = 1
  · have e : 2 * (i / 2) + 1 = i := by omega
    simp [h2, e, h, pure, Except.pure, bind, Except.bind]
    exact or_low _ _
  · have e : 2 * (i / 2) = i := by omega
    simp [h2, e, or_get0, h, pure, Except.pure, bind, Except.bind]

theorem getNibble_out (l : List Nibble) (i : Nat) (h : ¬ i < l.length) : (packed l).getNibble i = .error (.panic "assertion failed: i < self.num_nibbles") := by
  simp [NibblePath.getNibble, packed, assert, h, bind, Except.bind]

/-- Bit `j` of a nibble, from the most significant. -/
def nibbleBit (n : Nibble) (j : Nat) : Bool := n.val.testBit (3 - j)

theorem getBit_packed (l : List Nibble) (i : Nat) (h : i / 4 < l.length) :
    (packed l).getBit i = .ok (nibbleBit l[i / 4] (i % 4)) := by
  have hp := pack_get l (i / 8) (by omega)
  have hi : i < l.length * 4 := by omega
  have hb := or_bit (l.getD (2 * (i / 8)) 0) (l.getD (2 * (i / 8) + 1) 0) ⟨i % 8, by omega⟩
  simp only [NibblePath.getBit, packed, assert, hi, decide_true, if_true, hp]
  simp only at hb
  simp only [pure, Except.pure, bind, Except.bind, hb, nibbleBit]
  congr 1
  by_cases h2 : i % 8 < 4
  · have e : 2 * (i / 8) = i / 4 := by omega
    have e2 : i % 8 = i % 4 := by omega
    rw [if_pos h2, e, e2]
    simp [h]
  · have e : 2 * (i / 8) + 1 = i / 4 := by omega
    have e2 : 7 - i % 8 = 3 - i % 4 := by omega
    rw [if_neg h2, e, e2]
    simp [h]

theorem getBit_out (l : List Nibble) (i : Nat) (h : ¬ i < l.length * 4) :
    (packed l).getBit i = .error (.panic "assertion failed: i < self.num_nibbles * 4") := by
  simp [NibblePath.getBit, packed, assert, h, bind, Except.bind]

theorem pack_inj (l r : List Nibble) (hl : l.length = r.length) (h : pack l = pack r) : l = r := by
  refine List.ext_getElem hl (fun i h1 h2 => ?_)
  have e1 := getNibble_packed l i h1
  have e2 := getNibble_packed r i h2
  have e : packed l = packed r := by simp [packed, hl, h]
  rw [e, e2] at e1
  exact (Except.ok.inj e1).symm

theorem packed_inj {l r : List Nibble} : packed l = packed r ↔ l = r := by
  constructor
  · intro h
    simp only [packed, NibblePath.mk.injEq] at h
    exact pack_inj l r h.1 h.2
  · rintro rfl; rfl

theorem fromIter_go (l r : List Nibble) (h : (l ++ r).length ≤ 64) : NibblePath.fromIter.go r (packed l) = .ok (packed (l ++ r)) := by
  induction r generalizing l with
  | nil => simp [NibblePath.fromIter.go]
  | cons n r ih =>
    have : l.length < 64 := by simp at h; omega
    simp only [NibblePath.fromIter.go, push_packed, this, if_true, bind, Except.bind]
    rw [ih (l ++ [n]) (by simpa using h)]
    simp

theorem fromIter_packed (l : List Nibble) (h : l.length ≤ 64) : NibblePath.fromIter l = .ok (packed l) := by
  have := fromIter_go [] l (by simpa using h)
  exact this

theorem nibbleIter_go (l : List Nibble) (n lo hi start : Nat) (h : hi ≤ l.length) (hn : n = hi - lo) :
    NibbleIter.collect.go n ⟨packed l, lo, hi, start⟩ = .ok ((l.drop lo).take (hi - lo)) := by
  induction n generalizing lo with
  | zero => rw [← hn]; simp [NibbleIter.collect.go]
  | succ n ih =>
    have h1 : lo < hi := by omega
    have h2 : lo < l.length := by omega
    simp only [NibbleIter.collect.go, NibbleIter.next, h1, if_true, getNibble_packed l lo h2, bind, Except.bind, pure, Except.pure]
    rw [ih (lo + 1) (by omega), ← hn]
    have e : hi - (lo + 1) = n := by omega
    simp only [e, List.drop_eq_getElem_cons h2, List.take_succ_cons]

theorem nibbleIter_collect (l : List Nibble) (lo hi start : Nat) (h : hi ≤ l.length) :
    NibbleIter.collect ⟨packed l, lo, hi, start⟩ = .ok ((l.drop lo).take (hi - lo)) := nibbleIter_go l _ lo hi start h rfl

/-- The bits of a list of nibbles. -/
def nibbleBits (l : List Nibble) : List Bool := l.flatMap (fun n => [nibbleBit n 0, nibbleBit n 1, nibbleBit n 2, nibbleBit n 3])

theorem nibbleBits_length (l : List Nibble) : (nibbleBits l).length = l.length * 4 := by
  induction l with
  | nil => rfl
  | cons n l ih => simp only [nibbleBits, List.flatMap_cons, List.length_append, List.length_cons, List.length_nil] at *; omega

theorem nibbleBits_get (l : List Nibble) (i : Nat) (h : i / 4 < l.length) : (nibbleBits l)[i]? = some (nibbleBit l[i / 4] (i % 4)) := by
  induction l generalizing i with
  | nil => simp at h
  | cons n l ih =>
    rcases (by omega : i = 0 ∨ i = 1 ∨ i = 2 ∨ i = 3 ∨ 4 ≤ i) with rfl | rfl | rfl | rfl | h4
    · rfl
    · rfl
    · rfl
    · rfl
    · obtain ⟨j, rfl⟩ : ∃ j, i = j + 4 := ⟨i - 4, by omega⟩
      have e : (j + 4) / 4 = j / 4 + 1 := by omega
      have := ih j (by simp at h; omega)
      simp only [nibbleBits, List.flatMap_cons] at *
      simp [e, this]

theorem bitIter_go (l : List Nibble) (n lo hi : Nat) (h : hi ≤ l.length * 4) (hn : n = hi - lo) :
    BitIter.collect.go n ⟨packed l, lo, hi⟩ = .ok (((nibbleBits l).drop lo).take (hi - lo)) := by
  induction n generalizing lo with
  | zero => rw [← hn]; simp [BitIter.collect.go]
  | succ n ih =>
    have h1 : lo < hi := by omega
    have h2 : lo < (nibbleBits l).length := by rw [nibbleBits_length]; omega
    have h3 := nibbleBits_get l lo (by omega)
    rw [List.getElem?_eq_getElem h2] at h3
    simp only [BitIter.collect.go, BitIter.next, h1, if_true, getBit_packed l lo (by omega), bind, Except.bind, pure, Except.pure]
    rw [ih (lo + 1) (by omega), ← hn, List.drop_eq_getElem_cons h2, Option.some.inj h3]
    have e : hi - (lo + 1) = n := by omega
    simp [e]

theorem bitIter_goBack (l : List Nibble) (n lo hi : Nat) (h : hi ≤ l.length * 4) (hn : n = hi - lo) :
    BitIter.collectBack.go n ⟨packed l, lo, hi⟩ = .ok (((nibbleBits l).drop lo).take (hi - lo)).reverse := by
  induction n generalizing hi with
  | zero => rw [← hn]; simp [BitIter.collectBack.go]
  | succ n ih =>
    have h1 : lo < hi := by omega
    have h2 : hi - 1 < (nibbleBits l).length := by rw [nibbleBits_length]; omega
    have h3 := nibbleBits_get l (hi - 1) (by omega)
    simp only [BitIter.collectBack.go, BitIter.nextBack, h1, if_true, getBit_packed l (hi - 1) (by omega), bind, Except.bind, pure, Except.pure]
    rw [ih (hi - 1) (by omega) (by omega), ← hn]
    have e : hi - 1 - lo = n := by omega
    have e2 : lo + n = hi - 1 := by omega
    simp only [e, List.take_add_one, List.getElem?_drop, e2, h3, Option.toList, List.reverse_append, List.reverse_cons, List.reverse_nil, List.nil_append, List.cons_append]

theorem peek_packed (x : List Nibble) (lo hi st : Nat) (h : hi ≤ x.length) :
    NibbleIter.peek ⟨packed x, lo, hi, st⟩ = .ok ((x.drop lo).take (hi - lo)).head? := by
  by_cases h1 : lo < hi
  · have h2 : lo < x.length := by omega
    have e : hi - lo = (hi - (lo + 1)) + 1 := by omega
    simp only [NibbleIter.peek, h1, if_true, getNibble_packed x lo h2, bind, Except.bind, pure, Except.pure]
    rw [e, List.drop_eq_getElem_cons h2, List.take_succ_cons]
    rfl
  · have e : hi - lo = 0 := by omega
    simp [NibbleIter.peek, h1, e]

theorem skipCommon_spec (x y : List Nibble) (fuel lo hi st lo' hi' st' : Nat) (hx : hi ≤ x.length) (hy : hi' ≤ y.length)
    (hf : hi - lo < fuel) :
    ∃ n, n = commonPrefixLen ((x.drop lo).take (hi - lo)) ((y.drop lo').take (hi' - lo')) ∧
      skipCommon fuel ⟨packed x, lo, hi, st⟩ ⟨packed y, lo', hi', st'⟩
        = .ok (n, ⟨packed x, lo + n, hi, st⟩, ⟨packed y, lo' + n, hi', st'⟩) := by
  induction fuel generalizing lo lo' with
  | zero => omega
  | succ fuel ih =>
    rw [skipCommon, peek_packed x lo hi st hx, peek_packed y lo' hi' st' hy]
    by_cases h1 : lo < hi
    · have h2 : lo < x.length := by omega
      have e : hi - lo = (hi - (lo + 1)) + 1 := by omega
      rw [e, List.drop_eq_getElem_cons h2, List.take_succ_cons]
      by_cases h1' : lo' < hi'
      · have h2' : lo' < y.length := by omega
        have e' : hi' - lo' = (hi' - (lo' + 1)) + 1 := by omega
        rw [e', List.drop_eq_getElem_cons h2', List.take_succ_cons]
        by_cases hab : x[lo] = y[lo']
        · obtain ⟨n, hn, hs⟩ := ih (lo + 1) (lo' + 1) (by omega)
          refine ⟨n + 1, ?_, ?_⟩
          · simp only [commonPrefixLen, hab, if_true, hn]
          · simp only [List.head?_cons, bind, Except.bind, hab, if_true, NibbleIter.next, h1, h1', getNibble_packed x lo h2,
              getNibble_packed y lo' h2', pure, Except.pure, hs]
            simp only [Nat.add_assoc, Nat.add_comm 1 n]
        · exact ⟨0, by simp [commonPrefixLen, hab], by simp [bind, Except.bind, hab, pure, Except.pure]⟩
      · have e' : hi' - lo' = 0 := by omega
        exact ⟨0, by simp [commonPrefixLen, e'], by simp [bind, Except.bind, e', pure, Except.pure]⟩
    · have e : hi - lo = 0 := by omega
      exact ⟨0, by simp [commonPrefixLen, e], by simp [bind, Except.bind, e, pure, Except.pure]⟩

/-- The nibbles of a byte string. -/
def unpack (bs : List UInt8) : List Nibble := bs.flatMap (fun b : UInt8 => [byteNibble (b >>> 4), byteNibble (b &&& 0x0f)])

theorem unpack_length (bs : List UInt8) : (unpack bs).length = bs.length * 2 := by
  induction bs with
  | nil => rfl
  | cons b bs ih => simp only [unpack, List.flatMap_cons, List.length_append, List.length_cons, List.length_nil] at *; omega

theorem pack_unpack (bs : List UInt8) : pack (unpack bs) = bs := by
  induction bs with
  | nil => rfl
  | cons b bs ih =>
    have : unpack (b :: bs) = byteNibble (b >>> 4) :: byteNibble (b &&& 0x0f) :: unpack bs := rfl
    rw [this, pack, ih, byte_split']

theorem new_packed (bs : List UInt8) (h : bs.length ≤ 32) : NibblePath.new bs = .ok (packed (unpack bs)) := by
  simp [NibblePath.new, assert, rootNibbleHeight, h, packed, unpack_length, pack_unpack, pure, Except.pure, bind, Except.bind]

theorem unpack_get (bs : List UInt8) (i : Nat) (h : i < bs.length * 2) :
    (unpack bs)[i]? = some (if i % 2 = 0 then byteNibble (bs.getD (i / 2) 0 >>> 4) else byteNibble (bs.getD (i / 2) 0 &&& 0x0f)) := by
  induction bs generalizing i with
  | nil => simp at h
  | cons b bs ih =>
    rcases (by omega : i = 0 ∨ i = 1 ∨ 2 ≤ i) with rfl | rfl | h4
    · rfl
    · rfl
    · obtain ⟨j, rfl⟩ : ∃ j, i = j + 2 := ⟨i - 2, by omega⟩
      have e : (j + 2) / 2 = j / 2 + 1 := by omega
      have e2 : (j + 2) % 2 = j % 2 := by omega
      have := ih j (by simp at h; omega)
      simp only [unpack, List.flatMap_cons] at *
      simp [e, e2, this]

theorem unpack_key (k : Key) : unpack k.bytes = k.nibbles := by
  refine List.ext_getElem? (fun i => ?_)
  by_cases h : i < 64
  · rw [unpack_get k.bytes i (by rw [k.len]; omega)]
    simp only [Key.nibbles, List.getElem?_map, List.getElem?_range h, Option.map_some, Key.nibble, Key.byte]
    by_cases h2 : i % 2 = 0
    · simp [h2, byteNibble]
    · simp [h2, byteNibble]
  · rw [List.getElem?_eq_none (by rw [unpack_length, k.len]; omega), List.getElem?_eq_none (by simp [Key.nibbles]; omega)]

end Verif.Jmt
