import Verif.Proofs.NibblePath
import Verif.Jmt.Tree
/-!
C26: packed nibble paths behave as lists of nibbles.

The specification: a path is a plain list of at most 64 nibbles; `push` appends (and panics on a full list), `pop` takes
off the last element.
-/

set_option autoImplicit false

namespace Verif.Props
open Verif Verif.Jmt

/-- An operation on a path. -/
inductive PathOp where
  | push (n : Nibble)
  | pop

/-- The operations on the packed path, with the results of the pops. -/
def runPath : List PathOp → NibblePath → Res (NibblePath × List (Option Nibble))
  | [], p => .ok (p, [])
  | .push n :: ops, p => do
    let p ← p.push n
    runPath ops p
  | .pop :: ops, p => do
    let (x, p) := p.pop
    let (p, out) ← runPath ops p
    pure (p, x :: out)

/-- The operations on the plain list; `none` when a list of 64 is pushed to. -/
def specPath : List PathOp → List Nibble → Option (List Nibble × List (Option Nibble))
  | [], l => some (l, [])
  | .push n :: ops, l => if l.length < 64 then specPath ops (l ++ [n]) else none
  | .pop :: ops, l => (specPath ops l.dropLast).map (fun r => (r.1, l.getLast? :: r.2))

/-- Every observation of the path `p` is that of the list `l`. -/
structure Looks (p : NibblePath) (l : List Nibble) : Prop where
  len : p.numNibbles = l.length
  isEmpty : p.isEmpty = l.isEmpty
  last : p.last = .ok l.getLast?
  get : ∀ i, (h : i < l.length) → p.getNibble i = .ok l[i]
  getOut : ∀ i, l.length ≤ i → ∃ m, p.getNibble i = .error (.panic m)
  bit : ∀ i, (h : i / 4 < l.length) → p.getBit i = .ok (l[i / 4].val.testBit (3 - i % 4))
  bitOut : ∀ i, l.length ≤ i / 4 → ∃ m, p.getBit i = .error (.panic m)
  nibbles : p.nibbles.collect = .ok l
  bits : ∃ bs, p.bits.collect = .ok bs ∧ p.bits.collectBack = .ok bs.reverse ∧ bs.length = 4 * l.length ∧
    ∀ i, (h : i / 4 < l.length) → bs[i]? = some (l[i / 4].val.testBit (3 - i % 4))

theorem looks_packed (l : List Nibble) : Looks (packed l) l where
  len := rfl
  isEmpty := by cases l <;> simp [NibblePath.isEmpty, packed]
  last := last_packed l
  get := getNibble_packed l
  getOut := fun i h => ⟨_, getNibble_out l i (by omega)⟩
  bit := fun i h => getBit_packed l i h
  bitOut := fun i h => ⟨_, getBit_out l i (by omega)⟩
  nibbles := by
    have := nibbleIter_collect l 0 l.length 0 (Nat.le_refl _)
    simpa [packed, NibblePath.nibbles, NibbleIter.new] using this
  bits := by
    have h1 := bitIter_go l _ 0 (l.length * 4) (Nat.le_refl _) rfl
    have h2 := bitIter_goBack l _ 0 (l.length * 4) (Nat.le_refl _) rfl
    have e : ((nibbleBits l).drop 0).take (l.length * 4 - 0) = nibbleBits l := by
      simp [← nibbleBits_length]
    rw [e] at h1 h2
    exact ⟨nibbleBits l, h1, h2, by rw [nibbleBits_length]; omega, fun i h => nibbleBits_get l i h⟩

theorem runPath_packed (ops : List PathOp) (l : List Nibble) :
    match specPath ops l with
    | some (l', out) => runPath ops (packed l) = .ok (packed l', out)
    | none => ∃ m, runPath ops (packed l) = .error (.panic m) := by
  induction ops generalizing l with
  | nil => rfl
  | cons op ops ih =>
    cases op with
    | push n =>
      simp only [specPath, runPath, push_packed]
      by_cases h : l.length < 64
      · simpa only [h, if_true, bind, Except.bind] using ih (l ++ [n])
      · simp only [h, if_false, bind, Except.bind]
        exact ⟨_, rfl⟩
    | pop =>
      have hp : (packed l).pop = (l.getLast?, packed l.dropLast) := by
        rcases List.eq_nil_or_concat l with rfl | ⟨l, n, rfl⟩
        · rfl
        · simp [pop_snoc]
      have := ih l.dropLast
      simp only [specPath, runPath, hp]
      cases h : specPath ops l.dropLast with
      | none =>
        rw [h] at this
        obtain ⟨m, hm⟩ := this
        exact ⟨m, by simp [hm, bind, Except.bind]⟩
      | some r =>
        rw [h] at this
        simp [this, bind, Except.bind, pure, Except.pure]

/-- C26: a path made by pushes and pops shows exactly what the plain list shows, and the pops return the same nibbles. -/
theorem C26_path_is_list (ops : List PathOp) (l : List Nibble) (out : List (Option Nibble)) (h : specPath ops [] = some (l, out)) :
    ∃ p, (NibblePath.new []).bind (runPath ops) = .ok (p, out) ∧ Looks p l := by
  have := runPath_packed ops []
  rw [h] at this
  exact ⟨packed l, this, looks_packed l⟩

/-- C26: pushing to a path of 64 nibbles panics (it never corrupts the path). -/
theorem C26_overfull_panics (ops : List PathOp) (h : specPath ops [] = none) :
    ∃ m, (NibblePath.new []).bind (runPath ops) = .error (.panic m) := by
  have := runPath_packed ops []
  rw [h] at this
  exact this

/-- C26: two paths are equal exactly when they have the same nibbles, whatever operations led there. -/
theorem C26_equal_iff (ops ops' : List PathOp) (p p' : NibblePath) (out out' : List (Option Nibble))
    (h : (NibblePath.new []).bind (runPath ops) = .ok (p, out)) (h' : (NibblePath.new []).bind (runPath ops') = .ok (p', out')) :
    p = p' ↔ p.nibbles.collect = p'.nibbles.collect := by
  have key : ∀ (ops : List PathOp) (p : NibblePath) (out : List (Option Nibble)),
      (NibblePath.new []).bind (runPath ops) = .ok (p, out) → ∃ l, p = packed l := by
    intro ops p out h
    have := runPath_packed ops []
    cases hs : specPath ops [] with
    | none =>
      rw [hs] at this
      obtain ⟨m, hm⟩ := this
      cases hm.symm.trans h
    | some r =>
      rw [hs] at this
      have e := Except.ok.inj (this.symm.trans h)
      exact ⟨r.1, (congrArg Prod.fst e).symm⟩
  obtain ⟨l, rfl⟩ := key ops p out h
  obtain ⟨l', rfl⟩ := key ops' p' out' h'
  rw [(looks_packed l).nibbles, (looks_packed l').nibbles, packed_inj]
  exact ⟨fun h => h ▸ rfl, fun h => Except.ok.inj h⟩

/-- C26: the path of a key (`NibblePath::new` on its 32 bytes) has the key's nibbles, and the path made from all the
nibbles of an iterator over it has the key's bytes again (used by `create_leaf_node`). -/
theorem C26_key_path (k : Key) : ∃ p, NibblePath.new k.bytes = .ok p ∧ p.bytes = k.bytes ∧ Looks p k.nibbles ∧
    ∀ i, i ≤ 64 → ∃ q, NibbleIter.getNibblePath ⟨p, i, 64, 0⟩ = .ok q ∧ q.bytes = k.bytes := by
  have hl : k.nibbles.length = 64 := by simp [Key.nibbles]
  have hb : (packed k.nibbles).bytes = k.bytes := by rw [← unpack_key]; exact pack_unpack _
  refine ⟨packed k.nibbles, ?_, hb, looks_packed _, fun i hi => ⟨packed k.nibbles, ?_, hb⟩⟩
  · rw [new_packed _ (by rw [k.len]; omega), unpack_key]
  · have e : List.take i k.nibbles ++ (k.nibbles.drop i).take (64 - i) = k.nibbles := by
      rw [List.take_of_length_le (l := k.nibbles.drop i) (by simp [hl]), List.take_append_drop]
    simp only [NibbleIter.getNibblePath, NibbleIter.visitedNibbles, NibbleIter.remainingNibbles, NibbleIter.new]
    rw [nibbleIter_collect _ 0 i 0 (by omega), nibbleIter_collect _ i 64 i (by omega)]
    simp only [bind, Except.bind, List.drop_zero, Nat.sub_zero, e]
    exact fromIter_packed _ (by omega)

/-- C26: an iterator at position `i` of a path with nibbles `l` shows the nibbles before `i` as visited and the ones from `i`
on as remaining. -/
theorem C26_iterator (l : List Nibble) (i : Nat) (hi : i ≤ l.length) :
    let it : NibbleIter := ⟨packed l, i, l.length, 0⟩
    it.visitedNibbles.collect = .ok (l.take i) ∧ it.remainingNibbles.collect = .ok (l.drop i) ∧
    it.peek = .ok (l.drop i).head? ∧ it.isFinished = .ok (l.drop i).isEmpty ∧
    (∀ (h : i < l.length), it.next = .ok (some l[i], ⟨packed l, i + 1, l.length, 0⟩)) ∧
    (i = l.length → it.next = .ok (none, it)) := by
  have e : (l.drop i).take (l.length - i) = l.drop i := List.take_of_length_le (by simp)
  refine ⟨?_, ?_, ?_, ?_, ?_, ?_⟩
  · have := nibbleIter_collect l 0 i 0 hi
    rw [List.drop_zero, Nat.sub_zero] at this
    exact this
  · have := nibbleIter_collect l i l.length i (Nat.le_refl _)
    rw [e] at this
    exact this
  · have := peek_packed l i l.length 0 (Nat.le_refl _)
    rwa [e] at this
  · have := peek_packed l i l.length 0 (Nat.le_refl _)
    rw [e] at this
    simp only [NibbleIter.isFinished, this, bind, Except.bind, pure, Except.pure]
    cases l.drop i <;> rfl
  · intro h
    simp [NibbleIter.next, h, getNibble_packed l i h, bind, Except.bind, pure, Except.pure]
  · intro h
    simp [NibbleIter.next, h]

/-- C26: an iterator over a part of a path, from `a` to `b`, at position `i`: the visited nibbles are those of the part before `i`, the remaining ones those of the part
from `i` on, both together have the number `num_nibbles` and are the nibbles of `get_nibble_path`, which forgets what is before the part. -/
theorem C26_iterator_of_part (l : List Nibble) (a b i : Nat) (ha : a ≤ i) (hi : i ≤ b) (hb : b ≤ l.length) (h64 : l.length ≤ 64) :
    let it : NibbleIter := ⟨packed l, i, b, a⟩
    it.visitedNibbles.collect = .ok ((l.take i).drop a) ∧ it.remainingNibbles.collect = .ok ((l.take b).drop i) ∧
    it.numNibbles = b - a ∧ it.getNibblePath = .ok (packed ((l.take b).drop a)) := by
  have h1 := nibbleIter_collect l a i a (by omega)
  have h2 := nibbleIter_collect l i b i hb
  have e1 : (l.take i).drop a = (l.drop a).take (i - a) := List.drop_take ..
  have e2 : (l.take b).drop i = (l.drop i).take (b - i) := List.drop_take ..
  have e3 : (l.take b).drop a = (l.take i).drop a ++ (l.take b).drop i := by
    rw [e1, e2, List.drop_take, show b - a = (i - a) + (b - i) by omega, List.take_add, List.drop_drop, show a + (i - a) = i by omega]
  refine ⟨?_, ?_, rfl, ?_⟩
  · rw [e1]; exact h1
  · rw [e2]; exact h2
  · unfold NibbleIter.getNibblePath
    simp only [NibbleIter.visitedNibbles, NibbleIter.remainingNibbles, NibbleIter.new]
    rw [h1, h2, e3, e1, e2]
    simp only [bind, Except.bind]
    refine fromIter_packed _ ?_
    simp
    omega

example : (⟨packed [1, 2, 3, 4, 5], 2, 4, 1⟩ : NibbleIter).visitedNibbles.collect = .ok [2] ∧
    (⟨packed [1, 2, 3, 4, 5], 2, 4, 1⟩ : NibbleIter).getNibblePath = .ok (packed [2, 3, 4]) := by
  have h := C26_iterator_of_part [1, 2, 3, 4, 5] 1 4 2 (by omega) (by omega) (by simp) (by simp)
  exact ⟨h.1, h.2.2.2⟩

/-- C26: `skip_common_prefix` advances both iterators by the length of the longest common prefix of what they have left:
the first `n` nibbles agree, and the next ones differ or one iterator is finished. -/
theorem C26_skip_common_prefix (x y : List Nibble) (i j : Nat) (hi : i ≤ x.length) (hj : j ≤ y.length) :
    ∃ n, skipCommon (x.length - i + 1) ⟨packed x, i, x.length, 0⟩ ⟨packed y, j, y.length, 0⟩
        = .ok (n, ⟨packed x, i + n, x.length, 0⟩, ⟨packed y, j + n, y.length, 0⟩) ∧
      n = skipCommonPrefix (x.drop i) (y.drop j) ∧ i + n ≤ x.length ∧ j + n ≤ y.length ∧
      (x.drop i).take n = (y.drop j).take n ∧
      (∀ a b, (x.drop (i + n)).head? = some a → (y.drop (j + n)).head? = some b → a ≠ b) := by
  obtain ⟨n, hn, hs⟩ := skipCommon_spec x y (x.length - i + 1) i x.length 0 j y.length 0 (Nat.le_refl _) (Nat.le_refl _) (by omega)
  rw [List.take_of_length_le (by simp), List.take_of_length_le (by simp)] at hn
  have key : ∀ a b : List Nibble, commonPrefixLen a b ≤ a.length ∧ commonPrefixLen a b ≤ b.length ∧
      a.take (commonPrefixLen a b) = b.take (commonPrefixLen a b) ∧
      ∀ u v, (a.drop (commonPrefixLen a b)).head? = some u → (b.drop (commonPrefixLen a b)).head? = some v → u ≠ v := by
    intro a
    induction a with
    | nil => intro b; simp [commonPrefixLen]
    | cons u a ih =>
      intro b
      cases b with
      | nil => simp [commonPrefixLen]
      | cons v b =>
        by_cases huv : u = v
        · obtain ⟨h1, h2, h3, h4⟩ := ih b
          simp only [commonPrefixLen, huv, if_true]
          exact ⟨by simp; omega, by simp; omega, by simp [h3], by simpa using h4⟩
        · simp only [commonPrefixLen, huv, if_false]
          refine ⟨Nat.zero_le _, Nat.zero_le _, rfl, ?_⟩
          intro p q hp hq
          simp at hp hq
          rw [← hp, ← hq]; exact huv
  obtain ⟨h1, h2, h3, h4⟩ := key (x.drop i) (y.drop j)
  rw [← hn] at h1 h2 h3 h4
  rw [List.length_drop] at h1 h2
  refine ⟨n, hs, hn, by omega, by omega, h3, ?_⟩
  simpa only [List.drop_drop] using h4

/-- C26: `NibblePath::new` and `new_odd` on bytes: all nibbles, high halves first, and all but the last one. `new_odd` panics unless there is a
byte and the last nibble is zero; both panic on more than 32 bytes. -/
theorem C26_new (bytes : List UInt8) (l : List Nibble)
    (hl : l = bytes.flatMap (fun b : UInt8 => [Fin.ofNat 16 (b.toNat / 16), Fin.ofNat 16 (b.toNat % 16)])) :
    (bytes.length ≤ 32 → ∃ p, NibblePath.new bytes = .ok p ∧ Looks p l) ∧
    (32 < bytes.length → (∃ m, NibblePath.new bytes = .error (.panic m)) ∧ ∃ m, NibblePath.newOdd bytes = .error (.panic m)) ∧
    (bytes.length ≤ 32 → l.getLast? = some 0 → ∃ p, NibblePath.newOdd bytes = .ok p ∧ Looks p l.dropLast) ∧
    (l.getLast? ≠ some 0 → ∃ m, NibblePath.newOdd bytes = .error (.panic m)) := by
  have half : ∀ b : Fin 256, byteNibble (UInt8.ofNat b.val >>> 4) = Fin.ofNat 16 ((UInt8.ofNat b.val).toNat / 16) ∧
      byteNibble (UInt8.ofNat b.val &&& 0x0f) = Fin.ofNat 16 ((UInt8.ofNat b.val).toNat % 16) ∧
      ((UInt8.ofNat b.val &&& 0x0f == 0) = true ↔ Fin.ofNat 16 ((UInt8.ofNat b.val).toNat % 16) = (0 : Nibble)) := by decide +kernel
  have half' : ∀ b : UInt8, byteNibble (b >>> 4) = Fin.ofNat 16 (b.toNat / 16) ∧ byteNibble (b &&& 0x0f) = Fin.ofNat 16 (b.toNat % 16) ∧
      ((b &&& 0x0f == 0) = true ↔ Fin.ofNat 16 (b.toNat % 16) = (0 : Nibble)) := by
    intro b
    have := half ⟨b.toNat, b.toNat_lt⟩
    simpa only [UInt8.ofNat_toNat] using this
  have hu : unpack bytes = l := by
    rw [hl]
    unfold unpack
    congr 1
    funext b
    rw [(half' b).1, (half' b).2.1]
  refine ⟨fun h => ⟨packed l, by rw [new_packed bytes h, hu], looks_packed l⟩, fun h => ⟨⟨"assertion failed: bytes.len() <= ROOT_NIBBLE_HEIGHT / 2", ?_⟩, "assertion failed: bytes.len() <= ROOT_NIBBLE_HEIGHT / 2", ?_⟩, fun h hz => ?_, fun hz => ?_⟩
  · have : ¬ bytes.length ≤ rootNibbleHeight / 2 := by show ¬ _ ≤ 32; omega
    simp only [NibblePath.new, this, decide_false, assert_false, Res.error_bind]
  · have : ¬ bytes.length ≤ rootNibbleHeight / 2 := by show ¬ _ ≤ 32; omega
    simp only [NibblePath.newOdd, this, decide_false, assert_false, Res.error_bind]
  · rcases List.eq_nil_or_concat bytes with rfl | ⟨bs, b, rfl⟩
    · rw [hl] at hz; cases hz
    · rw [List.concat_eq_append] at *
      have e : l = unpack bs ++ [byteNibble (b >>> 4), byteNibble (b &&& 0x0f)] := by rw [← hu]; simp [unpack]
      rw [e] at hz
      have hz : byteNibble (b &&& 0x0f) = 0 := by simpa using hz
      rw [(half' b).2.1] at hz
      have hb := (half' b).2.2.2 hz
      refine ⟨packed l.dropLast, ?_, looks_packed _⟩
      have h32 : (bs ++ [b]).length ≤ rootNibbleHeight / 2 := h
      simp only [NibblePath.newOdd, h32, decide_true, assert_true, Res.ok_bind, List.getLast?_concat, hb]
      have hd : l.dropLast = unpack bs ++ [byteNibble (b >>> 4)] := by
        rw [e, show unpack bs ++ [byteNibble (b >>> 4), byteNibble (b &&& 0x0f)] = (unpack bs ++ [byteNibble (b >>> 4)]) ++ [byteNibble (b &&& 0x0f)] by simp,
          List.dropLast_concat]
      have hev : (unpack bs).length % 2 = 0 := by rw [unpack_length]; omega
      have hb0 : nibbleByte (byteNibble (b >>> 4)) <<< 4 = b := by
        have h1 := byte_split' b
        rw [(half' b).2.1, hz, shift_zero] at h1
        exact h1
      simp only [packed, hd, pack_append _ _ hev, pack_unpack, pack, hb0, Res.pure_eq, List.length_append, unpack_length]
      congr 2
      simp; omega
  · rcases List.eq_nil_or_concat bytes with rfl | ⟨bs, b, rfl⟩
    · exact ⟨_, rfl⟩
    · rw [List.concat_eq_append] at *
      by_cases h32 : (bs ++ [b]).length ≤ rootNibbleHeight / 2
      · have e : l = unpack bs ++ [byteNibble (b >>> 4), byteNibble (b &&& 0x0f)] := by rw [← hu]; simp [unpack]
        have hb : (b &&& 0x0f == 0) = false := by
          rw [← Bool.not_eq_true]
          intro hb
          refine hz ?_
          rw [e]
          have := (half' b).2.2.1 hb
          rw [← (half' b).2.1] at this
          simp [this]
        exact ⟨"Last nibble must be 0.", by
          simp only [NibblePath.newOdd, h32, decide_true, assert_true, Res.ok_bind, List.getLast?_concat, hb,
            assert_false, Res.error_bind]⟩
      · exact ⟨"assertion failed: bytes.len() <= ROOT_NIBBLE_HEIGHT / 2", by simp only [NibblePath.newOdd, h32, decide_false, assert_false, Res.error_bind]⟩

/-- C26: the bits of an iterator at position `i` are those of the nibbles from `i` on, and `num_nibbles` counts all nibbles. -/
theorem C26_iterator_bits (l : List Nibble) (i : Nat) (hi : i ≤ l.length) :
    let it : NibbleIter := ⟨packed l, i, l.length, 0⟩
    it.numNibbles = l.length ∧
    (∃ bs, it.bits.collect = .ok bs ∧ bs.length = 4 * (l.length - i) ∧
      ∀ j, (h : i + j / 4 < l.length) → bs[j]? = some (l[i + j / 4].val.testBit (3 - j % 4))) ∧
    (∀ h : i < l.length, it.bits.peek = .ok (some (l[i].val.testBit 3))) ∧ (i = l.length → it.bits.peek = .ok none) := by
  refine ⟨rfl, ?_, ?_, ?_⟩
  · have h1 := bitIter_go l _ (i * 4) (l.length * 4) (Nat.le_refl _) rfl
    refine ⟨_, h1, ?_, ?_⟩
    · simp [nibbleBits_length]; omega
    · intro j hj
      rw [List.getElem?_take_of_lt (by omega), List.getElem?_drop, nibbleBits_get l _ (by omega)]
      have e1 : (i * 4 + j) / 4 = i + j / 4 := by omega
      have e2 : (i * 4 + j) % 4 = j % 4 := by omega
      simp only [e1, e2]
      rfl
  · intro h
    have hb := getBit_packed l (i * 4) (by omega)
    have e1 : i * 4 / 4 = i := by omega
    have e2 : i * 4 % 4 = 0 := by omega
    have hlt : i * 4 < l.length * 4 := by omega
    show (if i * 4 < l.length * 4 then ((packed l).getBit (i * 4) >>= fun b => pure (some b)) else .ok none) = _
    rw [if_pos hlt, hb]
    simp only [e1, e2]
    rfl
  · intro h
    simp [NibbleIter.bits, BitIter.peek, h]

-- push 1, 2, pop, push 3: an odd length is passed and the low half of the last byte is cleared and set again
example : specPath [.push 1, .push 2, .pop, .push 3, .push 4, .pop, .pop, .pop] [] = some ([], [some 2, some 4, some 3, some 1]) := by decide
example : specPath [.push 1, .push 2, .pop, .push 3, .push 4] [] = some ([1, 3, 4], [some 2]) := by decide
example : specPath (List.replicate 65 (.push 7)) [] = none := by decide
example : ∃ p out, (NibblePath.new []).bind (runPath [.push 1, .push 15, .pop, .push 3]) = .ok (p, out) := ⟨⟨2, [0x13]⟩, [some 15], by rfl⟩
example : skipCommon 4 ⟨packed [1, 2, 3], 0, 3, 0⟩ ⟨packed [1, 2, 5, 6], 0, 4, 0⟩
    = .ok (2, ⟨packed [1, 2, 3], 2, 3, 0⟩, ⟨packed [1, 2, 5, 6], 2, 4, 0⟩) := by rfl
example : ∃ p, NibblePath.newOdd [0x12, 0x30] = .ok p ∧ Looks p [1, 2, 3] := (C26_new [0x12, 0x30] _ rfl).2.2.1 (by decide) (by decide)
example : ∃ m, NibblePath.newOdd [0x12, 0x34] = .error (.panic m) := (C26_new [0x12, 0x34] _ rfl).2.2.2 (by decide)

end Verif.Props
