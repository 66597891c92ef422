import Verif.Jmt.Text
import Verif.Proofs.NibblePath
import Verif.Proofs.PmtSerde
import Verif.Proofs.KeyNum
import Verif.Props.Examples
import Verif.Props.JmtPath
import Verif.Props.JmtSerde
import Std.Data.String.ToNat
/-! Properties C92 (bits from both ends) and C93 (texts of hashes, paths and node keys). -/

set_option autoImplicit false

namespace Verif.Props
open Verif Verif.Jmt

/-! ### C92 -/

/-- Taking an item from the front or from the back. -/
inductive Pull where
  | front
  | back

/-- What taking items from a sequence returns, and what is left. -/
def pullList {α : Type} : List Pull → List α → List (Option α) × List α
  | [], l => ([], l)
  | .front :: ps, l => let r := pullList ps l.tail; (l.head? :: r.1, r.2)
  | .back :: ps, l => let r := pullList ps l.dropLast; (l.getLast? :: r.1, r.2)

/-- Taking bits from the iterator over a key. -/
def pullKey : List Pull → KeyBitIter → List (Option Bool) × KeyBitIter
  | [], it => ([], it)
  | .front :: ps, it => let r := pullKey ps it.next.2; (it.next.1 :: r.1, r.2)
  | .back :: ps, it => let r := pullKey ps it.nextBack.2; (it.nextBack.1 :: r.1, r.2)

/-- Taking bits from the iterator over a path. -/
def pullPath : List Pull → BitIter → Res (List (Option Bool) × BitIter)
  | [], it => .ok ([], it)
  | .front :: ps, it => do
    let (x, it) ← it.next
    let (xs, it) ← pullPath ps it
    pure (x :: xs, it)
  | .back :: ps, it => do
    let (x, it) ← it.nextBack
    let (xs, it) ← pullPath ps it
    pure (x :: xs, it)

/-- The part of a list between two positions. -/
theorem range_front {α : Type} (l : List α) (lo hi : Nat) (hlt : lo < hi) :
    ((l.take hi).drop lo).head? = l[lo]? ∧ ((l.take hi).drop lo).tail = (l.take hi).drop (lo + 1) := by
  constructor
  · rw [List.head?_drop, List.getElem?_take_of_lt hlt]
  · rw [List.tail_drop]

theorem range_back {α : Type} (l : List α) (lo hi : Nat) (h : hi ≤ l.length) (hlt : lo < hi) :
    ((l.take hi).drop lo).getLast? = l[hi - 1]? ∧ ((l.take hi).drop lo).dropLast = (l.take (hi - 1)).drop lo := by
  constructor
  · rw [List.getLast?_eq_getElem?, List.getElem?_drop, List.length_drop, List.length_take, Nat.min_eq_left h,
      show lo + (hi - lo - 1) = hi - 1 by omega, List.getElem?_take_of_lt (by omega)]
  · rw [List.dropLast_eq_take, List.drop_take, List.drop_take, List.take_take, List.length_take, List.length_drop]
    congr 1
    omega

theorem pullKey_range (ps : List Pull) (k : Key) (lo hi : Nat) (h : hi ≤ 256) :
    (pullKey ps ⟨k, lo, hi⟩).1 = (pullList ps ((k.bits.take hi).drop lo)).1 ∧
      ∃ lo' hi', hi' ≤ 256 ∧ (pullKey ps ⟨k, lo, hi⟩).2 = ⟨k, lo', hi'⟩ ∧
        (pullList ps ((k.bits.take hi).drop lo)).2 = (k.bits.take hi').drop lo' := by
  have hl : hi ≤ k.bits.length := by simpa using h
  induction ps generalizing lo hi with
  | nil => exact ⟨rfl, lo, hi, h, rfl, rfl⟩
  | cons p ps ih =>
    by_cases hlt : lo < hi
    · cases p with
      | front =>
        obtain ⟨e1, e2⟩ := range_front k.bits lo hi hlt
        simp only [pullKey, pullList, KeyBitIter.next, if_pos hlt, e1, e2, Key.bits_getElem? k lo (by omega)]
        obtain ⟨i1, i2⟩ := ih (lo + 1) hi h hl
        exact ⟨by rw [i1], i2⟩
      | back =>
        obtain ⟨e1, e2⟩ := range_back k.bits lo hi hl hlt
        simp only [pullKey, pullList, KeyBitIter.nextBack, if_pos hlt, e1, e2, Key.bits_getElem? k (hi - 1) (by omega)]
        obtain ⟨i1, i2⟩ := ih lo (hi - 1) (by omega) (by omega)
        exact ⟨by rw [i1], i2⟩
    · have e : (k.bits.take hi).drop lo = [] := by apply List.drop_eq_nil_of_le; rw [List.length_take]; omega
      obtain ⟨i1, i2⟩ := ih lo hi h hl
      rw [e] at i1 i2
      cases p with
      | front => simp only [pullKey, pullList, KeyBitIter.next, if_neg hlt, e, List.tail_nil, List.head?_nil]; exact ⟨by rw [i1], i2⟩
      | back => simp only [pullKey, pullList, KeyBitIter.nextBack, if_neg hlt, e, List.dropLast_nil, List.getLast?_nil]; exact ⟨by rw [i1], i2⟩

/-- **C92**, keys: however `next` and `next_back` are called on the iterator over the bits of a key, they return what
taking items from the front and the back of the 256 bits returns, and the iterator knows how many are left. -/
theorem C92_key (k : Key) (ps : List Pull) :
    (pullKey ps (.new k)).1 = (pullList ps k.bits).1 ∧
      (pullKey ps (.new k)).2.sizeHint = ((pullList ps k.bits).2.length, some (pullList ps k.bits).2.length) := by
  have e : (k.bits.take 256).drop 0 = k.bits := by
    rw [List.drop_zero, List.take_of_length_le (by simp)]
  obtain ⟨h1, lo, hi, hhi, h2, h3⟩ := pullKey_range ps k 0 256 (Nat.le_refl _)
  rw [e] at h1 h3
  refine ⟨h1, ?_⟩
  change (pullKey ps ⟨k, 0, 256⟩).2.sizeHint = _
  rw [h2, h3, List.length_drop, List.length_take, Key.bits_length, Nat.min_eq_left hhi]
  rfl

theorem pullPath_range (ps : List Pull) (l : List Nibble) (lo hi : Nat) (h : hi ≤ l.length * 4) :
    ∃ lo' hi', hi' ≤ l.length * 4 ∧ pullPath ps ⟨packed l, lo, hi⟩ = .ok ((pullList ps (((Jmt.nibbleBits l).take hi).drop lo)).1, ⟨packed l, lo', hi'⟩) ∧
        (pullList ps (((Jmt.nibbleBits l).take hi).drop lo)).2 = ((Jmt.nibbleBits l).take hi').drop lo' := by
  have hl : ∀ {i}, i ≤ l.length * 4 → i ≤ (Jmt.nibbleBits l).length := fun h => by rw [nibbleBits_length]; exact h
  induction ps generalizing lo hi with
  | nil => exact ⟨lo, hi, h, rfl, rfl⟩
  | cons p ps ih =>
    by_cases hlt : lo < hi
    · cases p with
      | front =>
        obtain ⟨e1, e2⟩ := range_front (Jmt.nibbleBits l) lo hi hlt
        obtain ⟨lo', hi', i1, i2, i3⟩ := ih (lo + 1) hi h
        have hb := getBit_packed l lo (by omega)
        rw [nibbleBits_get l lo (by omega)] at e1
        simp only [pullPath, pullList, BitIter.next, if_pos hlt, e1, e2, hb, bind, Except.bind, pure, Except.pure, i2]
        exact ⟨lo', hi', i1, rfl, i3⟩
      | back =>
        obtain ⟨e1, e2⟩ := range_back (Jmt.nibbleBits l) lo hi (hl h) hlt
        obtain ⟨lo', hi', i1, i2, i3⟩ := ih lo (hi - 1) (by omega)
        have hb := getBit_packed l (hi - 1) (by omega)
        rw [nibbleBits_get l (hi - 1) (by omega)] at e1
        simp only [pullPath, pullList, BitIter.nextBack, if_pos hlt, e1, e2, hb, bind, Except.bind, pure, Except.pure, i2]
        exact ⟨lo', hi', i1, rfl, i3⟩
    · have e : ((Jmt.nibbleBits l).take hi).drop lo = [] := by apply List.drop_eq_nil_of_le; rw [List.length_take]; omega
      obtain ⟨lo', hi', i1, i2, i3⟩ := ih lo hi h
      rw [e] at i2 i3
      cases p with
      | front =>
        simp only [pullPath, pullList, BitIter.next, if_neg hlt, e, List.tail_nil, List.head?_nil, bind, Except.bind, i2]
        exact ⟨lo', hi', i1, rfl, i3⟩
      | back =>
        simp only [pullPath, pullList, BitIter.nextBack, if_neg hlt, e, List.dropLast_nil, List.getLast?_nil, bind, Except.bind, i2]
        exact ⟨lo', hi', i1, rfl, i3⟩

/-- The bits of a sequence of nibbles, the most significant bit of each first. -/
def bitsOfNibbles (l : List Nibble) : List Bool := l.flatMap fun n => [n.val.testBit 3, n.val.testBit 2, n.val.testBit 1, n.val.testBit 0]

theorem nibbleBits_eq (l : List Nibble) : Jmt.nibbleBits l = bitsOfNibbles l := by
  unfold Jmt.nibbleBits bitsOfNibbles
  congr 1

/-- **C92**, paths: the same for the iterator over the bits of what is left of a path when `i` nibbles have been taken; it never panics, and
peeking returns what `next` would return. -/
theorem C92_path (ops : List PathOp) (p : NibblePath) (out : List (Option Nibble)) (h : (NibblePath.new []).bind (runPath ops) = .ok (p, out)) :
    ∃ l, p.nibbles.collect = .ok l ∧ ∀ i, i ≤ l.length → ∀ ps : List Pull,
      ∃ it, pullPath ps (NibbleIter.bits ⟨p, i, l.length, 0⟩) = .ok ((pullList ps (bitsOfNibbles (l.drop i))).1, it) ∧
        it.peek = .ok (pullList ps (bitsOfNibbles (l.drop i))).2.head? := by
  obtain ⟨l, rfl⟩ : ∃ l, p = packed l := by
    have := runPath_packed ops []
    cases hs : specPath ops [] with
    | none => rw [hs] at this; obtain ⟨m, hm⟩ := this; rw [show (NibblePath.new []).bind (runPath ops) = runPath ops (packed []) from rfl, hm] at h; cases h
    | some r =>
      rw [hs] at this
      rw [show (NibblePath.new []).bind (runPath ops) = runPath ops (packed []) from rfl, this] at h
      cases h
      exact ⟨_, rfl⟩
  refine ⟨l, (looks_packed l).nibbles, fun i hi ps => ?_⟩
  have e : ((Jmt.nibbleBits l).take (l.length * 4)).drop (i * 4) = bitsOfNibbles (l.drop i) := by
    rw [List.take_of_length_le (Nat.le_of_eq (nibbleBits_length l)), ← nibbleBits_eq]
    clear h
    induction i generalizing l with
    | zero => rfl
    | succ i ih =>
      cases l with
      | nil => simp at hi
      | cons n l =>
        rw [List.drop_succ_cons, ← ih l (by simpa using hi), show (i + 1) * 4 = 4 + i * 4 by omega, ← List.drop_drop]
        rfl
  obtain ⟨lo, hi', h1, h2, h3⟩ := pullPath_range ps l (i * 4) (l.length * 4) (Nat.le_refl _)
  rw [e] at h2 h3
  refine ⟨_, h2, ?_⟩
  rw [h3]
  unfold BitIter.peek
  by_cases hlt : lo < hi'
  · obtain ⟨e1, -⟩ := range_front (Jmt.nibbleBits l) lo hi' hlt
    rw [e1, nibbleBits_get l lo (by omega), if_pos hlt]
    simp only [getBit_packed l lo (by omega)]
    rfl
  · have e : ((Jmt.nibbleBits l).take hi').drop lo = [] := by apply List.drop_eq_nil_of_le; rw [List.length_take]; omega
    rw [e, if_neg hlt]
    rfl

example : (pullKey [.front, .back, .back] (.new (key 128 3))).1 = [some true, some true, some true] := by decide +kernel

/-! ### C93 -/

/-- The value of a hexadecimal digit. -/
def hexDigitVal (c : Char) : Option Nat :=
  if '0' ≤ c ∧ c ≤ '9' then some (c.toNat - 48) else if 'a' ≤ c ∧ c ≤ 'f' then some (c.toNat - 87)
  else if 'A' ≤ c ∧ c ≤ 'F' then some (c.toNat - 55) else none

theorem hexEncode_inj (a b : List UInt8) (h : Serde.hexEncode a = Serde.hexEncode b) : a = b := by
  have h1 := Serde.hexDecode_hexEncode a
  rw [h, Serde.hexDecode_hexEncode] at h1
  exact (Except.ok.inj h1).symm

/-- The part of a text before the first occurrence of a character that does not occur in it is determined. -/
theorem append_cons_inj {α : Type} [DecidableEq α] (x : α) (a b r s : List α) (ha : x ∉ a) (hb : x ∉ b) (h : a ++ x :: r = b ++ x :: s) :
    a = b ∧ r = s := by
  induction a generalizing b with
  | nil =>
    cases b with
    | nil => exact ⟨rfl, by simpa using h⟩
    | cons y b => simp at h; exact absurd h.1 (by simp at hb; exact hb.1)
  | cons z a ih =>
    cases b with
    | nil => simp at h; exact absurd h.1.symm (by simp at ha; exact ha.1)
    | cons y b =>
      simp only [List.cons_append, List.cons.injEq] at h
      obtain ⟨e1, e2⟩ := ih b (by simp at ha; exact ha.2) (by simp at hb; exact hb.2) h.2
      exact ⟨by rw [h.1, e1], e2⟩

/-- **C93**, hashes: the text of a hash is its name and its hexadecimal digits, and determines the kind of hash and its bytes. -/
theorem C93_hash_text (a b : List UInt8) :
    (debugKeyHash a = "KeyHash(\"".toList ++ (Serde.hexEncode a).toList ++ "\")".toList) ∧
      (debugValueHash a = "ValueHash(\"".toList ++ (Serde.hexEncode a).toList ++ "\")".toList) ∧
      (debugRootHash a = "RootHash(\"".toList ++ (Serde.hexEncode a).toList ++ "\")".toList) ∧
      (debugKeyHash a = debugKeyHash b ↔ a = b) ∧ (debugValueHash a = debugValueHash b ↔ a = b) ∧ (debugRootHash a = debugRootHash b ↔ a = b) ∧
      debugKeyHash a ≠ debugValueHash b ∧ debugKeyHash a ≠ debugRootHash b ∧ debugValueHash a ≠ debugRootHash b := by
  have inj : ∀ name, debugHash name a = debugHash name b ↔ a = b := by
    intro name
    refine ⟨fun h => ?_, fun h => by rw [h]⟩
    unfold debugHash at h
    have h1 := List.append_cancel_right h
    exact hexEncode_inj a b (String.toList_inj.1 (List.append_cancel_left h1))
  refine ⟨rfl, rfl, rfl, inj _, inj _, inj _, ?_, ?_, ?_⟩
  · intro h; cases congrArg List.head? h
  · intro h; cases congrArg List.head? h
  · intro h; cases congrArg List.head? h

theorem hexChar_inj : ∀ a b : Nibble, Serde.hexChar a.val = Serde.hexChar b.val → a = b := by decide +kernel

theorem nibbleTexts_inj (l r : List Nibble) (h : l.flatMap nibbleText = r.flatMap nibbleText) : l = r := by
  induction l generalizing r with
  | nil =>
    cases r with
    | nil => rfl
    | cons y r => simp [nibbleText] at h
  | cons x l ih =>
    cases r with
    | nil => simp [nibbleText] at h
    | cons y r =>
      simp only [List.flatMap_cons, nibbleText, List.cons_append, List.nil_append, List.cons.injEq] at h
      rw [hexChar_inj x y h.1, ih r h.2]

theorem debug_packed (l : List Nibble) : (packed l).debug = .ok (l.flatMap nibbleText) := by
  unfold NibblePath.debug
  rw [(looks_packed l).nibbles]
  rfl

/-- The paths that can be made with the methods of `NibblePath` from the empty one. -/
def MadePath (p : NibblePath) : Prop := ∃ ops out, (NibblePath.new []).bind (runPath ops) = .ok (p, out)

theorem MadePath.packed {p : NibblePath} (h : MadePath p) : ∃ l, p = packed l := by
  obtain ⟨ops, out, h⟩ := h
  have := runPath_packed ops []
  rw [show (NibblePath.new []).bind (runPath ops) = runPath ops (Jmt.packed []) from rfl] at h
  cases hs : specPath ops [] with
  | none =>
    rw [hs] at this
    obtain ⟨m, hm⟩ := this
    rw [hm] at h
    cases h
  | some r =>
    rw [hs] at this
    simp only at this
    rw [this] at h
    cases h
    exact ⟨_, rfl⟩

/-- **C93**, paths: the text of a path has one hexadecimal digit for each nibble. Partial: paths read from documents are left out, which can panic
(`C93_unchecked_panics_false`). -/
theorem C93_path_text_partial (p : NibblePath) (h : MadePath p) :
    ∃ t l, p.debug = .ok t ∧ p.nibbles.collect = .ok l ∧ t.length = l.length ∧
      ∀ i, (hi : i < l.length) → ∃ c, t[i]? = some c ∧ hexDigitVal c = some l[i].val := by
  obtain ⟨l, rfl⟩ := h.packed
  refine ⟨_, l, debug_packed l, (looks_packed l).nibbles, ?_, fun i hi => ?_⟩
  · simp [nibbleText, List.length_flatMap]
  · have e : l.flatMap nibbleText = l.map fun n => Serde.hexChar n.val := by
      unfold nibbleText
      exact (List.map_eq_flatMap).symm
    refine ⟨Serde.hexChar l[i].val, by rw [e]; simp [hi], ?_⟩
    generalize l[i] = n
    revert n
    decide +kernel

theorem repr_no_comma (n : Nat) : ',' ∉ n.repr.toList := by
  intro h
  rw [Nat.toList_repr] at h
  exact absurd (Nat.isDigit_of_mem_toDigits (by decide) (by decide) h) (by decide)

/-- **C93**, node keys: the text of a node key determines it. Partial as `C93_path_text_partial`. -/
theorem C93_node_key_distinct_partial (v w : Nat) (p q : NibblePath) (hp : MadePath p) (hq : MadePath q) :
    (∃ t, debugNodeKey v p = .ok t) ∧ (debugNodeKey v p = debugNodeKey w q ↔ v = w ∧ p = q) := by
  obtain ⟨l, rfl⟩ := hp.packed
  obtain ⟨r, rfl⟩ := hq.packed
  unfold debugNodeKey
  rw [debug_packed, debug_packed]
  refine ⟨⟨_, rfl⟩, fun h => ?_, fun ⟨h1, h2⟩ => by rw [h1, packed_inj.1 h2]⟩
  have h' := Except.ok.inj h
  have h1 := List.append_cancel_right h'
  simp only [List.append_assoc] at h1
  have h2 := List.append_cancel_left h1
  obtain ⟨e1, e2⟩ := append_cons_inj ',' _ _ _ _ (repr_no_comma v) (repr_no_comma w) h2
  refine ⟨Nat.repr_inj.1 (String.toList_inj.1 e1), ?_⟩
  rw [nibbleTexts_inj l r (List.append_cancel_left (as := " nibble_path: ".toList) e2)]

/-- **C93**, errors: the text of the error about a missing root determines the version. -/
theorem C93_missing_root (v w : Nat) (h : missingRootText v = missingRootText w) : v = w := by
  unfold missingRootText at h
  exact Nat.repr_inj.1 (String.toList_inj.1 (List.append_cancel_left (List.append_cancel_right h)))

/-- **C93**, limit: printing a node key that was read from a document can panic, as the document can claim a nibble for which there is no byte. -/
theorem C93_unchecked_panics_false : ∃ d v p m, readNodeKey d = .ok (v, p) ∧ debugNodeKey v p = .error (.panic m) :=
  ⟨writeNodeKey (0, ⟨1, []⟩), 0, ⟨1, []⟩, _, C88_node_key 0 ⟨1, []⟩ (by decide) (by decide), rfl⟩

example : ∃ p, MadePath p ∧ debugNodeKey 7 p = .ok "NodeKey { version: 7, nibble_path: 3a }".toList :=
  ⟨packed [3, 10], ⟨[.push 3, .push 10], [], by rfl⟩, by decide +kernel⟩

end Verif.Props
