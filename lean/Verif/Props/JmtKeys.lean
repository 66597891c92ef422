import Verif.Props.Examples
import Verif.Proofs.KeyNum
import Verif.Jmt.Bytes
/-! Properties C27 (views of a key), C28 (hash of an internal node), C32 (domain separation). -/

set_option autoImplicit false

namespace Verif.Props
open Verif Verif.Jmt Verif.Spec
variable {D : Type}

/-! ### C27 -/

/-- **C27**, bits: the `i`-th bit is bit `255 - i` of the key read as a big-endian number. -/
theorem C27_bits (k : Key) (i : Nat) (hi : i < 256) : k.bit i = (keyNum k).testBit (255 - i) := by
  have h := digitsNum_digit 2 (k.bits.map Bool.toNat) (by
    intro d hd
    obtain ⟨b, _, rfl⟩ := List.mem_map.1 hd
    cases b <;> decide) i (by simpa using hi)
  rw [← keyNum_bits] at h
  simp only [List.length_map, Key.bits_length, List.getElem_map] at h
  rw [Nat.testBit_eq_decide_div_mod_eq, show 255 - i = 256 - 1 - i by omega, h]
  have : k.bits[i]'(by simpa using hi) = k.bit i := by simp [Key.bits]
  rw [this]
  cases k.bit i <;> rfl

/-- **C27**, nibbles: the `i`-th nibble is the base-16 digit number `i`, most significant first. -/
theorem C27_nibbles (k : Key) (i : Nat) (hi : i < 64) : (k.nibble i).val = keyNum k / 16 ^ (63 - i) % 16 := by
  have h := digitsNum_digit 16 (k.nibbles.map Fin.val) (by
    intro d hd
    obtain ⟨b, _, rfl⟩ := List.mem_map.1 hd
    exact b.isLt) i (by simpa using hi)
  rw [← keyNum_nibbles] at h
  simp only [List.length_map, Key.nibbles_length, List.getElem_map] at h
  rw [show 63 - i = 64 - 1 - i by omega, h]
  simp [Key.nibbles]

/-- **C27**, order: the order of keys is the order of the numbers. -/
theorem C27_order (a b : Key) : a < b ↔ keyNum a < keyNum b := by
  have hd : ∀ k : Key, ∀ d ∈ k.nibbles.map Fin.val, d < 16 := by
    intro k d hd
    obtain ⟨x, _, rfl⟩ := List.mem_map.1 hd
    exact x.isLt
  rw [keyNum_nibbles, keyNum_nibbles, digitsNum_lt_iff 16 _ _ (by simp) (hd a) (hd b), Key.lt_iff_nibbles]
  have : ∀ l l' : List Nibble, l < l' ↔ l.map Fin.val < l'.map Fin.val := by
    intro l
    induction l with
    | nil => intro l'; cases l' <;> simp
    | cons x l ih =>
      intro l'
      cases l' with
      | nil => simp
      | cons y l' => rw [List.map_cons, List.map_cons, List.cons_lt_cons_iff, List.cons_lt_cons_iff, ih, Fin.lt_def, Fin.ext_iff]
  exact this _ _

/-- **C27**, the number determines the key. -/
theorem C27_injective (a b : Key) (h : keyNum a = keyNum b) : a = b := by
  apply Key.ext_bit
  intro j hj
  rw [C27_bits a j hj, C27_bits b j hj, h]

/-- **C27**, rebuilding a key from its bits gives the key back. -/
theorem C27_rebuild (k : Key) : fromBitIter k.bits = some k.bytes := fromBitIter_bits k

theorem exists_byteBits : ∀ a b c d e f g h : Bool, ∃ x : UInt8, byteBits x = [a, b, c, d, e, f, g, h] := by
  intro a b c d e f g h
  refine ⟨UInt8.ofNat (digitsNum 2 ([a, b, c, d, e, f, g, h].map Bool.toNat)), ?_⟩
  revert a b c d e f g h
  decide +kernel

theorem exists_bytes (n : Nat) (bits : List Bool) (h : bits.length = 8 * n) : ∃ bs : List UInt8, bs.length = n ∧ bs.flatMap byteBits = bits := by
  induction n generalizing bits with
  | zero => exact ⟨[], rfl, by simp at h; simp [h]⟩
  | succ n ih =>
    match bits, h with
    | a :: b :: c :: d :: e :: f :: g :: i :: t, h =>
      obtain ⟨x, hx⟩ := exists_byteBits a b c d e f g i
      obtain ⟨bs, hl, hb⟩ := ih t (by simp at h; omega)
      exact ⟨x :: bs, by simp [hl], by simp [hx, hb]⟩

/-- **C27**, every sequence of 256 bits is that of a key, which `from_bit_iter` makes; other sequences are refused. -/
theorem C27_rebuild_any (bits : List Bool) :
    (bits.length = 256 → ∃ k : Key, k.bits = bits ∧ fromBitIter bits = some k.bytes) ∧ (bits.length ≠ 256 → fromBitIter bits = none) := by
  constructor
  · intro h
    obtain ⟨bs, hl, hb⟩ := exists_bytes 32 bits h
    refine ⟨⟨bs, hl⟩, ?_⟩
    have e : Key.bits ⟨bs, hl⟩ = bits := by rw [Key.bits_eq_bytes]; exact hb
    refine ⟨e, ?_⟩
    rw [← e]
    exact fromBitIter_bits _
  · intro h
    unfold fromBitIter
    rw [if_pos h]

example : fromBitIter (List.replicate 257 true) = none ∧ ∃ k : Key, k.bits = List.replicate 256 true :=
  ⟨(C27_rebuild_any _).2 (by rw [List.length_replicate]; decide), ((C27_rebuild_any _).1 List.length_replicate).imp fun _ h => h.1⟩

/-- **C27**, the common prefix length in bits is the exact number of equal leading bits. -/
theorem C27_common_prefix (a b : Key) (n : Nat) :
    a.commonPrefixBitsLen b = n ↔
      n ≤ 256 ∧ (∀ j, j < n → a.bit j = b.bit j) ∧ (n < 256 → a.bit n ≠ b.bit n) := by
  have hle : a.commonPrefixBitsLen b ≤ 256 := by
    rw [Key.commonPrefixBitsLen_eq]
    have := commonPrefixLen_le_left a.bits b.bits
    simpa using this
  have hpre : ∀ j, j < a.commonPrefixBitsLen b → a.bit j = b.bit j := by
    intro j hj
    have h := take_commonPrefixLen a.bits b.bits
    rw [← Key.commonPrefixBitsLen_eq] at h
    have := congrArg (fun l => l[j]?) h
    simp only [List.getElem?_take_of_lt hj] at this
    rw [Key.bits_getElem? a j (by omega), Key.bits_getElem? b j (by omega)] at this
    exact Option.some.inj this
  have hdiff : a.commonPrefixBitsLen b < 256 → a.bit (a.commonPrefixBitsLen b) ≠ b.bit (a.commonPrefixBitsLen b) := by
    intro hlt he
    have : a.commonPrefixBitsLen b + 1 ≤ a.commonPrefixBitsLen b := by
      refine Key.le_commonPrefixBitsLen ?_ (by omega)
      intro j hj
      by_cases hj' : j < a.commonPrefixBitsLen b
      · exact hpre j hj'
      · have : j = a.commonPrefixBitsLen b := by omega
        rw [this]; exact he
    omega
  constructor
  · rintro rfl
    exact ⟨hle, hpre, hdiff⟩
  · rintro ⟨h1, h2, h3⟩
    have h4 := Key.le_commonPrefixBitsLen h2 h1
    rcases Nat.lt_or_ge n (a.commonPrefixBitsLen b) with h5 | h5
    · exact absurd (hpre n h5) (h3 (by omega))
    · omega

example : keyNum (key 1 2) = 256 ^ 31 + 2 ∧ (key 1 2).nibble 1 = 1 ∧ (key 1 2).bit 254 = true ∧
    (key 1 2).commonPrefixBitsLen (key 1 1) = 254 := by decide +kernel

/-! ### C28 -/

/-- Specification of the hash of an internal node: a binary tree over `2 ^ h` slots, each empty or holding a child's hash and
whether it is a leaf. An empty range hashes to the placeholder, a range with a single leaf is that leaf, a single slot is its hash. -/
def slotsHash (H : Hasher D) : (h : Nat) → List (Option (D × Bool)) → D
  | 0, l =>
    match l.filterMap id with
    | [] => H.placeholder
    | (d, _) :: _ => d
  | h + 1, l =>
    match l.filterMap id with
    | [] => H.placeholder
    | [(d, true)] => d
    | _ => H.node (slotsHash H h (l.take (2 ^ h))) (slotsHash H h (l.drop (2 ^ h)))

/-- The 16 slots of a node. -/
def slots (n : InternalNode D) : List (Option (D × Bool)) :=
  (List.finRange 16).map (fun i => (n.child i).map (fun c => (c.hash, c.isLeaf)))

theorem filter_fst_filterMap {α β : Type} (p : α → Bool) (f : α → Option β) (l : List α) :
    (l.filterMap (fun i => (f i).map (fun c => (i, c)))).filter (fun ic => p ic.1) =
      (l.filter p).filterMap (fun i => (f i).map (fun c => (i, c))) := by
  induction l with
  | nil => rfl
  | cons x l ih =>
    cases hf : f x <;> cases hp : p x <;> simp [List.filter_cons, hf, hp, ih]

theorem map_filterMap_some {α β γ : Type} (f : α → Option β) (g : β → γ) (l : List α) :
    (l.map (fun i => (f i).map g)).filterMap id =
      (l.filterMap (fun i => (f i).map (fun c => (i, c)))).map (fun ic => g ic.2) := by
  induction l with
  | nil => rfl
  | cons x l ih => cases hf : f x <;> simp [hf, ih]

theorem slots_range (n : InternalNode D) (h : Nat) (hh : h ≤ 4) (start : Nat) (hs : start + 2 ^ h ≤ 16) :
    (((slots n).drop start).take (2 ^ h)).filterMap id = (n.childrenIn start (2 ^ h)).map (fun ic => (ic.2.hash, ic.2.isLeaf)) := by
  have hp : 0 < 2 ^ h := Nat.pow_pos (by decide)
  have e : ((List.finRange 16).drop start).take (2 ^ h) = rangeL start (2 ^ h) := by
    have : ∀ h : Fin 5, ∀ start : Fin 17, start.val + 2 ^ h.val ≤ 16 →
        ((List.finRange 16).drop start.val).take (2 ^ h.val) = rangeL start.val (2 ^ h.val) := by decide +kernel
    exact this ⟨h, by omega⟩ ⟨start, by omega⟩ hs
  have e2 : n.childrenIn start (2 ^ h) = (rangeL start (2 ^ h)).filterMap (fun i => (n.child i).map (fun c => (i, c))) :=
    filter_fst_filterMap (fun i : Nibble => decide (start ≤ i.val ∧ i.val < start + 2 ^ h)) n.children.children _
  unfold slots
  rw [← List.map_drop, ← List.map_take, e, e2]
  exact map_filterMap_some _ _ _

theorem slotsHash_eq_sub (H : Hasher D) (n : InternalNode D) (h start : Nat) (hh : h ≤ 4) (hs : start + 2 ^ h ≤ 16) :
    slotsHash H h (((slots n).drop start).take (2 ^ h)) = n.sub H h start := by
  induction h generalizing start with
  | zero =>
    have := slots_range n 0 (by omega) start hs
    unfold slotsHash InternalNode.sub
    rw [this]
    rw [Nat.pow_zero]
    match n.childrenIn start 1 with
    | [] => rfl
    | (i, c) :: rest => rfl
  | succ h ih =>
    have hw : 2 ^ (h + 1) = 2 ^ h + 2 ^ h := by rw [Nat.pow_succ]; omega
    have hp : 0 < 2 ^ h := Nat.pow_pos (by decide)
    have hr := slots_range n (h + 1) hh start hs
    have h1 := ih start (by omega) (by omega)
    have h2 := ih (start + 2 ^ h) (by omega) (by omega)
    unfold slotsHash InternalNode.sub
    rw [hr]
    have e1 : (((slots n).drop start).take (2 ^ (h + 1))).take (2 ^ h) = ((slots n).drop start).take (2 ^ h) := by
      rw [List.take_take]; congr 1; omega
    have e2 : (((slots n).drop start).take (2 ^ (h + 1))).drop (2 ^ h) = ((slots n).drop (start + 2 ^ h)).take (2 ^ h) := by
      rw [List.drop_take, List.drop_drop]; congr 1; omega
    rw [e1, e2, h1, h2]
    unfold InternalNode.stopAt
    match n.childrenIn start (2 ^ (h + 1)) with
    | [] => rfl
    | [(i, c)] =>
      obtain ⟨ver, hash, ty⟩ := c
      cases ty <;> rfl
    | (i, ⟨_, _, .leaf⟩) :: (j, c') :: rest => simp
    | (i, ⟨_, _, .internal _⟩) :: (j, c') :: rest => simp
    | (i, ⟨_, _, .internalLegacy⟩) :: (j, c') :: rest => simp

/-- **C28**, hash: the hash of an internal node is the sparse binary Merkle hash over its 16 children. -/
theorem C28_node_hash (H : Hasher D) (n : InternalNode D) : n.hash H = slotsHash H 4 (slots n) := by
  rw [InternalNode.hash_eq_sub, ← slotsHash_eq_sub H n 4 0 (by omega) (by omega)]
  rfl

/-- The four bits of a nibble, most significant first. -/
def nibbleBits (q : Nibble) : List Bool := [3, 2, 1, 0].map q.val.testBit

/-- What a lookup of nibble `q` in a node should find, and the hash at the bottom of the path. -/
def ChildFound (H : Hasher D) (n : InternalNode D) (path : List Nibble) (q : Nibble) : Option NodeKey → D → Prop
  | none, bottom => n.child q = none ∧ bottom = H.placeholder
  | some ck, bottom => ∃ i c, n.child i = some c ∧ ck = ⟨c.version, path ++ [i]⟩ ∧ bottom = c.hash ∧
      (i = q ∨ (n.child q = none ∧ c.isLeaf = true))

/-- The bits `h - 1, …, 0` of a nibble. -/
def bitsBelow (q : Nibble) : Nat → List Bool
  | 0 => []
  | h + 1 => q.val.testBit h :: bitsBelow q h

theorem mem_half (q : Nibble) (h : Nat) (hh : h < 4) :
    (InternalNode.childAndSiblingHalfStart q h).1 ≤ q.val ∧ q.val < (InternalNode.childAndSiblingHalfStart q h).1 + 2 ^ h := by
  have : ∀ h : Fin 4, ∀ q : Nibble, (InternalNode.childAndSiblingHalfStart q h.val).1 ≤ q.val ∧
      q.val < (InternalNode.childAndSiblingHalfStart q h.val).1 + 2 ^ h.val := by decide +kernel
  exact this ⟨h, hh⟩ q

theorem siblings_loop (H : Hasher D) (n : InternalNode D) (nk : NodeKey) (hp : nk.path.length < 64) (q : Nibble) (h : Nat) (hh : h ≤ 4)
    (h0 : h ≠ 0) (sibs : List D) (hne : n.childrenIn (q.val / 2 ^ h * 2 ^ h) (2 ^ h) ≠ [])
    (hns : n.stopAt (q.val / 2 ^ h * 2 ^ h) h = false) :
    ∃ r sibs' bottom, n.getChildWithSiblingsLoop H nk q n.generateBitmaps h sibs = .ok (r, sibs ++ sibs') ∧
      ChildFound H n nk.path q r bottom ∧ climb H sibs' (bitsBelow q h) bottom = n.sub H h (q.val / 2 ^ h * 2 ^ h) := by
  induction h generalizing sibs with
  | zero => exact absurd rfl h0
  | succ h ih =>
    obtain ⟨t1, t2, t3, t4, t5, t6, t7⟩ := half_starts ⟨h, by omega⟩ q
    simp only at t1 t2 t3 t4 t5 t6 t7
    generalize hbm : n.generateBitmaps = bm at ih ⊢
    have hbmok : ∀ start w, n.BmOk start w bm := by
      intro start w; rw [← hbm]; exact InternalNode.bmOk_generate n start w
    have hsib : n.sub H h (InternalNode.childAndSiblingHalfStart q h).2 =
        InternalNode.merkleHash H n h (InternalNode.childAndSiblingHalfStart q h).2 bm :=
      (InternalNode.merkleHash_eq_sub H n h _ bm (hbmok _ _)).symm
    have hsub : n.sub H (h + 1) (q.val / 2 ^ (h + 1) * 2 ^ (h + 1)) =
        if q.val.testBit h then H.node (InternalNode.merkleHash H n h (InternalNode.childAndSiblingHalfStart q h).2 bm)
            (n.sub H h (InternalNode.childAndSiblingHalfStart q h).1)
        else H.node (n.sub H h (InternalNode.childAndSiblingHalfStart q h).1)
            (InternalNode.merkleHash H n h (InternalNode.childAndSiblingHalfStart q h).2 bm) := by
      rw [← hsib, t2, t3]
      rw [InternalNode.sub]
      match hcs : n.childrenIn (q.val / 2 ^ (h + 1) * 2 ^ (h + 1)) (2 ^ (h + 1)) with
      | [] => exact absurd hcs hne
      | (i, c) :: rest =>
        simp only [hns]
        cases q.val.testBit h <;> simp
    obtain ⟨m1, m2⟩ := mem_half q h (by omega)
    unfold InternalNode.getChildWithSiblingsLoop
    rw [Nat.one_shiftLeft]
    simp only [InternalNode.range_eq_zero_iff n _ _ bm (hbmok _ _), InternalNode.stop_iff n _ h bm (hbmok _ _)]
    by_cases hz : n.childrenIn (InternalNode.childAndSiblingHalfStart q h).1 (2 ^ h) = []
    · rw [if_pos hz]
      refine ⟨none, [_], H.placeholder, rfl, ⟨?_, rfl⟩, ?_⟩
      · cases hc : n.child q with
        | none => rfl
        | some c =>
          have : (q, c) ∈ n.childrenIn (InternalNode.childAndSiblingHalfStart q h).1 (2 ^ h) :=
            InternalNode.childrenIn_mem.2 ⟨hc, m1, m2⟩
          rw [hz] at this; simp at this
      · have hs0 : n.sub H h (InternalNode.childAndSiblingHalfStart q h).1 = H.placeholder := by
          cases h with
          | zero => rw [Nat.pow_zero] at hz; rw [InternalNode.sub, hz]
          | succ h => rw [InternalNode.sub, hz]
        rw [hsub, hs0]
        simp only [bitsBelow, climb]
    · rw [if_neg hz]
      by_cases hstop : n.stopAt (InternalNode.childAndSiblingHalfStart q h).1 h = true
      · rw [if_pos hstop]
        match hcs : n.childrenIn (InternalNode.childAndSiblingHalfStart q h).1 (2 ^ h) with
        | [] => exact absurd hcs hz
        | (i, c) :: rest =>
          have hi := InternalNode.onlyChildIndex_eq n _ _ bm (hbmok _ _) hcs
          have hmem : n.child i = some c ∧ (InternalNode.childAndSiblingHalfStart q h).1 ≤ i.val ∧
              i.val < (InternalNode.childAndSiblingHalfStart q h).1 + 2 ^ h :=
            InternalNode.childrenIn_mem.1 (by rw [hcs]; exact List.mem_cons_self)
          rw [hi]
          simp only [hmem.1]
          have hgen : NodeKey.genChild nk c.version i = .ok ⟨c.version, nk.path ++ [i]⟩ := by
            simp [NodeKey.genChild, rootNibbleHeight, hp]
          rw [hgen]
          refine ⟨some _, [_], c.hash, rfl, ⟨i, c, hmem.1, rfl, rfl, ?_⟩, ?_⟩
          · cases h with
            | zero =>
              left
              apply Fin.ext
              have := hmem.2
              simp at m1 m2 this
              omega
            | succ h =>
              unfold InternalNode.stopAt at hstop
              rw [hcs] at hstop
              cases rest with
              | cons => simp at hstop
              | nil =>
                simp at hstop
                by_cases hiq : i = q
                · exact .inl hiq
                · refine .inr ⟨?_, hstop⟩
                  cases hc : n.child q with
                  | none => rfl
                  | some c' =>
                    have : (q, c') ∈ n.childrenIn (InternalNode.childAndSiblingHalfStart q (h + 1)).1 (2 ^ (h + 1)) :=
                      InternalNode.childrenIn_mem.2 ⟨hc, m1, m2⟩
                    rw [hcs] at this
                    simp at this
                    exact absurd this.1.symm hiq
          · have hs0 : n.sub H h (InternalNode.childAndSiblingHalfStart q h).1 = c.hash := by
              cases h with
              | zero => rw [Nat.pow_zero] at hcs; rw [InternalNode.sub, hcs]
              | succ h => rw [InternalNode.sub, hcs]; simp [hstop]
            rw [hsub, hs0]
            simp only [bitsBelow, climb]
      · rw [if_neg hstop]
        have hh0 : h ≠ 0 := by
          rintro rfl
          apply hstop
          unfold InternalNode.stopAt
          split <;> simp
        obtain ⟨r, sibs', bottom, e1, e2, e3⟩ := ih (by omega) hh0
          (sibs ++ [InternalNode.merkleHash H n h (InternalNode.childAndSiblingHalfStart q h).2 bm])
          (by rw [← t1]; exact hz) (by rw [← t1]; simpa using hstop)
        refine ⟨r, InternalNode.merkleHash H n h (InternalNode.childAndSiblingHalfStart q h).2 bm :: sibs', bottom, ?_, e2, ?_⟩
        · rw [e1, List.append_assoc]; rfl
        · rw [hsub, t1, ← e3]
          simp only [bitsBelow, climb]

/-- **C28**, siblings: in a node that is not empty and not just one leaf, looking up a nibble finds the child at that nibble, or
the only leaf sharing the rest of the way, or nothing; and the siblings returned with it lead from what was found back to the
hash of the node. -/
theorem C28_siblings (H : Hasher D) (n : InternalNode D) (nk : NodeKey) (q : Nibble) (hp : nk.path.length < 64)
    (hne : ∃ i, (n.child i).isSome)
    (hleaf : ∀ i c, n.child i = some c → c.isLeaf = true → ∃ j, j ≠ i ∧ (n.child j).isSome) :
    ∃ r sibs bottom, n.getChildWithSiblings H nk q = .ok (r, sibs) ∧ ChildFound H n nk.path q r bottom ∧
      climb H sibs (nibbleBits q) bottom = n.hash H := by
  have e0 : q.val / 2 ^ 4 * 2 ^ 4 = 0 := by
    have := q.isLt
    rw [Nat.div_eq_of_lt (by omega)]; rfl
  have hmem : ∀ i c, (i, c) ∈ n.childrenIn 0 (2 ^ 4) ↔ n.child i = some c := by
    intro i c
    rw [InternalNode.childrenIn_mem]
    have := i.isLt
    constructor
    · exact fun h => h.1
    · exact fun h => ⟨h, Nat.zero_le _, by omega⟩
  have h1 : n.childrenIn 0 (2 ^ 4) ≠ [] := by
    obtain ⟨i, hi⟩ := hne
    obtain ⟨c, hc⟩ := Option.isSome_iff_exists.1 hi
    intro h
    have := (hmem i c).2 hc
    rw [h] at this; simp at this
  have h2 : n.stopAt 0 4 = false := by
    unfold InternalNode.stopAt
    match hcs : n.childrenIn 0 (2 ^ 4) with
    | [] => exact absurd hcs h1
    | [(i, c)] =>
      have hi := (hmem i c).1 (by rw [hcs]; exact List.mem_cons_self)
      cases hl : c.isLeaf with
      | false => simp [hl]
      | true =>
        obtain ⟨j, hj, hjs⟩ := hleaf i c hi hl
        obtain ⟨c', hc'⟩ := Option.isSome_iff_exists.1 hjs
        have := (hmem j c').2 hc'
        rw [hcs] at this
        simp at this
        exact absurd this.1 hj
    | _ :: _ :: _ => simp
  obtain ⟨r, sibs, bottom, e1, e2, e3⟩ := siblings_loop H n nk hp q 4 (by omega) (by omega) [] (by rw [e0]; exact h1) (by rw [e0]; exact h2)
  refine ⟨r, sibs, bottom, e1, e2, ?_⟩
  rw [InternalNode.hash_eq_sub, ← e0, ← e3]
  rfl

/-- A node with two leaves meets the hypotheses. -/
example : let n : InternalNode Term := InternalNode.ofFun true (fun i => if i = 3 then some ⟨.placeholder, 1, .leaf⟩ else if i = 5 then some ⟨.placeholder, 2, .leaf⟩ else none)
    (∃ i, (n.child i).isSome) ∧ (∀ i c, n.child i = some c → c.isLeaf = true → ∃ j, j ≠ i ∧ (n.child j).isSome) := by
  refine ⟨⟨3, by decide⟩, ?_⟩
  intro i c hc _
  by_cases h : i = 3
  · exact ⟨5, by rw [h]; decide, by decide⟩
  · exact ⟨3, fun e => h e.symm, by decide⟩

/-! ### C32 -/

/-- **C32.** The bytes hashed for a leaf are never those hashed for an internal node. -/
theorem C32_separated (k v a b : Key) : leafBytes k v ≠ internalBytes a b := by
  intro h
  have := congrArg List.length h
  simp [leafBytes, internalBytes, leafDomainSeparator, internalDomainSeparator, k.len, v.len, a.len, b.len] at this

/-- **C32.** The bytes hashed for a leaf determine its key and value hash. -/
theorem C32_leaf_injective (k v k' v' : Key) (h : leafBytes k v = leafBytes k' v') : k = k' ∧ v = v' := by
  unfold leafBytes at h
  obtain ⟨h1, h2⟩ := List.append_inj h (by simp [k.len, k'.len])
  exact ⟨Key.ext_bytes (List.append_cancel_left h1), Key.ext_bytes h2⟩

/-- **C32.** The bytes hashed for an internal node determine its children. -/
theorem C32_internal_injective (a b a' b' : Key) (h : internalBytes a b = internalBytes a' b') : a = a' ∧ b = b' := by
  unfold internalBytes at h
  obtain ⟨h1, h2⟩ := List.append_inj h (by simp [a.len, a'.len])
  exact ⟨Key.ext_bytes (List.append_cancel_left h1), Key.ext_bytes h2⟩

/-- **C32**: the placeholder and the texts put before what is hashed. -/
theorem C32_texts : placeholderBytes.bytes = "SPARSE_MERKLE_PLACEHOLDER_HASH__".toUTF8.toList ∧
    (∀ k v, leafBytes k v = "JMT::LeafNode".toUTF8.toList ++ k.bytes ++ v.bytes) ∧
    ∀ a b, internalBytes a b = "JMT::IntrnalNode".toUTF8.toList ++ a.bytes ++ b.bytes := by
  refine ⟨by decide +kernel, fun k v => ?_, fun a b => ?_⟩
  · rw [show "JMT::LeafNode".toUTF8.toList = leafDomainSeparator by decide +kernel]; rfl
  · rw [show "JMT::IntrnalNode".toUTF8.toList = internalDomainSeparator by decide +kernel]; rfl

/-- The bytes hashed for an input. -/
def inputBytes : HashInput Key → List UInt8
  | .leaf k v => leafBytes k v
  | .node a b => internalBytes a b

/-- **C32**, consequence: a clash in the sense of C05–C07 is a collision of the underlying byte hash function between bytes
hashed on the two sides, or bytes hashed on one side whose hash is the placeholder. -/
theorem C32_clash_is_collision (sha : List UInt8 → Key) (vh : Value → Key) (xs ys : List (HashInput Key))
    (h : Clash (byteHasher sha vh) xs ys) :
    (∃ p ∈ xs.map inputBytes, ∃ q ∈ ys.map inputBytes, p ≠ q ∧ sha p = sha q) ∨
    (∃ p ∈ (xs ++ ys).map inputBytes, sha p = placeholderBytes) := by
  have hd : ∀ x : HashInput Key, x.digest (byteHasher sha vh) = sha (inputBytes x) := by intro x; cases x <;> rfl
  rcases h with ⟨x, hx, y, hy, hne, he⟩ | ⟨x, hx, he⟩
  · left
    refine ⟨_, List.mem_map_of_mem hx, _, List.mem_map_of_mem hy, ?_, by rw [← hd, ← hd, he]⟩
    intro hb
    apply hne
    cases x with
    | leaf k v =>
      cases y with
      | leaf k' v' => obtain ⟨rfl, rfl⟩ := C32_leaf_injective _ _ _ _ hb; rfl
      | node a b => exact absurd hb (C32_separated _ _ _ _)
    | node a b =>
      cases y with
      | leaf k' v' => exact absurd hb.symm (C32_separated _ _ _ _)
      | node a' b' => obtain ⟨rfl, rfl⟩ := C32_internal_injective _ _ _ _ hb; rfl
  · right
    exact ⟨_, List.mem_map_of_mem hx, by rw [← hd, he]; rfl⟩

example : leafBytes (key 1 2) (key 3 4) ≠ internalBytes (key 1 2) (key 3 4) := C32_separated _ _ _ _

/-- A hash function with a collision, to which `C32_clash_is_collision` applies. -/
example : Clash (byteHasher (fun _ => key 0 0) (fun _ => key 0 0)) [.leaf (key 1 1) (key 2 2)] [.node (key 1 1) (key 2 2)] :=
  .inl ⟨_, List.mem_singleton.2 rfl, _, List.mem_singleton.2 rfl, by simp, rfl⟩

end Verif.Props
