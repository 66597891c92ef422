import Verif.Proofs.PmtDecode
import Verif.Proofs.PmtCircle
import Verif.Proofs.PmtFormat
import Verif.Props.PmtCodec
/-! What `decode_node` accepts: C94. -/

set_option autoImplicit false

namespace Verif.Props
open Verif Verif.Pmt PmtEx

variable {K : Keccak}

/-- **C94**, well-formed: whatever bytes are accepted as a node, the node has paths of digits, with the terminator exactly in leaves, no
empty path in an extension and no empty value in a branch; also all nodes in it. (Nothing has 2^59 bytes.) -/
theorem C94_wellformed {b : Bytes} {n : Node} (hb : b.length < 2 ^ 59) (h : decodeNode b = .ok n) : Spec.NodeOk n :=
  decodeAux_ok _ b n hb h

/-- **C94**, lengths: what is read as the bytes of an item is a single byte below 128, or stands behind the length that the Yellow Paper
puts in front of it, in its only form. (The length may be that of a list.) -/
theorem C94_lengths {x d : Bytes} (hx : x.length < 2 ^ 64) (h : Rlp.data x = .ok d) :
    (∃ c t, x = c :: t ∧ c.toNat < 128 ∧ d = [c]) ∨ ∃ t, x = Yellow.withLength 128 d ++ t ∨ x = Yellow.withLength 192 d ++ t := by
  unfold Rlp.data at h
  cases hp : Rlp.payloadInfo x with
  | error e => rw [hp] at h; cases h
  | ok i =>
    rw [hp] at h
    cases h
    obtain ⟨hlen, hcase⟩ := Rlp.payloadInfo_header hp
    have hl : ((x.drop i.headerLen).take i.valueLen).length = i.valueLen := by
      rw [List.length_take, List.length_drop]; omega
    have hx' : x = x.take i.headerLen ++ ((x.drop i.headerLen).take i.valueLen ++ (x.drop i.headerLen).drop i.valueLen) := by
      rw [List.take_append_drop, List.take_append_drop]
    have hlt : ((x.drop i.headerLen).take i.valueLen).length < 256 ^ 8 := by
      rw [hl]; have : (2 : Nat) ^ 64 = 256 ^ 8 := by norm_num
      omega
    rcases hcase with ⟨c, t, rfl, hc, h0, h1⟩ | ⟨_, h1⟩ | ⟨_, h1⟩
    · left
      exact ⟨c, t, rfl, hc, by rw [h0, h1]; rfl⟩
    · refine .inr ⟨(x.drop i.headerLen).drop i.valueLen, .inl ?_⟩
      rw [← Yellow.header_eq 128 _ hlt, hl, ← h1, List.append_assoc]
      exact hx'
    · refine .inr ⟨(x.drop i.headerLen).drop i.valueLen, .inr ?_⟩
      rw [← Yellow.header_eq 192 _ hlt, hl, ← h1, List.append_assoc]
      exact hx'

/-- **C94**, written again: a node that was accepted, other than a hash, is encoded without a panic, and its encoding is accepted as the same
node up to children of 32 and more bytes, in the place of which are their hashes. -/
theorem C94_written_again {b : Bytes} {n : Node} (hb : b.length < 2 ^ 59) (h : decodeNode b = .ok n) (hn : Spec.NotHash n) :
    ∃ b' w, encodeRaw K n = .ok (b', w) ∧ decodeNode b' = .ok (Spec.collapse K n) :=
  C47_node_roundtrip (C94_wellformed hb h) hn

/-- **C94**, the bytes that are written: exactly the RLP encodings of the items that stand for nodes in the Yellow Paper. -/
theorem C94_format (b : Bytes) : (∃ n w, Spec.NodeOk n ∧ encodeRaw K n = .ok (b, w)) ↔ ∃ i, Yellow.Format false i ∧ b = Yellow.rlp i := by
  constructor
  · rintro ⟨n, w, hn, he⟩
    have hnh : Spec.NotHash n := by cases n <;> trivial
    obtain ⟨b', w', i, h1, h2, h3⟩ := (Yellow.format_of_node (K := K) n hn).1 hnh
    rw [he] at h1
    cases h1
    exact ⟨i, h2, h3⟩
  · rintro ⟨i, hi, rfl⟩
    obtain ⟨n, h1, _, h2, _⟩ := Yellow.node_of_format (K := K) hi
    exact ⟨n, _, h1, h2⟩

/-- **C94**, partial, of the bytes that are written: the RLP encoding of an item that stands for a node in the Yellow Paper is accepted, and
the node is written as the same bytes, and as nothing else besides. The full statement, that no other bytes are accepted, is false, see
`C94_one_encoding_false`. -/
theorem C94_read_back_partial {i : Yellow.Item} (hi : Yellow.Format false i) :
    ∃ n, decodeNode (Yellow.rlp i) = .ok n ∧ encodeRaw K n = .ok (Yellow.rlp i, []) := by
  obtain ⟨n, h1, hnh, h2, h3⟩ := Yellow.node_of_format (K := K) hi
  obtain ⟨b, w, g1, g2⟩ := C47_node_roundtrip (K := K) h1 hnh
  rw [h2] at g1
  cases g1
  exact ⟨n, h3 ▸ g2, h2⟩

/-- **C94**, exactly what is accepted: bytes are accepted as a node if and only if `Spec.Accepted` describes them, and as no other node. -/
theorem C94_accepted {b : Bytes} (hb : b.length < 2 ^ 64) (n : Node) : decodeNode b = .ok n ↔ Spec.Accepted b n :=
  (decodeAux_iff _ b (Nat.lt_succ_self _) hb).1 n

/-- **C94**, exactly what panics: decoding panics if and only if `Spec.Breaks` describes the bytes; on all other bytes that are not accepted it
returns an error. -/
theorem C94_breaks {b : Bytes} (hb : b.length < 2 ^ 64) : (∃ m, decodeNode b = .error (.panic m)) ↔ Spec.Breaks b :=
  (decodeAux_iff _ b (Nat.lt_succ_self _) hb).2

theorem accepted_hash {b : Bytes} {y : H256} (h : Spec.Accepted b (.hash y)) : ∃ r, b = Yellow.withLength 128 y.bytes ++ r := by
  generalize hn : Node.hash y = n at h
  cases h with
  | hash x r => cases hn; exact ⟨r, rfl⟩
  | _ => cases hn

/-- **C44** for all proofs with parts on which decoding does not panic, unless parts that are bare hashes lead in a circle. -/
theorem C44_bytes_partial {proof : List Bytes} (h : ∀ b ∈ proof, b.length < 2 ^ 64 ∧ ¬ Spec.Breaks b) (hc : ¬ Spec.Circle K proof)
    (root : H256) (k : Bytes) : (∃ v, verifyProof K root k proof = .ok v) ∨ verifyProof K root k proof = .error (.err "InvalidProof") := by
  have hcalm : Calm ((Trie.atRoot root).get (proofDb K root proof) k) := by
    refine get_calm (fun x b hb m hm => ?_) (fun x hx => hc ⟨x, ?_⟩) root k
    · obtain ⟨h1, h2⟩ := h b (proofDb_get hb).2
      exact h2 ((C94_breaks h1).1 ⟨m, hm⟩)
    · refine Relation.TransGen.mono ?_ _ _ hx
      rintro a c ⟨b, hb, hd⟩
      obtain ⟨e, hm⟩ := proofDb_get hb
      exact ⟨b, hm, e.symm, accepted_hash ((C94_accepted (h b hm).1 _).1 hd)⟩
  unfold verifyProof
  rcases hr : (Trie.atRoot root).get (proofDb K root proof) k with e | v
  · cases e with
    | err => exact .inr rfl
    | panic msg => exact absurd hr (hcalm msg)
  · exact .inl ⟨v, rfl⟩

/-- **C44**, one part: on a proof of one part, with the root hash that fits it, `verify_proof` panics for one key, or for all keys, if and only if
decoding the part does or the part is its own hash, for which the recursion does not end. -/
theorem C44_one_part (K : Keccak) {b : Bytes} (hb : b.length < 2 ^ 64) (k : Bytes) :
    (∃ m, verifyProof K (K b) k [b] = .error (.panic m)) ↔ Spec.Breaks b ∨ ∃ r, b = Yellow.withLength 128 (K b).bytes ++ r := by
  have hdb : proofDb K (K b) [b] = (Db.new true).insert (K b) b := by simp [proofDb]
  constructor
  · rintro ⟨m, hm⟩
    by_contra hn
    have hn1 : ¬ Spec.Breaks b := fun h => hn (.inl h)
    have hc : ¬ Spec.Circle K [b] := by
      rintro ⟨x, hx⟩
      have key : ∀ y, Relation.TransGen (Spec.Leads K [b]) x y → x = K b ∧ ∃ r, b = Yellow.withLength 128 y.bytes ++ r := by
        intro y hy
        induction hy with
        | single h1 =>
          obtain ⟨c, hc, e, hr⟩ := h1
          cases List.mem_singleton.1 hc
          exact ⟨e.symm, hr⟩
        | tail _ h1 ih =>
          obtain ⟨c, hc, _, hr⟩ := h1
          cases List.mem_singleton.1 hc
          exact ⟨ih.1, hr⟩
      obtain ⟨rfl, hr⟩ := key x hx
      exact hn (.inr hr)
    rcases C44_bytes_partial (K := K) (proof := [b]) (by simpa using ⟨hb, hn1⟩) hc (K b) k with ⟨v, hv⟩ | hv <;> rw [hm] at hv <;> cases hv
  · rintro (h | ⟨r, hr⟩)
    · obtain ⟨m, hm⟩ := (C94_breaks hb).2 h
      refine ⟨m, ?_⟩
      have hfetch : fetch ((Db.new true).insert (K b) b) (K b) = .error (.panic m) := by
        unfold fetch recover
        rw [insert_get, if_pos rfl]
        simp only [hm]
        rfl
      unfold verifyProof Trie.get Trie.atRoot
      rw [hdb]
      rcases hf : hops ((Db.new true).insert (K b) b) (Trie.path k) with _ | f
      · unfold hops at hf
        simp at hf
      · simp only [getAt, getStep, hfetch]
    · have hd : decodeNode b = .ok (.hash (K b)) := (C94_accepted hb _).2 (by
        have := Spec.Accepted.hash (K b) r
        rwa [← hr] at this)
      have hfetch : fetch ((Db.new true).insert (K b) b) (K b) = .ok (.hash (K b)) := by
        unfold fetch recover
        rw [insert_get, if_pos rfl]
        simp only [hd]
        rfl
      have hall : ∀ f p, getAt ((Db.new true).insert (K b) b) f (.hash (K b)) p = .error (.panic "endless recursion") := by
        intro f
        induction f with
        | zero => intro p; rfl
        | succ f ih =>
          intro p
          simp only [getAt, getStep, hfetch]
          exact ih p
      refine ⟨"endless recursion", ?_⟩
      unfold verifyProof Trie.get Trie.atRoot
      rw [hdb]
      simp only [hall]

set_option maxRecDepth 4000 in
/-- An extension with an empty path. -/
theorem breaksEx : Spec.Breaks [0xc2, 0x07, 0x80] := (C94_breaks (by decide)).1 ⟨_, rfl⟩

-- a beginning of data that is accepted as the empty node
example : Spec.Accepted [0x83, 0x01] .empty := (C94_accepted (by decide) _).1 rfl

set_option maxRecDepth 4000 in
-- a list whose second item is behind its end
example : Spec.Accepted [0xc1, 0x20, 0x05] (.leaf [16] [5]) := (C94_accepted (by decide) _).1 rfl

example (K : Keccak) (k : Bytes) : ∃ m, verifyProof K (K [0xc2, 0x07, 0x80]) k [[0xc2, 0x07, 0x80]] = .error (.panic m) :=
  (C44_one_part K (by decide) k).2 (.inl breaksEx)

set_option maxRecDepth 4000 in
/-- The other case, which a hash function without known fixed points does not let happen. -/
example (k : Bytes) : ∃ m, verifyProof (fun _ => exK [1]) (exK [1]) k [Yellow.withLength 128 (exK [1]).bytes] = .error (.panic m) :=
  (C44_one_part (fun _ => exK [1]) (by decide +kernel) k).2 (.inr ⟨[], (List.append_nil _).symm⟩)

set_option maxRecDepth 4000 in
/-- The hypotheses are met by a part that is a bare hash and by the beginning of an item. -/
example : (∃ v, verifyProof exK (exK [1]) [] [Yellow.withLength 128 (exK [1]).bytes, [0x83, 0x01]] = .ok v) ∨
    verifyProof exK (exK [1]) [] [Yellow.withLength 128 (exK [1]).bytes, [0x83, 0x01]] = .error (.err "InvalidProof") := by
  have h2 : ∀ n, Spec.Accepted [0x83, 0x01] n → n = .empty := fun n hn => by
    have := (C94_accepted (by decide) n).2 hn
    cases this
    rfl
  refine C44_bytes_partial ?_ ?_ _ _
  · intro b hb
    simp only [List.mem_cons, List.not_mem_nil, or_false] at hb
    rcases hb with rfl | rfl
    · refine ⟨by decide +kernel, fun h => ?_⟩
      obtain ⟨l, hl⟩ := breaks_isData h
      have h1 := (Rlp.listBytes_isData hl).1
      have h3 := Rlp.isData_withLength (d := (exK [1]).bytes) (r := []) (by decide +kernel)
      rw [List.append_nil, h1] at h3
      cases h3
    · refine ⟨by decide, fun h => ?_⟩
      obtain ⟨l, hl⟩ := breaks_isData h
      cases (Rlp.listBytes_isData hl).1
  · rintro ⟨x, hx⟩
    have key : ∀ y, Relation.TransGen (Spec.Leads exK [Yellow.withLength 128 (exK [1]).bytes, [0x83, 0x01]]) x y →
        x = exK (Yellow.withLength 128 (exK [1]).bytes) ∧ y = exK [1] := by
      have one : ∀ {x y}, Spec.Leads exK [Yellow.withLength 128 (exK [1]).bytes, [0x83, 0x01]] x y →
          x = exK (Yellow.withLength 128 (exK [1]).bytes) ∧ y = exK [1] := by
        rintro x y ⟨c, hc, e, r, hr⟩
        have ha := Spec.Accepted.hash y r
        rw [← hr] at ha
        simp only [List.mem_cons, List.not_mem_nil, or_false] at hc
        rcases hc with rfl | rfl
        · have hb := Spec.Accepted.hash (exK [1]) []
          rw [List.append_nil] at hb
          have e1 := (C94_accepted (by decide +kernel) _).2 ha
          have e2 := (C94_accepted (by decide +kernel) _).2 hb
          rw [e1] at e2
          cases e2
          exact ⟨e.symm, rfl⟩
        · cases h2 _ ha
      intro y hy
      induction hy with
      | single h1 => exact one h1
      | tail _ h1 ih => exact ⟨ih.1, (one h1).2⟩
    obtain ⟨e1, e2⟩ := key x hx
    rw [e1] at e2
    revert e2
    decide +kernel

set_option maxRecDepth 4000 in
/-- The four byte strings of `C94_one_encoding_false` are accepted as the same leaf. -/
theorem leaf5 : ∀ b ∈ [[0xc2, 0x20, 0x05], [0xc2, 0x2f, 0x05], [0xc3, 0x20, 0x81, 0x05], [0xc2, 0x20, 0x05, 0xb8]],
    decodeNode b = .ok (.leaf [16] [5]) := by
  intro b hb
  simp only [List.mem_cons, List.not_mem_nil, or_false] at hb
  rcases hb with rfl | rfl | rfl | rfl <;> rfl

/-- **C94 is false**: not only the bytes that are written are accepted as a node, so that several root hashes belong to the same contents. The
leaf with the empty path and the value 5 is written as `c2 20 05`. Also accepted are `c2 2f 05` (the unused half of the first byte of the
path), `c3 20 81 05` (a single byte with a length in front) and `c2 20 05 b8` (a byte that follows), and `verify_proof` proves the value with
each of them, for every hash function. -/
theorem C94_one_encoding_false (K : Keccak) : (∃ w, encodeRaw K (.leaf [16] [5]) = .ok ([0xc2, 0x20, 0x05], w)) ∧
    ∀ b ∈ [[0xc2, 0x20, 0x05], [0xc2, 0x2f, 0x05], [0xc3, 0x20, 0x81, 0x05], [0xc2, 0x20, 0x05, 0xb8]],
      decodeNode b = .ok (.leaf [16] [5]) ∧ verifyProof K (K b) [] [b] = .ok (some [5]) ∧
        ∀ k, k ≠ [] → verifyProof K (K b) k [b] = .ok none := by
  refine ⟨⟨_, rfl⟩, ?_⟩
  intro b hb
  have hd := leaf5 b hb
  have hall : ∀ k, verifyProof K (K b) k [b] = .ok (if [16] = Trie.path k then some [5] else none) := by
    intro k
    have hdb : proofDb K (K b) [b] = (Db.new true).insert (K b) b := by simp [proofDb]
    have hfetch : fetch ((Db.new true).insert (K b) b) (K b) = .ok (.leaf [16] [5]) := by
      unfold fetch recover
      rw [insert_get, if_pos rfl]
      simp only [hd]
      rfl
    unfold verifyProof Trie.get Trie.atRoot
    rw [hdb]
    rcases hf : hops ((Db.new true).insert (K b) b) (Trie.path k) with _ | f
    · unfold hops at hf
      simp at hf
    · simp only [getAt, getStep, hfetch]
      cases f <;> rfl
  refine ⟨hd, by rw [hall []]; rfl, ?_⟩
  intro k hk
  rw [hall k, if_neg]
  intro e
  cases k with
  | nil => exact hk rfl
  | cons c t => simp [Trie.path, Nibbles.fromRaw] at e

/-- The hypotheses are met by a leaf that the encoder does not write. -/
example : ∃ b' w, encodeRaw K (.leaf [16] [5]) = .ok (b', w) ∧ decodeNode b' = .ok (Spec.collapse K (.leaf [16] [5])) :=
  C94_written_again (b := [0xc3, 0x20, 0x81, 0x05]) (by decide) (leaf5 _ (by simp)) trivial

/-- A branch over a short leaf and a hash, with a value, is an item that stands for a node. -/
example : Yellow.Format false (.list ((List.finRange 16).map (fun j => if j = 3 then .list [.data (Yellow.hp [1] true), .data [7]]
    else if j = 4 then .data (exK [1]).bytes else .data []) ++ [.data [9]])) := by
  refine .branch _ _ (by simp) ?_
  intro j
  by_cases h3 : j = 3
  · subst h3
    exact .short _ (.leaf [1] [7] (by simp) (by simp)) (by decide +kernel)
  · by_cases h4 : j = 4
    · subst h4
      exact .hash _
    · simp only [if_neg h3, if_neg h4]
      exact .short _ .empty (by decide +kernel)

/-- A length in its only form: `b8 38` in front of 56 bytes is accepted, `b8 37` in front of 55 bytes and `b9 00 38` are not. -/
example : (Rlp.data (0xb8 :: 56 :: List.replicate 56 7)).toOption = some (List.replicate 56 7) ∧
    (Rlp.data (0xb8 :: 55 :: List.replicate 55 7)).toOption = none ∧
    (Rlp.data (0xb9 :: 0 :: 56 :: List.replicate 56 7)).toOption = none := by decide +kernel

end Verif.Props
