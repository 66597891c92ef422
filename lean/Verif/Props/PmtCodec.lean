import Verif.Proofs.PmtNode
import Verif.Props.PmtExamples
/-! Encodings of paths and nodes of the Patricia trie: C46, C47. -/

set_option autoImplicit false

namespace Verif.Props
open Verif Verif.Pmt PmtEx

variable {K : Keccak}

/-- Digits, followed by the terminator 16 if `leaf`. -/
def digits (l : List (Fin 16)) (leaf : Bool) : Nibbles := l.map Fin.val ++ if leaf then [16] else []

/-- **C46**, round trip: for every string of digits, with or without terminator, decoding the compact encoding gives the string back. Missing from
the full statement: the empty string without terminator, which panics (`C46_empty_path_panics`). -/
theorem C46_compact_roundtrip_partial (l : List (Fin 16)) (leaf : Bool) (h : leaf = true ∨ l ≠ []) :
    ∃ b, (digits l leaf).encodeCompact = .ok b ∧ Nibbles.fromCompact b = .ok (digits l leaf) := by
  cases leaf with
  | true =>
    refine ⟨_, encodeCompact_leaf l, ?_⟩
    rw [fromCompact_compact]
    rfl
  | false =>
    have hl : l ≠ [] := h.resolve_left (by simp)
    refine ⟨compact false l, ?_, ?_⟩
    · have : digits l false = toNibs l := by simp [digits, toNibs]
      rw [this]
      exact encodeCompact_ext hl
    · rw [fromCompact_compact]
      simp [digits, toNibs]

/-- **C46**, injectivity: two strings of digits with the same compact encoding are the same, with the same terminator. -/
theorem C46_compact_injective (l l' : List (Fin 16)) (leaf leaf' : Bool) (b : Bytes) (h : (digits l leaf).encodeCompact = .ok b)
    (h' : (digits l' leaf').encodeCompact = .ok b) : l = l' ∧ leaf = leaf' := by
  have ne : ∀ {l : List (Fin 16)} {leaf : Bool}, (digits l leaf).encodeCompact = .ok b → leaf = true ∨ l ≠ [] := by
    intro l leaf h
    cases leaf with
    | true => exact .inl rfl
    | false =>
      refine .inr ?_
      rintro rfl
      cases h
  obtain ⟨c, h1, h2⟩ := C46_compact_roundtrip_partial l leaf (ne h)
  obtain ⟨c', h1', h2'⟩ := C46_compact_roundtrip_partial l' leaf' (ne h')
  rw [h] at h1
  cases h1
  rw [h'] at h1'
  cases h1'
  rw [h2] at h2'
  have e : digits l leaf = digits l' leaf' := Except.ok.inj h2'
  cases leaf <;> cases leaf'
  · refine ⟨?_, rfl⟩
    simp only [digits, Bool.false_eq_true, if_false, List.append_nil] at e
    exact toNibs_inj.1 e
  · exfalso
    have : (16 : Nat) ∈ digits l false := by rw [e]; simp [digits]
    simp only [digits, Bool.false_eq_true, if_false, List.append_nil, List.mem_map] at this
    obtain ⟨x, _, hx⟩ := this
    have := x.isLt
    omega
  · exfalso
    have : (16 : Nat) ∈ digits l' false := by rw [← e]; simp [digits]
    simp only [digits, Bool.false_eq_true, if_false, List.append_nil, List.mem_map] at this
    obtain ⟨x, _, hx⟩ := this
    have := x.isLt
    omega
  · refine ⟨?_, rfl⟩
    exact leafPath_inj.1 e

/-- **C46**, raw bytes: turning bytes into digits and back is the identity, and keeps the terminator. Missing from the full statement: the
empty byte string without terminator, which panics. -/
theorem C46_raw_roundtrip_partial (b : Bytes) (leaf : Bool) (h : leaf = true ∨ b ≠ []) :
    (Nibbles.fromRaw b leaf).encodeRaw = .ok (b, leaf) := by
  cases leaf with
  | true =>
    rw [fromRaw_leaf]
    unfold Nibbles.encodeRaw
    rw [isLeaf_leafPath]
    simp only [Res.ok_bind, Res.pure_eq, Nibbles.body, if_true]
    rw [show (leafPath (nibsOf b)).dropLast = toNibs (nibsOf b) by simp [leafPath], pairs_toNibs, pack_nibsOf]
  | false =>
    have hb : nibsOf b ≠ [] := by
      rcases h with h | h
      · cases h
      · intro e
        have := nibsOf_length b
        rw [e] at this
        cases b with
        | nil => exact h rfl
        | cons => simp at this
    rw [fromRaw_nibs]
    unfold Nibbles.encodeRaw
    rw [isLeaf_toNibs hb]
    simp only [Res.ok_bind, Res.pure_eq, Nibbles.body, Bool.false_eq_true, if_false]
    rw [pairs_toNibs, pack_nibsOf]

/-- **C46 is false** for the empty string without terminator: both encodings panic on it. -/
theorem C46_empty_path_panics :
    (digits [] false).encodeCompact = .error (.panic "attempt to subtract with overflow") ∧
      (Nibbles.fromRaw [] false).encodeRaw = .error (.panic "attempt to subtract with overflow") := ⟨rfl, rfl⟩

/-- The hypotheses are met by strings of odd and even length, with and without terminator. -/
example : ((digits [1, 2, 15] true).encodeCompact).toOption = some [0x31, 0x2f] ∧ ((digits [1, 2] false).encodeCompact).toOption = some [0x00, 0x12] ∧
    ((digits [] true).encodeCompact).toOption = some [0x20] := by decide +kernel

/-- **C47**, round trip: every node other than a hash node has an encoding, and decoding it gives the node with each child of at least 32 encoded
bytes replaced by its hash. -/
theorem C47_node_roundtrip {n : Node} (h : Spec.NodeOk n) (hn : Spec.NotHash n) :
    ∃ b w, encodeRaw K n = .ok (b, w) ∧ decodeNode b = .ok (Spec.collapse K n) := by
  obtain ⟨b, w, r⟩ := (node_codec (K := K) n h).1 hn
  exact ⟨b, w, r.eq, r.dec _ (by omega)⟩

/-- **C47**: nodes with the same encoding agree up to children of at least 32 encoded bytes, of which the hashes agree. -/
theorem C47_same_encoding {n m : Node} (hn : Spec.NodeOk n) (hm : Spec.NodeOk m) {b : Bytes} {w w' : Written}
    (h : encodeRaw K n = .ok (b, w)) (h' : encodeRaw K m = .ok (b, w')) : Spec.collapse K n = Spec.collapse K m := by
  have nh : ∀ {n : Node} {w : Written}, encodeRaw K n = .ok (b, w) → Spec.NotHash n := by
    intro n w h
    cases n <;> trivial
  obtain ⟨c, v, e, d⟩ := C47_node_roundtrip (K := K) hn (nh h)
  obtain ⟨c', v', e', d'⟩ := C47_node_roundtrip (K := K) hm (nh h')
  rw [h] at e
  cases e
  rw [h'] at e'
  cases e'
  rw [d] at d'
  exact Except.ok.inj d'

/-- **C47**, distinct nodes have distinct encodings: two nodes without hash nodes and with the same encoding are the same, or two of the byte
strings hashed while encoding them have the same hash. -/
theorem C47_distinct {n m : Node} (hn : Spec.NodeOk n) (hm : Spec.NodeOk m) (ln : Spec.Hashless n) (lm : Spec.Hashless m) {b : Bytes}
    {w w' : Written} (h : encodeRaw K n = .ok (b, w)) (h' : encodeRaw K m = .ok (b, w')) :
    Spec.Collision K ((w ++ w').map Prod.snd) ∨ n = m := by
  rcases collision_or K ((w ++ w').map Prod.snd) with hc | hc
  · exact .inl hc
  have hcol := C47_same_encoding hn hm h h'
  obtain ⟨c, v, r⟩ := (node_codec (K := K) n hn).1 (hashless_notHash ln)
  obtain ⟨c', v', r'⟩ := (node_codec (K := K) m hm).1 (hashless_notHash lm)
  obtain ⟨rfl, rfl⟩ := r.unique h
  obtain ⟨rfl, rfl⟩ := r'.unique h'
  refine .inr (collapse_inj hc n m hn hm ln lm r r' ?_ ?_ hcol)
  · exact fun x hx => List.mem_map.2 ⟨x, List.mem_append_left _ hx, rfl⟩
  · exact fun x hx => List.mem_map.2 ⟨x, List.mem_append_right _ hx, rfl⟩

/-- A branch with a value, a short leaf, a long leaf and an extension below. -/
def exNode : Node :=
  .branch (fun i => if i = 1 then .leaf [2, 16] [7] else if i = 3 then .leaf [4, 5, 16] (long 1) else if i = 9 then
    .ext [8] (.branch (fun i => if i = 0 then .leaf [16] [1] else if i = 4 then .leaf [16] [2] else .empty) none) else .empty) (some [5])

theorem exNode_ok : Spec.NodeOk exNode := by
  have leaf : ∀ (l : List (Fin 16)) (v : Bytes), l.length ≤ 2 → v.length ≤ 33 → Spec.NodeOk (.leaf (l.map Fin.val ++ [16]) v) :=
    fun l v h1 h2 => ⟨⟨l, rfl, by omega⟩, by omega⟩
  refine ⟨fun i => ?_, fun v hv => ?_⟩
  · by_cases h1 : i = 1
    · subst h1; exact leaf [2] [7] (by decide) (by decide)
    · by_cases h3 : i = 3
      · subst h3; exact leaf [4, 5] (long 1) (by decide) (by decide +kernel)
      · by_cases h9 : i = 9
        · subst h9
          refine ⟨⟨[8], rfl, by simp, by simp⟩, ?_, ?_⟩
          · intro j
            by_cases g0 : j = 0
            · subst g0; exact leaf [] [1] (by decide) (by decide)
            · by_cases g4 : j = 4
              · subst g4; exact leaf [] [2] (by decide) (by decide)
              · simp only [if_neg g0, if_neg g4]; trivial
          · intro v hv; cases hv
        · simp only [if_neg h1, if_neg h3, if_neg h9]; trivial
  · cases hv; exact ⟨by simp, by simp⟩

theorem exNode_hashless : Spec.Hashless exNode := by
  intro i
  by_cases h1 : i = 1
  · subst h1; trivial
  · by_cases h3 : i = 3
    · subst h3; trivial
    · by_cases h9 : i = 9
      · subst h9
        intro j
        by_cases g0 : j = 0
        · subst g0; trivial
        · by_cases g4 : j = 4
          · subst g4; trivial
          · simp only [if_neg g0, if_neg g4]; trivial
      · simp only [if_neg h1, if_neg h3, if_neg h9]; trivial

/-- The hypotheses are met: one child of the example is written by hash, and its encoding decodes. -/
example : ∃ b w, encodeRaw exK exNode = .ok (b, w) ∧ decodeNode b = .ok (Spec.collapse exK exNode) :=
  C47_node_roundtrip exNode_ok trivial

example : ((encodeRaw exK exNode).toOption.map (fun x => x.2.length)) = some 1 := by decide +kernel

/-- A node with the same encoding as the example is the example, if there is no collision. -/
example {m : Node} (hm : Spec.NodeOk m) (lm : Spec.Hashless m) {b : Bytes} {w w' : Written} (h : encodeRaw exK exNode = .ok (b, w))
    (h' : encodeRaw exK m = .ok (b, w')) : Spec.Collision exK ((w ++ w').map Prod.snd) ∨ exNode = m :=
  C47_distinct exNode_ok hm exNode_hashless lm h h'

end Verif.Props
