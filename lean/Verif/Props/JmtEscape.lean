import Verif.Jmt.Escape
import Verif.Spec.Literal
import Verif.Proofs.Key
/-! Keys in the log: C69. -/

set_option autoImplicit false

namespace Verif.Props
open Verif Verif.Jmt Verif.Spec

theorem hexValue_digit : ∀ n : Fin 16, hexValue (hexDigit n.val) = some n.val := by decide +kernel

theorem readItems_escape (b : UInt8) (rest : List UInt8) : readItems (escapeByte b ++ rest) = (readItems rest).map (b :: ·) := by
  unfold escapeByte
  by_cases h1 : b = 10
  · subst h1; rfl
  by_cases h2 : b = 13
  · subst h2; rfl
  by_cases h3 : b = 9
  · subst h3; rfl
  by_cases h4 : b = 92
  · subst h4; rfl
  by_cases h5 : b = 34
  · subst h5; rfl
  by_cases h6 : b = 0
  · subst h6; rfl
  rw [if_neg h1, if_neg h2, if_neg h3, if_neg (by simp [h4, h5]), if_neg h6]
  by_cases h7 : b ≥ 0x20 ∧ b < 0x7f
  · rw [if_pos h7]
    have h8 : ¬ (b ≥ 128) := by
      have := h7.2
      rw [UInt8.lt_iff_toNat_lt] at this
      rw [ge_iff_le, UInt8.le_iff_toNat_le]
      simp at this ⊢
      omega
    simp only [List.singleton_append]
    conv_lhs => unfold readItems
    split
    · next h => cases h
    · next h => cases h; exact absurd rfl h5
    · next h => cases h; exact absurd rfl h5
    · next h => cases h; exact absurd rfl h4
    · next h => cases h; exact absurd rfl h4
    · next h =>
      cases h
      exact if_neg (by rintro (h | h | h); exacts [h2 h, h4 h, h8 h])
  · rw [if_neg h7]
    have e1 : hexValue (hexDigit (b.toNat / 16)) = some (b.toNat / 16) := hexValue_digit ⟨b.toNat / 16, by have := b.toNat_lt; omega⟩
    have e2 : hexValue (hexDigit (b.toNat % 16)) = some (b.toNat % 16) := hexValue_digit ⟨b.toNat % 16, by omega⟩
    show readItems (92 :: 120 :: _ :: _ :: rest) = _
    conv_lhs => unfold readItems
    simp only [e1, e2, Nat.div_add_mod, UInt8.ofNat_toNat]

theorem readItems_flatMap (l : List UInt8) : readItems (l.flatMap escapeByte ++ [34]) = some l := by
  induction l with
  | nil => rfl
  | cons b t ih => rw [List.flatMap_cons, List.append_assoc, readItems_escape, ih]; rfl

/-- **C69.** The text in which a key is reported to the log is a byte string literal of Rust for exactly this key. -/
theorem C69_literal (key : List UInt8) : readLiteral (escaped key) = some key := readItems_flatMap key

/-- **C69.** Different keys have different texts. -/
theorem C69_distinct {a b : List UInt8} (h : escaped a = escaped b) : a = b := by
  have := C69_literal a
  rw [h, C69_literal b] at this
  exact (Option.some.inj this).symm

/-- **C69.** The text is printable ASCII, on one line. -/
theorem C69_printable (key : List UInt8) : ∀ c ∈ escaped key, 0x20 ≤ c ∧ c < 0x7f := by
  have hb : ∀ b : UInt8, ∀ c ∈ escapeByte b, 0x20 ≤ c ∧ c < 0x7f :=
    forall_byte (P := fun b => ∀ c ∈ escapeByte b, 0x20 ≤ c ∧ c < 0x7f) (by decide +kernel)
  intro c hc
  unfold escaped at hc
  simp only [List.mem_append, List.mem_flatMap] at hc
  rcases hc with (hc | ⟨b, _, hc⟩) | hc
  · revert c; decide
  · exact hb b c hc
  · revert c; decide

/-- A quote, a line break, a letter, a byte that is not ASCII, and a backslash: `b"\"\na\xff\\"`. -/
example : escaped [34, 10, 97, 255, 92] = [98, 34, 92, 34, 92, 110, 97, 92, 120, 102, 102, 92, 92, 34] := by decide +kernel

/-- Not every text is a literal, and some literals are never printed. -/
example : readLiteral [98, 34, 34, 34] = none ∧ readLiteral [98, 34, 92, 120, 52, 49, 34] = some [65] ∧ escaped [65] = [98, 34, 65, 34] := by
  decide +kernel

end Verif.Props
