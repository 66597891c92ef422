import Verif.Jmt.VersionBytes
import Verif.Proofs.Borsh
import Verif.Proofs.KeyNum
/-! Property C64: versions as bytes. -/

set_option autoImplicit false

namespace Verif.Props
open Verif Verif.Jmt Verif.Spec

/-- **C64.** A version is read back from its bytes, and the 8 bytes of any version are those that are read as it. -/
theorem C64_roundtrip (v : Version) (hv : v < 2 ^ 64) (b : List UInt8) (hb : b.length = 8) :
    versionOfBytes (versionToBytes v) = v ∧ (versionOfBytes b = v ↔ b = versionToBytes v) := by
  have h1 : versionOfBytes (versionToBytes v) = v := by
    unfold versionOfBytes versionToBytes
    rw [if_pos (by simp), List.reverse_reverse]
    exact Codec.leNat_leBytes 8 v hv
  refine ⟨h1, ?_, ?_⟩
  · intro h
    unfold versionOfBytes at h
    rw [if_pos hb] at h
    have := Codec.leBytes_leNat b.reverse
    rw [h, List.length_reverse, hb] at this
    unfold versionToBytes
    rw [this, List.reverse_reverse]
  · rintro rfl; exact h1

theorem leNat_reverse (b : List UInt8) : Codec.leNat b.reverse = digitsNum 256 (b.map UInt8.toNat) := by
  have app : ∀ (l : List UInt8) (x : UInt8), Codec.leNat (l ++ [x]) = Codec.leNat l + 256 ^ l.length * x.toNat := by
    intro l x
    induction l with
    | nil => simp [Codec.leNat]
    | cons y l ih =>
      simp only [List.cons_append, Codec.leNat, ih, List.length_cons, Nat.pow_succ]
      ring
  induction b with
  | nil => rfl
  | cons x b ih =>
    rw [List.reverse_cons, app, ih, List.map_cons, digitsNum_cons, List.length_map, List.length_reverse]
    ring

theorem map_toNat_lt (a b : List UInt8) : a.map UInt8.toNat < b.map UInt8.toNat ↔ a < b := by
  induction a generalizing b with
  | nil => cases b <;> simp
  | cons x a ih =>
    cases b with
    | nil => simp
    | cons y b =>
      rw [List.map_cons, List.map_cons, List.cons_lt_cons_iff, List.cons_lt_cons_iff, ih, UInt8.lt_iff_toNat_lt, UInt8.toNat_inj]

/-- **C64.** The bytes of versions are in lexicographic order exactly as the versions are: an ordered table keyed by them lists the
versions in order. -/
theorem C64_order (v w : Version) (hv : v < 2 ^ 64) (hw : w < 2 ^ 64) : versionToBytes v < versionToBytes w ↔ v < w := by
  have num : ∀ x, x < 2 ^ 64 → digitsNum 256 ((versionToBytes x).map UInt8.toNat) = x := by
    intro x hx
    rw [← leNat_reverse, versionToBytes, List.reverse_reverse]
    exact Codec.leNat_leBytes 8 x hx
  rw [← map_toNat_lt, ← digitsNum_lt_iff 256, num v hv, num w hw]
  · simp [versionToBytes]
  · intro d hd
    obtain ⟨x, _, rfl⟩ := List.mem_map.1 hd
    exact x.toNat_lt
  · intro d hd
    obtain ⟨x, _, rfl⟩ := List.mem_map.1 hd
    exact x.toNat_lt

/-- **C64**, limit: bytes of any other length are read as version 0 without an error. -/
theorem C64_other_length (b : List UInt8) (hb : b.length ≠ 8) : versionOfBytes b = 0 := by
  unfold versionOfBytes
  rw [if_neg hb]
  decide

example : versionToBytes 0x0102 = [0, 0, 0, 0, 0, 0, 1, 2] ∧ versionOfBytes [0, 0, 0, 0, 0, 0, 1, 2] = 0x0102 ∧
    versionToBytes 255 < versionToBytes 256 ∧ versionOfBytes [1] = 0 := by
  refine ⟨by decide, by decide, (C64_order 255 256 (by decide) (by decide)).2 (by decide), C64_other_length [1] (by decide)⟩

end Verif.Props
