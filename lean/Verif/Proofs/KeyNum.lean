import Verif.Spec.KeyNum
import Verif.Proofs.Key
import Mathlib.Tactic.Ring
import Mathlib.Tactic.Linarith
/-! Keys as numbers. -/

namespace Verif.Jmt
open Verif.Spec

theorem digitsNum_acc (B : Nat) (l : List Nat) (a : Nat) :
    l.foldl (fun a d => B * a + d) a = a * B ^ l.length + digitsNum B l := by
  induction l generalizing a with
  | nil => simp [digitsNum]
  | cons d l ih =>
    have e : digitsNum B (d :: l) = (B * 0 + d) * B ^ l.length + digitsNum B l := by
      rw [← ih]; rfl
    rw [List.foldl_cons, ih, e, List.length_cons]
    ring

theorem digitsNum_cons (B d : Nat) (l : List Nat) : digitsNum B (d :: l) = d * B ^ l.length + digitsNum B l := by
  rw [digitsNum, List.foldl_cons, digitsNum_acc]; simp

theorem digitsNum_lt (B : Nat) (l : List Nat) (h : ∀ d ∈ l, d < B) : digitsNum B l < B ^ l.length := by
  induction l with
  | nil => simp [digitsNum]
  | cons d l ih =>
    rw [digitsNum_cons, List.length_cons]
    have h1 := ih (fun d hd => h d (List.mem_cons_of_mem _ hd))
    have h2 := h d List.mem_cons_self
    calc d * B ^ l.length + digitsNum B l < d * B ^ l.length + B ^ l.length := by omega
      _ = (d + 1) * B ^ l.length := by ring
      _ ≤ B * B ^ l.length := Nat.mul_le_mul_right _ h2
      _ = B ^ (l.length + 1) := by ring

theorem digitsNum_digit (B : Nat) (l : List Nat) (h : ∀ d ∈ l, d < B) (i : Nat) (hi : i < l.length) :
    digitsNum B l / B ^ (l.length - 1 - i) % B = l[i] := by
  induction l generalizing i with
  | nil => simp at hi
  | cons d l ih =>
    have hl := digitsNum_lt B l (fun d hd => h d (List.mem_cons_of_mem _ hd))
    have hd := h d List.mem_cons_self
    have hB : 0 < B := by omega
    rw [digitsNum_cons]
    cases i with
    | zero =>
      simp only [List.length_cons, Nat.add_sub_cancel, Nat.sub_zero, List.getElem_cons_zero]
      rw [Nat.mul_comm, Nat.mul_add_div (Nat.pow_pos hB), Nat.div_eq_of_lt hl, Nat.add_zero, Nat.mod_eq_of_lt hd]
    | succ i =>
      simp only [List.length_cons, List.getElem_cons_succ]
      have hi' : i < l.length := by simpa using hi
      rw [← ih (fun d hd => h d (List.mem_cons_of_mem _ hd)) i hi']
      have e : l.length + 1 - 1 - (i + 1) = l.length - 1 - i := by omega
      rw [e]
      have e2 : d * B ^ l.length = B ^ (l.length - 1 - i) * (B * (d * B ^ i)) := by
        have : B ^ l.length = B ^ (l.length - 1 - i) * (B * B ^ i) := by
          rw [← Nat.pow_succ', ← Nat.pow_add]; congr 1; omega
        rw [this]; ring
      rw [e2, Nat.mul_add_div (Nat.pow_pos hB), Nat.mul_add_mod]

theorem digitsNum_lt_iff (B : Nat) (l l' : List Nat) (hlen : l.length = l'.length) (h : ∀ d ∈ l, d < B) (h' : ∀ d ∈ l', d < B) :
    digitsNum B l < digitsNum B l' ↔ l < l' := by
  induction l generalizing l' with
  | nil => cases l' with
    | nil => simp
    | cons => simp at hlen
  | cons d l ih =>
    cases l' with
    | nil => simp at hlen
    | cons d' l' =>
      have hl := digitsNum_lt B l (fun d hd => h d (List.mem_cons_of_mem _ hd))
      have hl' := digitsNum_lt B l' (fun d hd => h' d (List.mem_cons_of_mem _ hd))
      have hlen' : l.length = l'.length := by simpa using hlen
      rw [digitsNum_cons, digitsNum_cons, List.cons_lt_cons_iff,
        ← ih l' hlen' (fun d hd => h d (List.mem_cons_of_mem _ hd)) (fun d hd => h' d (List.mem_cons_of_mem _ hd)), ← hlen']
      rw [← hlen'] at hl'
      generalize B ^ l.length = P at *
      constructor
      · intro hlt
        rcases Nat.lt_trichotomy d d' with h1 | h1 | h1
        · exact .inl h1
        · subst h1; exact .inr ⟨rfl, by omega⟩
        · exfalso
          have : (d' + 1) * P ≤ d * P := Nat.mul_le_mul_right _ h1
          rw [Nat.add_mul] at this; omega
      · rintro (h1 | ⟨rfl, h1⟩)
        · have : (d + 1) * P ≤ d' * P := Nat.mul_le_mul_right _ h1
          rw [Nat.add_mul] at this; omega
        · omega

/-- Grouping digits: one digit of base `B ^ n` is `n` digits of base `B`. -/
theorem digitsNum_flatMap {α : Type} (B n : Nat) (f : α → List Nat) (g : α → Nat) (hlen : ∀ a, (f a).length = n)
    (hg : ∀ a, digitsNum B (f a) = g a) (l : List α) : digitsNum B (l.flatMap f) = digitsNum (B ^ n) (l.map g) := by
  have : ∀ acc, (l.flatMap f).foldl (fun a d => B * a + d) acc = (l.map g).foldl (fun a d => B ^ n * a + d) acc := by
    induction l with
    | nil => intro acc; rfl
    | cons a l ih =>
      intro acc
      rw [List.flatMap_cons, List.foldl_append, ih, List.map_cons, List.foldl_cons, digitsNum_acc B (f a), hlen, hg, Nat.mul_comm]
  exact this 0

theorem byteNibs_num (b : UInt8) : digitsNum 16 ((byteNibs b).map Fin.val) = b.toNat :=
  forall_byte (P := fun b => digitsNum 16 ((byteNibs b).map Fin.val) = b.toNat) (by decide +kernel) b

theorem byteBits_num (b : UInt8) : digitsNum 2 ((byteBits b).map Bool.toNat) = b.toNat :=
  forall_byte (P := fun b => digitsNum 2 ((byteBits b).map Bool.toNat) = b.toNat) (by decide +kernel) b

theorem keyNum_nibbles (k : Key) : keyNum k = digitsNum 16 (k.nibbles.map Fin.val) := by
  rw [k.nibbles_eq, List.map_flatMap, digitsNum_flatMap 16 2 (fun b => (byteNibs b).map Fin.val) UInt8.toNat (by simp [byteNibs_length]) byteNibs_num]
  rfl

theorem keyNum_bits (k : Key) : keyNum k = digitsNum 2 (k.bits.map Bool.toNat) := by
  rw [k.bits_eq_bytes, List.map_flatMap, digitsNum_flatMap 2 8 (fun b => (byteBits b).map Bool.toNat) UInt8.toNat (by simp [byteBits]) byteBits_num]
  rfl

/-! rebuilding a key from its bits -/

theorem setBit_append (pre post : List UInt8) (x : UInt8) (i : Nat) (hi : i / 8 = pre.length) (b : Bool) :
    setBit (pre ++ x :: post) i b = pre ++ (if b then x ||| ((1 : UInt8) <<< (UInt8.ofNat (7 - i % 8))) else x) :: post := by
  unfold setBit
  cases b with
  | false => simp
  | true => simp only [if_true]; rw [hi, List.modify_eq_take_cons_drop (by simp)]; simp

theorem byteBits_fold (b : UInt8) : (byteBits b).zipIdx.foldl (fun x (p : Bool × Nat) =>
    if p.1 then x ||| ((1 : UInt8) <<< (UInt8.ofNat (7 - p.2))) else x) 0 = b :=
  forall_byte (P := fun b => (byteBits b).zipIdx.foldl (fun x (p : Bool × Nat) =>
    if p.1 then x ||| ((1 : UInt8) <<< (UInt8.ofNat (7 - p.2))) else x) 0 = b) (by decide +kernel) b

theorem setBits_byte (pre post : List UInt8) (bs : List Bool) (j : Nat) (hj : j + bs.length ≤ 8) (x : UInt8) :
    (bs.zipIdx (8 * pre.length + j)).foldl (fun buf p => setBit buf p.2 p.1) (pre ++ x :: post) =
      pre ++ ((bs.zipIdx j).foldl (fun x (p : Bool × Nat) => if p.1 then x ||| ((1 : UInt8) <<< (UInt8.ofNat (7 - p.2))) else x) x) :: post := by
  induction bs generalizing j x with
  | nil => rfl
  | cons b bs ih =>
    simp only [List.length_cons] at hj
    rw [List.zipIdx_cons, List.zipIdx_cons, List.foldl_cons, List.foldl_cons]
    simp only
    rw [setBit_append pre post x _ (by omega), Nat.add_assoc, ih (j + 1) (by omega)]
    have : (8 * pre.length + j) % 8 = j := by omega
    rw [this]

theorem setBits_bytes (rest pre : List UInt8) :
    ((rest.flatMap byteBits).zipIdx (8 * pre.length)).foldl (fun buf p => setBit buf p.2 p.1) (pre ++ List.replicate rest.length 0) =
      pre ++ rest := by
  induction rest generalizing pre with
  | nil => simp
  | cons b rest ih =>
    rw [List.flatMap_cons, List.zipIdx_append, List.foldl_append, List.length_cons, List.replicate_succ]
    have h1 := setBits_byte pre (List.replicate rest.length 0) (byteBits b) 0 (by simp [byteBits]) 0
    rw [Nat.add_zero] at h1
    rw [h1, byteBits_fold]
    have h2 := ih (pre ++ [b])
    have : (byteBits b).length = 8 := by simp [byteBits]
    rw [this]
    simp only [List.length_append, List.length_cons, List.length_nil, List.append_assoc, List.singleton_append] at h2
    rw [show 8 * pre.length + 8 = 8 * (pre.length + (0 + 1)) by omega]
    exact h2

theorem fromBitIter_bits (k : Key) : fromBitIter k.bits = some k.bytes := by
  unfold fromBitIter
  have hl : k.bits.length = 256 := by simp [Key.bits]
  rw [if_neg (by omega), k.bits_eq_bytes]
  have := setBits_bytes k.bytes []
  rw [k.len] at this
  simp only [List.length_nil, Nat.mul_zero, List.nil_append] at this
  rw [this]

end Verif.Jmt
