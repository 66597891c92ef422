import Verif.Jmt.Borsh
import Mathlib.Tactic.SplitIfs
/-! The serialisers and deserialisers are inverse to each other. -/

set_option autoImplicit false

namespace Verif.Jmt
namespace Codec
variable {α β : Type}

/-- On the values with `P`, `dec` reads back what `enc` wrote, and `dec` accepts nothing else. -/
structure Law (c : Codec α) (P : α → Prop) : Prop where
  back : ∀ a r, P a → c.dec (c.enc a ++ r) = some (a, r)
  only : ∀ b a r, c.dec b = some (a, r) → P a ∧ b = c.enc a ++ r

@[simp] theorem leBytes_length (n x : Nat) : (leBytes n x).length = n := by
  induction n generalizing x with
  | zero => rfl
  | succ n ih => simp [leBytes, ih]

theorem leNat_lt (l : List UInt8) : leNat l < 256 ^ l.length := by
  induction l with
  | nil => simp [leNat]
  | cons b t ih =>
    have := b.toNat_lt
    simp only [leNat, List.length_cons, Nat.pow_succ]
    omega

theorem leNat_leBytes (n x : Nat) (h : x < 256 ^ n) : leNat (leBytes n x) = x := by
  induction n generalizing x with
  | zero => simp at h; simp [leBytes, leNat, h]
  | succ n ih =>
    rw [Nat.pow_succ] at h
    have h1 : x / 256 < 256 ^ n := (Nat.div_lt_iff_lt_mul (by decide)).2 h
    simp only [leBytes, leNat, ih _ h1, UInt8.toNat_ofNat']
    omega

theorem leBytes_leNat (l : List UInt8) : leBytes l.length (leNat l) = l := by
  induction l with
  | nil => rfl
  | cons b t ih =>
    have hb := b.toNat_lt
    have e1 : (b.toNat + 256 * leNat t) % 256 = b.toNat := by omega
    have e2 : (b.toNat + 256 * leNat t) / 256 = leNat t := by omega
    simp only [leNat, List.length_cons, leBytes, e1, e2, ih, UInt8.ofNat_toNat]

theorem uint_law (n : Nat) : (uint n).Law (fun x => x < 256 ^ n) where
  back a r h := by
    simp only [uint, List.length_append, leBytes_length]
    rw [if_pos (by omega), List.take_left' (leBytes_length n a), List.drop_left' (leBytes_length n a), leNat_leBytes n a h]
  only b a r h := by
    simp only [uint] at h
    split_ifs at h with hb
    simp only [Option.some.injEq, Prod.mk.injEq] at h
    obtain ⟨rfl, rfl⟩ := h
    have hl : (b.take n).length = n := by simp [hb]
    refine ⟨by simpa [hl] using leNat_lt (b.take n), ?_⟩
    have := leBytes_leNat (b.take n)
    rw [hl] at this
    simp only [uint, this, List.take_append_drop]

theorem u64_law : u64.Law (fun x => x < 2 ^ 64) := uint_law 8

theorem u8_law : u8.Law (fun _ => True) where
  back a r _ := rfl
  only b a r h := by
    cases b with
    | nil => simp [u8] at h
    | cons x t => simp only [u8, Option.some.injEq, Prod.mk.injEq] at h; simp [u8, h]

theorem bytes32_law : bytes32.Law (fun _ => True) where
  back a r _ := by
    have hl := a.len
    have h1 : 32 ≤ (a.bytes ++ r).length := by simp [hl]
    simp only [bytes32, h1, dif_pos, List.take_left' hl, List.drop_left' hl]
  only b a r h := by
    simp only [bytes32] at h
    split_ifs at h with hb
    simp only [Option.some.injEq, Prod.mk.injEq] at h
    obtain ⟨rfl, rfl⟩ := h
    simp [bytes32]

theorem bool_law : bool.Law (fun _ => True) where
  back a r _ := by cases a <;> rfl
  only b a r h := by
    cases b with
    | nil => simp [bool] at h
    | cons x t =>
      simp only [bool] at h
      split_ifs at h with h0 h1
      · cases h; simp [bool, h0]
      · cases h; simp [bool, h1]

theorem option_law {c : Codec α} {P : α → Prop} (hc : c.Law P) : (option c).Law (fun x => ∀ a, x = some a → P a) where
  back a r h := by
    cases a with
    | none => rfl
    | some a => simp [option, hc.back a r (h a rfl)]
  only b a r h := by
    cases b with
    | nil => simp [option] at h
    | cons x t =>
      simp only [option] at h
      split_ifs at h with h0 h1
      · cases h; simp [option, h0]
      · rw [Option.map_eq_some_iff] at h
        obtain ⟨⟨y, r'⟩, hy, he⟩ := h
        cases he
        obtain ⟨h2, h3⟩ := hc.only _ _ _ hy
        refine ⟨by intro a ha; cases ha; exact h2, by simp [option, h1, h3]⟩

theorem pair_law {a : Codec α} {b : Codec β} {P : α → Prop} {Q : β → Prop} (ha : a.Law P) (hb : b.Law Q) :
    (pair a b).Law (fun x => P x.1 ∧ Q x.2) where
  back x r h := by
    simp only [pair, List.append_assoc, ha.back x.1 _ h.1, Option.bind_eq_bind, Option.bind_some, hb.back x.2 _ h.2]
    rfl
  only l x r h := by
    simp only [pair, Option.bind_eq_bind, Option.bind_eq_some_iff] at h
    obtain ⟨⟨y, l1⟩, h1, ⟨z, l2⟩, h2, h3⟩ := h
    simp only [Option.pure_def, Option.some.injEq, Prod.mk.injEq] at h3
    obtain ⟨rfl, rfl⟩ := h3
    obtain ⟨p1, e1⟩ := ha.only _ _ _ h1
    obtain ⟨p2, e2⟩ := hb.only _ _ _ h2
    dsimp only at e2
    exact ⟨⟨p1, p2⟩, by simp [pair, e1, e2]⟩

theorem map_law {c : Codec α} {P : α → Prop} (hc : c.Law P) (f : α → β) (g : β → α) (h1 : ∀ b, f (g b) = b) (h2 : ∀ a, g (f a) = a) :
    (map c f g).Law (fun b => P (g b)) where
  back b r h := by simp [map, hc.back _ r h, h1]
  only l b r h := by
    simp only [map, Option.map_eq_some_iff] at h
    obtain ⟨⟨a, r'⟩, ha, he⟩ := h
    cases he
    obtain ⟨p, e⟩ := hc.only _ _ _ ha
    simp [map, h2, p, e]

theorem seqDec_back {c : Codec α} {P : α → Prop} (hc : c.Law P) (l : List α) (r : List UInt8) (h : ∀ a ∈ l, P a) :
    seqDec c l.length (l.flatMap c.enc ++ r) = some (l, r) := by
  induction l with
  | nil => rfl
  | cons a t ih =>
    simp only [List.length_cons, seqDec, List.flatMap_cons, List.append_assoc, hc.back a _ (h a (by simp)), Option.bind_eq_bind,
      Option.bind_some, ih (fun x hx => h x (by simp [hx]))]
    rfl

theorem seqDec_only {c : Codec α} {P : α → Prop} (hc : c.Law P) (n : Nat) (b : List UInt8) (l : List α) (r : List UInt8)
    (h : seqDec c n b = some (l, r)) : l.length = n ∧ (∀ a ∈ l, P a) ∧ b = l.flatMap c.enc ++ r := by
  induction n generalizing b l with
  | zero => simp only [seqDec, Option.some.injEq, Prod.mk.injEq] at h; obtain ⟨rfl, rfl⟩ := h; simp
  | succ n ih =>
    simp only [seqDec, Option.bind_eq_bind, Option.bind_eq_some_iff] at h
    obtain ⟨⟨x, b1⟩, h1, ⟨xs, b2⟩, h2, h3⟩ := h
    simp only [Option.pure_def, Option.some.injEq, Prod.mk.injEq] at h3
    obtain ⟨rfl, rfl⟩ := h3
    obtain ⟨p, e⟩ := hc.only _ _ _ h1
    obtain ⟨q1, q2, q3⟩ := ih _ _ h2
    dsimp only at q3
    refine ⟨by simp [q1], ?_, by simp [e, q3]⟩
    intro a ha
    rcases List.mem_cons.1 ha with rfl | ha
    · exact p
    · exact q2 a ha

theorem vec_law {c : Codec α} {P : α → Prop} (hc : c.Law P) : (vec c).Law (fun l => l.length < 2 ^ 32 ∧ ∀ a ∈ l, P a) where
  back l r h := by
    simp only [vec, List.append_assoc, (uint_law 4).back l.length _ h.1, Option.bind_eq_bind, Option.bind_some]
    exact seqDec_back hc l r h.2
  only b l r h := by
    simp only [vec, Option.bind_eq_bind, Option.bind_eq_some_iff] at h
    obtain ⟨⟨n, b1⟩, h1, h2⟩ := h
    obtain ⟨p, e⟩ := (uint_law 4).only _ _ _ h1
    obtain ⟨q1, q2, q3⟩ := seqDec_only hc n b1 l r h2
    subst q1
    exact ⟨⟨p, q2⟩, by simp [vec, e, q3]⟩

theorem array16_law {c : Codec (Option α)} {P : Option α → Prop} (hc : c.Law P) : (array16 c).Law (fun f => ∀ i, P (f i)) where
  back f r h := by
    have := seqDec_back hc ((List.finRange 16).map f) r (by intro a ha; obtain ⟨i, _, rfl⟩ := List.mem_map.1 ha; exact h i)
    simp only [List.length_map, List.length_finRange, List.flatMap_map] at this
    simp only [array16, this, Option.bind_eq_bind, Option.bind_some, Option.pure_def, Option.some.injEq, Prod.mk.injEq, and_true]
    funext i
    (simp)
  only b f r h := by
    simp only [array16, Option.bind_eq_bind, Option.bind_eq_some_iff] at h
    obtain ⟨⟨xs, b1⟩, h1, h2⟩ := h
    simp only [Option.pure_def, Option.some.injEq, Prod.mk.injEq] at h2
    obtain ⟨rfl, rfl⟩ := h2
    obtain ⟨q1, q2, q3⟩ := seqDec_only hc 16 b xs b1 h1
    have hx : xs = (List.finRange 16).map (fun i => (xs[i.val]?).join) := by
      apply List.ext_getElem
      · simp [q1]
      · intro i h1 h2
        simp [h1]
    refine ⟨?_, ?_⟩
    · intro i
      have hi : i.val < xs.length := by rw [q1]; exact i.isLt
      simpa [hi] using q2 _ (List.getElem_mem hi)
    · have hf := congrArg (fun l => l.flatMap c.enc) hx
      simp only [List.flatMap_map] at hf
      rw [q3, hf]
      rfl

theorem tryFromSlice_some {c : Codec α} {P : α → Prop} (hc : c.Law P) (b : List UInt8) (a : α) :
    c.tryFromSlice b = some a ↔ P a ∧ b = c.enc a := by
  constructor
  · intro h
    unfold tryFromSlice at h
    split at h
    · rename_i x heq
      cases h
      obtain ⟨p, e⟩ := hc.only _ _ _ heq
      exact ⟨p, by simpa using e⟩
    · cases h
  · rintro ⟨p, rfl⟩
    have := hc.back a [] p
    rw [List.append_nil] at this
    simp [tryFromSlice, this]

end Codec

open Codec

theorem nodeTypeCodec_law : nodeTypeCodec.Law (fun t => ∀ n, t = .internal n → n < 2 ^ 64) where
  back a r h := by
    cases a with
    | leaf => rfl
    | internalLegacy => rfl
    | internal n => simp [nodeTypeCodec, u64_law.back n r (h n rfl)]
  only b a r h := by
    cases b with
    | nil => simp [nodeTypeCodec] at h
    | cons x t =>
      simp only [nodeTypeCodec] at h
      split_ifs at h with h0 h1 h2
      · cases h; simp [nodeTypeCodec, h0]
      · cases h; simp [nodeTypeCodec, h1]
      · rw [Option.map_eq_some_iff] at h
        obtain ⟨⟨y, r'⟩, hy, he⟩ := h
        cases he
        obtain ⟨h3, h4⟩ := u64_law.only _ _ _ hy
        refine ⟨by intro n hn; cases hn; exact h3, by simp [nodeTypeCodec, h2, h4]⟩

/-- The numbers of a child fit into their Rust types. -/
def ChildFits (c : Child Key) : Prop := c.version < 2 ^ 64 ∧ ∀ n, c.nodeType = .internal n → n < 2 ^ 64

theorem childCodec_law : childCodec.Law ChildFits := by
  have := map_law (pair_law bytes32_law (pair_law u64_law nodeTypeCodec_law)) (fun x => (⟨x.1, x.2.1, x.2.2⟩ : Child Key))
    (fun c => (c.hash, c.version, c.nodeType)) (fun _ => rfl) (fun _ => rfl)
  exact ⟨fun a r h => this.back a r ⟨trivial, h⟩, fun b a r h => ⟨(this.only b a r h).1.2, (this.only b a r h).2⟩⟩

/-- The numbers of an internal node fit into their Rust types. -/
def InternalFits (n : InternalNode Key) : Prop :=
  (∀ i c, n.children.children i = some c → ChildFits c) ∧ n.children.numChildren < 2 ^ 64 ∧ ∀ k, n.leafCount = some k → k < 2 ^ 64

theorem internalNodeCodec_law : internalNodeCodec.Law InternalFits := by
  have h1 := map_law (pair_law (array16_law (option_law childCodec_law)) u64_law) (fun x => (⟨x.1, x.2⟩ : Children Key))
    (fun c => (c.children, c.numChildren)) (fun _ => rfl) (fun _ => rfl)
  have h2 := map_law (pair_law h1 (pair_law (option_law u64_law) bool_law)) (fun x => (⟨x.1, x.2.1, x.2.2⟩ : InternalNode Key))
    (fun n => (n.children, n.leafCount, n.leafCountMigration)) (fun _ => rfl) (fun _ => rfl)
  exact ⟨fun a r h => h2.back a r ⟨⟨h.1, h.2.1⟩, h.2.2, trivial⟩,
    fun b a r h => ⟨⟨(h2.only b a r h).1.1.1, (h2.only b a r h).1.1.2, (h2.only b a r h).1.2.1⟩, (h2.only b a r h).2⟩⟩

theorem leafNodeCodec_law : leafNodeCodec.Law (fun _ => True) := by
  have := map_law (pair_law bytes32_law bytes32_law) (fun x => (⟨x.1, x.2⟩ : LeafNode Key)) (fun l => (l.keyHash, l.valueHash))
    (fun _ => rfl) (fun _ => rfl)
  exact ⟨fun a r _ => this.back a r ⟨trivial, trivial⟩, fun b a r h => ⟨trivial, (this.only b a r h).2⟩⟩

/-- The numbers of a node fit into their Rust types. -/
def NodeFits : Node Key → Prop
  | .internal n => InternalFits n
  | _ => True

theorem nodeCodec_law : nodeCodec.Law NodeFits where
  back a r h := by
    cases a with
    | null => rfl
    | internal n => simp [nodeCodec, internalNodeCodec_law.back n r h]
    | leaf l => simp [nodeCodec, leafNodeCodec_law.back l r trivial]
  only b a r h := by
    cases b with
    | nil => simp [nodeCodec] at h
    | cons x t =>
      simp only [nodeCodec] at h
      split_ifs at h with h0 h1 h2
      · cases h; simp [nodeCodec, h0, NodeFits]
      · rw [Option.map_eq_some_iff] at h
        obtain ⟨⟨y, r'⟩, hy, he⟩ := h
        cases he
        obtain ⟨h3, h4⟩ := internalNodeCodec_law.only _ _ _ hy
        exact ⟨h3, by simp [nodeCodec, h1, h4]⟩
      · rw [Option.map_eq_some_iff] at h
        obtain ⟨⟨y, r'⟩, hy, he⟩ := h
        cases he
        obtain ⟨_, h4⟩ := leafNodeCodec_law.only _ _ _ hy
        exact ⟨trivial, by simp [nodeCodec, h2, h4]⟩

/-- The numbers of a path fit into their Rust types. -/
def PathFits (p : NibblePath) : Prop := p.numNibbles < 2 ^ 64 ∧ p.bytes.length < 2 ^ 32

theorem nibblePathCodec_law : nibblePathCodec.Law PathFits := by
  have := map_law (pair_law u64_law (vec_law u8_law)) (fun x => (⟨x.1, x.2⟩ : NibblePath)) (fun p => (p.numNibbles, p.bytes))
    (fun _ => rfl) (fun _ => rfl)
  exact ⟨fun a r h => this.back a r ⟨h.1, h.2, fun _ _ => trivial⟩,
    fun b a r h => ⟨⟨(this.only b a r h).1.1, (this.only b a r h).1.2.1⟩, (this.only b a r h).2⟩⟩

theorem nodeKeyCodec_law : nodeKeyCodec.Law (fun x => x.1 < 2 ^ 64 ∧ PathFits x.2) := pair_law u64_law nibblePathCodec_law

theorem staleCodec_law : staleCodec.Law (fun x => x.1 < 2 ^ 64 ∧ x.2.1 < 2 ^ 64 ∧ PathFits x.2.2) := pair_law u64_law nodeKeyCodec_law

theorem proofCodec_law : proofCodec.Law (fun p => p.siblings.length < 2 ^ 32) := by
  have := map_law (pair_law (option_law leafNodeCodec_law) (vec_law bytes32_law)) (fun x => (⟨x.1, x.2⟩ : SparseMerkleProof Key))
    (fun p => (p.leaf, p.siblings)) (fun _ => rfl) (fun _ => rfl)
  exact ⟨fun a r h => this.back a r ⟨fun _ _ => trivial, h, fun _ _ => trivial⟩,
    fun b a r h => ⟨(this.only b a r h).1.2.1, (this.only b a r h).2⟩⟩

theorem rangeProofCodec_law : rangeProofCodec.Law (fun p => p.rightSiblings.length < 2 ^ 32) := by
  have := map_law (vec_law bytes32_law) (fun x => (⟨x⟩ : SparseMerkleRangeProof Key)) (fun p => p.rightSiblings)
    (fun _ => rfl) (fun _ => rfl)
  exact ⟨fun a r h => this.back a r ⟨h, fun _ _ => trivial⟩,
    fun b a r h => ⟨(this.only b a r h).1.1, (this.only b a r h).2⟩⟩

end Verif.Jmt
