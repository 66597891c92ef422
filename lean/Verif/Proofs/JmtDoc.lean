import Verif.Spec.JmtDoc
import Verif.Jmt.Serde
import Verif.Proofs.PmtDoc
/-!
Reading is described by the documents of `Spec/JmtDoc`.
-/

set_option autoImplicit false

namespace Verif.Serde

theorem mapM_iff {α β : Type} {f : α → Res β} {l : List α} {r : List β} : l.mapM f = .ok r ↔ List.Forall₂ (fun a b => f a = .ok b) l r := by
  induction l generalizing r with
  | nil =>
    rw [List.mapM_nil]
    cases r with
    | nil => exact ⟨fun _ => .nil, fun _ => rfl⟩
    | cons b r => exact ⟨fun h => (nomatch h), fun h => (nomatch h)⟩
  | cons a l ih =>
    rw [List.mapM_cons, bind_eq_ok]
    simp only [bind_eq_ok]
    constructor
    · rintro ⟨b, h1, bs, h2, h3⟩
      cases h3
      exact .cons h1 (ih.1 h2)
    · intro h
      cases h with
      | cons h1 h2 => exact ⟨_, h1, _, ih.2 h2, rfl⟩

theorem readFields_iff {names : List (String × Bool)} {c : Value} {l : List Value} : readFields names c = .ok l ↔ Jmt.Spec.Fields names c l := by
  unfold readFields
  split
  · rename_i fs
    rw [mapM_iff]
    have he : ∀ (n : String × Bool) (v : Value), (if n.2 = true then optField fs n.1 else field fs n.1) = .ok v ↔
        (Pmt.Spec.Named fs n.1 v ∨ n.2 = true ∧ v = .null ∧ ∀ e ∈ fs, e.1 ≠ n.1) := by
      rintro ⟨n, b⟩ v
      cases b with
      | true => simp only [if_true, optField_iff, true_and]
      | false => simp only [Bool.false_eq_true, if_false, field_iff, false_and, or_false]
    simp only [he]
    exact ⟨fun h => .object h, fun h => by cases h with | object h => exact h⟩
  · rename_i xs
    split
    · rename_i hl
      constructor
      · intro h; cases h; exact .array hl
      · intro h; cases h; rfl
    · rename_i hl
      constructor
      · intro h; cases h
      · intro h; cases h with | array h => exact absurd h hl
  · rename_i h1 h2
    constructor
    · intro h; cases h
    · intro h
      cases h with
      | array => exact absurd rfl (h2 _)
      | object => exact absurd rfl (h1 _)

theorem readU64_iff {v : Value} {n : Nat} : readU64 v = .ok n ↔ Jmt.Spec.NumDoc v n := by
  unfold readU64 Jmt.Spec.NumDoc
  split
  · rename_i m
    split
    · rename_i h
      constructor
      · intro e; cases e; exact ⟨rfl, h⟩
      · rintro ⟨e, _⟩; cases e; rfl
    · rename_i h
      constructor
      · intro e; cases e
      · rintro ⟨e, h'⟩; cases e; exact absurd h' h
  · rename_i h
    constructor
    · intro e; cases e
    · rintro ⟨e, _⟩; exact absurd e (h _)

theorem readUnit_iff {v : Value} {u : Unit} : readUnit v = .ok u ↔ v = .null := by
  unfold readUnit
  split
  · exact ⟨fun _ => rfl, fun _ => rfl⟩
  · rename_i h; exact ⟨fun e => (nomatch e), fun e => absurd e h⟩

theorem readBool_iff {v : Value} {b : Bool} : readBool v = .ok b ↔ v = .bool b := by
  unfold readBool
  split
  · exact ⟨fun e => by cases e; rfl, fun e => by cases e; rfl⟩
  · rename_i h; exact ⟨fun e => (nomatch e), fun e => absurd e (h _)⟩

theorem readOption_iff {α : Type} {f : Value → Res α} {P : Value → α → Prop} (hf : ∀ v a, f v = .ok a ↔ P v a) (hn : ∀ a, ¬ P .null a) {v : Value}
    {o : Option α} : readOption f v = .ok o ↔ Jmt.Spec.OptDoc P v o := by
  unfold readOption
  split
  · cases o with
    | none => exact ⟨fun _ => rfl, fun _ => rfl⟩
    | some a => exact ⟨fun e => (nomatch e), fun e => absurd e (hn a)⟩
  · rename_i h
    rw [bind_eq_ok]
    cases o with
    | none => exact ⟨fun ⟨_, _, e⟩ => (nomatch e), fun e => absurd e h⟩
    | some a =>
      constructor
      · rintro ⟨b, h1, h2⟩
        cases h2
        exact (hf _ _).1 h1
      · intro e
        exact ⟨a, (hf _ _).2 e, rfl⟩

theorem readArray_iff {α : Type} {f : Value → Res α} {n : Nat} {v : Value} {r : {l : List α // l.length = n}} :
    readArray f n v = .ok r ↔ ∃ l, v = .seq l ∧ List.Forall₂ (fun v a => f v = .ok a) l r.val := by
  unfold readArray
  split
  · rename_i l
    rw [bind_eq_ok]
    constructor
    · rintro ⟨a, h1, h2⟩
      split at h2
      · cases h2; exact ⟨l, rfl, readAll_iff.1 h1⟩
      · cases h2
    · rintro ⟨_, h1, h2⟩
      cases h1
      refine ⟨r.val, readAll_iff.2 h2, ?_⟩
      rw [dif_pos r.property]
      rfl
  · rename_i h
    exact ⟨fun e => (nomatch e), fun ⟨_, e, _⟩ => absurd e (h _)⟩

theorem readVec_iff {α : Type} {f : Value → Res α} {v : Value} {r : List α} :
    readVec f v = .ok r ↔ ∃ l, v = .seq l ∧ List.Forall₂ (fun v a => f v = .ok a) l r := by
  unfold readVec
  split
  · rename_i l
    rw [readAll_iff]
    exact ⟨fun h => ⟨l, rfl, h⟩, fun ⟨_, e, h⟩ => by cases e; exact h⟩
  · rename_i h
    exact ⟨fun e => (nomatch e), fun ⟨_, e, _⟩ => absurd e (h _)⟩

end Verif.Serde

namespace Verif.Jmt

open Verif.Serde

theorem Spec.Fields.length {names : List (String × Bool)} {c : Serde.Value} {l : List Serde.Value} (h : Spec.Fields names c l) : l.length = names.length := by
  cases h with
  | array h => exact h
  | object h => exact h.length_eq.symm

theorem Spec.Fields.not_null {names : List (String × Bool)} {l : List Serde.Value} : ¬ Spec.Fields names .null l := fun h => nomatch h

/-- A structure of one field. -/
theorem fields_one {α : Type} {names : List (String × Bool)} {c : Serde.Value} {g : Serde.Value → Res α} {a : α} :
    (do match ← readFields names c with
        | [x] => g x
        | _ => .error (.err "invalid length") : Res α) = .ok a ↔ ∃ x, Spec.Fields names c [x] ∧ g x = .ok a := by
  rw [bind_eq_ok]
  constructor
  · rintro ⟨l, h1, h2⟩
    split at h2
    · exact ⟨_, readFields_iff.1 h1, h2⟩
    · cases h2
  · rintro ⟨x, h1, h2⟩
    exact ⟨_, readFields_iff.2 h1, h2⟩

/-- A structure of two fields. -/
theorem fields_two {α : Type} {names : List (String × Bool)} {c : Serde.Value} {g : Serde.Value → Serde.Value → Res α} {a : α} :
    (do match ← readFields names c with
        | [x, y] => g x y
        | _ => .error (.err "invalid length") : Res α) = .ok a ↔ ∃ x y, Spec.Fields names c [x, y] ∧ g x y = .ok a := by
  rw [bind_eq_ok]
  constructor
  · rintro ⟨l, h1, h2⟩
    split at h2
    · exact ⟨_, _, readFields_iff.1 h1, h2⟩
    · cases h2
  · rintro ⟨x, y, h1, h2⟩
    exact ⟨_, readFields_iff.2 h1, h2⟩

/-- A structure of three fields. -/
theorem fields_three {α : Type} {names : List (String × Bool)} {c : Serde.Value} {g : Serde.Value → Serde.Value → Serde.Value → Res α} {a : α} :
    (do match ← readFields names c with
        | [x, y, z] => g x y z
        | _ => .error (.err "invalid length") : Res α) = .ok a ↔ ∃ x y z, Spec.Fields names c [x, y, z] ∧ g x y z = .ok a := by
  rw [bind_eq_ok]
  constructor
  · rintro ⟨l, h1, h2⟩
    split at h2
    · exact ⟨_, _, _, readFields_iff.1 h1, h2⟩
    · cases h2
  · rintro ⟨x, y, z, h1, h2⟩
    exact ⟨_, readFields_iff.2 h1, h2⟩

theorem readHash_iff {v : Serde.Value} {k : Key} : readHash v = .ok k ↔ Spec.HashDoc v k := by
  unfold readHash Spec.HashDoc
  rw [← readBytes_iff]
  unfold readBytes readArray
  cases v with
  | seq l =>
    simp only [bind_eq_ok]
    constructor
    · rintro ⟨r, ⟨b, h1, h2⟩, h3⟩
      split at h2
      · cases h2; cases h3; exact h1
      · cases h2
    · intro h
      refine ⟨⟨k.bytes, k.len⟩, ⟨_, h, ?_⟩, rfl⟩
      rw [dif_pos k.len]
      rfl
  | _ => exact ⟨fun h => (nomatch h), fun h => (nomatch h)⟩

theorem readHashes_iff {v : Serde.Value} {l : List Key} : readVec readHash v = .ok l ↔ Spec.HashesDoc v l := by
  rw [readVec_iff]
  simp only [readHash_iff]
  rfl

theorem readPath_iff {v : Serde.Value} {p : NibblePath} : readPath v = .ok p ↔ Spec.PathDoc v p := by
  unfold readPath Spec.PathDoc
  refine fields_two.trans ?_
  simp only [bind_eq_ok, readU64_iff, readBytes_iff]
  constructor
  · rintro ⟨x, y, h, n, hn, b, hb, e⟩; cases e; exact ⟨x, y, h, hn, hb⟩
  · rintro ⟨x, y, h, hn, hb⟩; exact ⟨x, y, h, _, hn, _, hb, rfl⟩

theorem readNodeKey_iff {v : Serde.Value} {n : Version} {p : NibblePath} : readNodeKey v = .ok (n, p) ↔ Spec.NodeKeyDoc v n p := by
  unfold readNodeKey Spec.NodeKeyDoc
  refine fields_two.trans ?_
  simp only [bind_eq_ok, readU64_iff, readPath_iff]
  constructor
  · rintro ⟨x, y, h, n, hn, b, hb, e⟩; cases e; exact ⟨x, y, h, hn, hb⟩
  · rintro ⟨x, y, h, hn, hb⟩; exact ⟨x, y, h, _, hn, _, hb, rfl⟩

theorem readNodeType_iff {v : Serde.Value} {t : NodeType} : readNodeType v = .ok t ↔ Spec.NodeTypeDoc v t := by
  constructor
  · intro h
    unfold readNodeType at h
    split at h
    · split at h
      · cases h; rename_i e; subst e; exact .leaf
      · split at h
        · cases h; rename_i e; subst e; exact .internalLegacy
        · cases h
    · split at h
      · rename_i e; subst e
        obtain ⟨_, h1, h2⟩ := bind_eq_ok.1 h
        cases h2
        rw [readUnit_iff.1 h1]
        exact .leafNull
      · split at h
        · rename_i e; subst e
          obtain ⟨_, h1, h2⟩ := bind_eq_ok.1 h
          cases h2
          rw [readUnit_iff.1 h1]
          exact .internalLegacyNull
        · split at h
          · rename_i e; subst e
            obtain ⟨x, h1, h2⟩ := fields_one.1 h
            obtain ⟨n, h3, h4⟩ := bind_eq_ok.1 h2
            cases h4
            exact .internal h1 (readU64_iff.1 h3)
          · cases h
    · cases h
  · intro h
    cases h with
    | leaf => rfl
    | leafNull => rfl
    | internalLegacy => rfl
    | internalLegacyNull => rfl
    | internal h hx =>
      unfold readNodeType
      dsimp only
      rw [if_neg (by decide), if_neg (by decide), if_pos rfl]
      exact fields_one.2 ⟨_, h, bind_eq_ok.2 ⟨_, readU64_iff.2 hx, rfl⟩⟩

theorem readChild_iff {v : Serde.Value} {c : Child Key} : readChild v = .ok c ↔ Spec.ChildDoc v c := by
  unfold readChild Spec.ChildDoc
  refine fields_three.trans ?_
  simp only [bind_eq_ok, readU64_iff, readHash_iff, readNodeType_iff]
  constructor
  · rintro ⟨x, y, z, h, a, ha, b, hb, d, hd, e⟩; cases e; exact ⟨x, y, z, h, ha, hb, hd⟩
  · rintro ⟨x, y, z, h, ha, hb, hd⟩; exact ⟨x, y, z, h, _, ha, _, hb, _, hd, rfl⟩

theorem Spec.ChildDoc.not_null (c : Child Key) : ¬ Spec.ChildDoc .null c := fun ⟨_, _, _, h, _⟩ => h.not_null
theorem Spec.LeafDoc.not_null (c : LeafNode Key) : ¬ Spec.LeafDoc .null c := fun ⟨_, _, h, _⟩ => h.not_null

theorem readOptChild_iff {v : Serde.Value} {o : Option (Child Key)} : readOption readChild v = .ok o ↔ Spec.OptDoc Spec.ChildDoc v o :=
  readOption_iff (f := readChild) (P := Spec.ChildDoc) (fun _ _ => readChild_iff) Spec.ChildDoc.not_null

theorem readOptU64_iff {v : Serde.Value} {o : Option Nat} : readOption readU64 v = .ok o ↔ Spec.OptDoc Spec.NumDoc v o :=
  readOption_iff (fun _ _ => readU64_iff) fun _ h => Serde.Value.noConfusion h.1

theorem readChildren_iff {v : Serde.Value} {cs : Children Key} : readChildren v = .ok cs ↔ Spec.ChildrenDoc v cs := by
  unfold readChildren Spec.ChildrenDoc
  refine fields_two.trans ?_
  simp only [bind_eq_ok, readU64_iff, readArray_iff, readOptChild_iff]
  constructor
  · rintro ⟨x, y, h, r, ⟨l, rfl, hl⟩, n, hn, e⟩
    cases e
    have h16 : l.length = 16 := hl.length_eq.trans r.property
    refine ⟨fun i => l[i.val]'(by rw [h16]; exact i.isLt), y, ?_, ?_, hn⟩
    · have : List.ofFn (fun i : Nibble => l[i.val]'(by rw [h16]; exact i.isLt)) = l := by
        apply List.ext_getElem
        · rw [List.length_ofFn, h16]
        · intro i h1 h2
          rw [List.getElem_ofFn]
      rw [this]
      exact h
    · intro i
      exact (List.forall₂_iff_get.1 hl).2 i.val (by rw [h16]; exact i.isLt) (by rw [r.property]; exact i.isLt)
  · rintro ⟨xs, y, h, hx, hn⟩
    refine ⟨_, y, h, ⟨List.ofFn cs.children, List.length_ofFn⟩, ⟨List.ofFn xs, rfl, ?_⟩, _, hn, ?_⟩
    · refine List.forall₂_iff_get.2 ⟨by rw [List.length_ofFn, List.length_ofFn], ?_⟩
      intro i h1 h2
      rw [List.length_ofFn] at h1
      rw [List.get_ofFn, List.get_ofFn]
      exact hx ⟨i, h1⟩
    · show Except.ok _ = _
      congr
      funext i
      show (List.ofFn cs.children)[i.val]'_ = _
      rw [List.getElem_ofFn]

theorem readInternalNode_iff {v : Serde.Value} {n : InternalNode Key} : readInternalNode v = .ok n ↔ Spec.InternalDoc v n := by
  unfold readInternalNode Spec.InternalDoc
  refine fields_three.trans ?_
  simp only [bind_eq_ok, readChildren_iff, readBool_iff, readOptU64_iff]
  constructor
  · rintro ⟨x, y, z, h, a, ha, b, hb, d, rfl, e⟩; cases e; exact ⟨x, y, h, ha, hb⟩
  · rintro ⟨x, y, h, ha, hb⟩; exact ⟨x, y, _, h, _, ha, _, hb, _, rfl, rfl⟩

theorem readLeafNode_iff {v : Serde.Value} {l : LeafNode Key} : readLeafNode v = .ok l ↔ Spec.LeafDoc v l := by
  unfold readLeafNode Spec.LeafDoc
  refine fields_two.trans ?_
  simp only [bind_eq_ok, readHash_iff]
  constructor
  · rintro ⟨x, y, h, n, hn, b, hb, e⟩; cases e; exact ⟨x, y, h, hn, hb⟩
  · rintro ⟨x, y, h, hn, hb⟩; exact ⟨x, y, h, _, hn, _, hb, rfl⟩

theorem readOptLeaf_iff {v : Serde.Value} {o : Option (LeafNode Key)} : readOption readLeafNode v = .ok o ↔ Spec.OptDoc Spec.LeafDoc v o :=
  readOption_iff (f := readLeafNode) (P := Spec.LeafDoc) (fun _ _ => readLeafNode_iff) Spec.LeafDoc.not_null

theorem readNode_iff {v : Serde.Value} {n : Node Key} : readNode v = .ok n ↔ Spec.NodeDoc v n := by
  constructor
  · intro h
    unfold readNode at h
    split at h
    · split at h
      · cases h; rename_i e; subst e; exact .null
      · cases h
    · split at h
      · rename_i e; subst e
        obtain ⟨_, h1, h2⟩ := bind_eq_ok.1 h
        cases h2
        rw [readUnit_iff.1 h1]
        exact .nullNull
      · split at h
        · rename_i e; subst e
          obtain ⟨_, h1, h2⟩ := bind_eq_ok.1 h
          cases h2
          exact .internal (readInternalNode_iff.1 h1)
        · split at h
          · rename_i e; subst e
            obtain ⟨_, h1, h2⟩ := bind_eq_ok.1 h
            cases h2
            exact .leaf (readLeafNode_iff.1 h1)
          · cases h
    · cases h
  · intro h
    cases h with
    | null => rfl
    | nullNull => rfl
    | internal h => exact bind_eq_ok.2 ⟨_, readInternalNode_iff.2 h, rfl⟩
    | leaf h => exact bind_eq_ok.2 ⟨_, readLeafNode_iff.2 h, rfl⟩

theorem readProof_iff {v : Serde.Value} {p : SparseMerkleProof Key} : readProof v = .ok p ↔ Spec.ProofDoc v p := by
  unfold readProof Spec.ProofDoc
  refine fields_three.trans ?_
  simp only [bind_eq_ok, readHashes_iff, readUnit_iff, readOptLeaf_iff]
  constructor
  · rintro ⟨x, y, z, h, a, ha, b, hb, d, rfl, e⟩; cases e; exact ⟨x, y, h, ha, hb⟩
  · rintro ⟨x, y, h, ha, hb⟩; exact ⟨x, y, _, h, _, ha, _, hb, (), rfl, rfl⟩

theorem readRangeProof_iff {v : Serde.Value} {p : SparseMerkleRangeProof Key} : readRangeProof v = .ok p ↔ Spec.RangeProofDoc v p := by
  unfold readRangeProof Spec.RangeProofDoc
  refine fields_one.trans ?_
  simp only [bind_eq_ok, readHashes_iff]
  constructor
  · rintro ⟨x, h, n, hn, e⟩; cases e; exact ⟨x, h, hn⟩
  · rintro ⟨x, h, hn⟩; exact ⟨x, h, _, hn, rfl⟩

end Verif.Jmt
