import Verif.Jmt.Serde
import Verif.Proofs.Borsh
import Verif.Proofs.PmtSerde
import Mathlib.Data.List.OfFn
/-!
Reading back what has been serialised: the types of jmt.
-/

set_option autoImplicit false

namespace Verif.Serde

variable {α β : Type}

theorem readOption_writeOption {f : Value → Res α} {g : α → Value} {o : Option α} (h : ∀ a, o = some a → f (g a) = .ok a ∧ g a ≠ .null) :
    readOption f (writeOption g o) = .ok o := by
  cases o with
  | none => rfl
  | some a =>
    obtain ⟨h1, h2⟩ := h a rfl
    simp only [writeOption]
    cases hg : g a with
    | null => exact absurd hg h2
    | bool | num | str | seq | obj => simp only [readOption]; rw [← hg, h1]; rfl

theorem readArray_map {f : Value → Res α} {g : α → Value} {l : List α} {n : Nat} (hn : l.length = n) (h : ∀ a ∈ l, f (g a) = .ok a) :
    readArray f n (.seq (l.map g)) = .ok ⟨l, hn⟩ := by
  simp only [readArray, readAll_map h, Res.ok_bind, dif_pos hn]
  rfl

theorem readU64_num {n : Nat} (h : n < 2 ^ 64) : readU64 (.num n) = .ok n := if_pos h

/-- No panic. -/
def NoPanic (r : Res α) : Prop := ∀ m, r ≠ .error (.panic m)

theorem NoPanic.ok (a : α) : NoPanic (.ok a : Res α) := fun _ h => by cases h
theorem NoPanic.err (m : String) : NoPanic (.error (.err m) : Res α) := fun _ h => by cases h

theorem NoPanic.bind {x : Res α} {f : α → Res β} (h : NoPanic x) (hf : ∀ a, NoPanic (f a)) : NoPanic (x >>= f) := by
  cases x with
  | ok a => exact hf a
  | error e =>
    intro m hm
    rw [Res.error_bind] at hm
    cases hm
    exact h m rfl

theorem NoPanic.ite {p : Prop} [Decidable p] {x y : Res α} (h : NoPanic x) (h' : NoPanic y) : NoPanic (if p then x else y) := by
  split
  · exact h
  · exact h'

theorem readAll_noPanic {f : Value → Res α} (h : ∀ v, NoPanic (f v)) (l : List Value) : NoPanic (readAll f l) := by
  induction l with
  | nil => exact .ok _
  | cons v t ih => exact (h v).bind fun _ => ih.bind fun _ => .ok _

theorem field?_noPanic (fs : List (String × Value)) (n : String) : NoPanic (field? fs n) := by
  unfold field?
  split
  · exact .ok _
  · exact .ok _
  · exact .err _

theorem field_noPanic (fs : List (String × Value)) (n : String) : NoPanic (field fs n) := by
  unfold field
  refine (field?_noPanic fs n).bind fun o => ?_
  cases o with
  | none => exact .err _
  | some v => exact .ok _

theorem optField_noPanic (fs : List (String × Value)) (n : String) : NoPanic (optField fs n) :=
  (field?_noPanic fs n).bind fun _ => .ok _

theorem mapM_noPanic {γ : Type} {f : γ → Res α} (h : ∀ c, NoPanic (f c)) (l : List γ) : NoPanic (l.mapM f) := by
  induction l with
  | nil => exact .ok _
  | cons c t ih =>
    rw [List.mapM_cons]
    exact (h c).bind fun _ => ih.bind fun _ => .ok _

theorem readFields_noPanic (names : List (String × Bool)) (v : Value) : NoPanic (readFields names v) := by
  cases v with
  | obj fs => exact mapM_noPanic (fun n => .ite (optField_noPanic _ _) (field_noPanic _ _)) names
  | seq l => exact .ite (.ok _) (.err _)
  | null | bool | num | str => exact .err _

theorem readByte_noPanic (v : Value) : NoPanic (readByte v) := by
  cases v with
  | num n => exact .ite (.ok _) (.err _)
  | _ => exact .err _

theorem readArray_noPanic {f : Value → Res α} (h : ∀ v, NoPanic (f v)) (n : Nat) (v : Value) : NoPanic (readArray f n v) := by
  cases v with
  | seq l =>
    refine (readAll_noPanic h l).bind fun r => ?_
    split
    · exact .ok _
    · exact .err _
  | _ => exact .err _

theorem readVec_noPanic {f : Value → Res α} (h : ∀ v, NoPanic (f v)) (v : Value) : NoPanic (readVec f v) := by
  cases v with
  | seq l => exact readAll_noPanic h l
  | _ => exact .err _

theorem readBytes_noPanic (v : Value) : NoPanic (readBytes v) := readVec_noPanic readByte_noPanic v

theorem readOption_noPanic {f : Value → Res α} (h : ∀ v, NoPanic (f v)) (v : Value) : NoPanic (readOption f v) := by
  cases v with
  | null => exact .ok _
  | bool | num | str | seq | obj => exact (h _).bind fun _ => .ok _

theorem readU64_noPanic (v : Value) : NoPanic (readU64 v) := by
  cases v with
  | num n => exact .ite (.ok _) (.err _)
  | _ => exact .err _

theorem readBool_noPanic (v : Value) : NoPanic (readBool v) := by
  cases v with
  | bool b => exact .ok _
  | _ => exact .err _

theorem readUnit_noPanic (v : Value) : NoPanic (readUnit v) := by
  cases v with
  | null => exact .ok _
  | _ => exact .err _

theorem readU64_lt {v : Value} {n : Nat} (h : readU64 v = .ok n) : n < 2 ^ 64 := by
  cases v with
  | num m =>
    simp only [readU64] at h
    split at h
    · cases h; assumption
    · cases h
  | _ => cases h

/-- What a successful sequence consists of. -/
theorem Res.bind_ok {x : Res α} {f : α → Res β} {b : β} (h : (x >>= f) = .ok b) : ∃ a, x = .ok a ∧ f a = .ok b := by
  cases x with
  | ok a => exact ⟨a, rfl, h⟩
  | error e => cases h

theorem readAll_mem {f : Value → Res α} {l : List Value} {r : List α} (h : readAll f l = .ok r) : ∀ a ∈ r, ∃ v, f v = .ok a := by
  induction l generalizing r with
  | nil => cases h; intro a ha; cases ha
  | cons v t ih =>
    obtain ⟨a, ha, h⟩ := Res.bind_ok h
    obtain ⟨as, has, h⟩ := Res.bind_ok h
    cases h
    intro b hb
    rcases List.mem_cons.1 hb with rfl | hb
    · exact ⟨v, ha⟩
    · exact ih has b hb

theorem readArray_mem {f : Value → Res α} {n : Nat} {v : Value} {r : {l : List α // l.length = n}} (h : readArray f n v = .ok r) :
    ∀ a ∈ r.val, ∃ w, f w = .ok a := by
  cases v with
  | seq l =>
    obtain ⟨r', hr, h⟩ := Res.bind_ok h
    split at h
    · cases h; exact readAll_mem hr
    · cases h
  | _ => cases h

/-- The entries with a name. -/
def named (fs : List (String × Value)) (n : String) : List (String × Value) := fs.filter (fun e => e.1 = n)

theorem field?_perm {fs gs : List (String × Value)} {n : String} (h : (named fs n).Perm (named gs n)) : field? fs n = field? gs n := by
  unfold named at h
  unfold field?
  generalize fs.filter (fun e => decide (e.1 = n)) = a at h
  generalize gs.filter (fun e => decide (e.1 = n)) = b at h
  match a, b, h with
  | [], b, h => rw [List.nil_perm.1 h]
  | [x], b, h => rw [List.singleton_perm.1 h]
  | x :: y :: t, [], h => exact absurd h.length_eq (by simp)
  | x :: y :: t, [z], h => exact absurd h.length_eq (by simp)
  | x :: y :: t, z :: w :: u, h => rfl

theorem readFields_perm {names : List (String × Bool)} {fs gs : List (String × Value)}
    (h : ∀ n ∈ names, (named fs n.1).Perm (named gs n.1)) : readFields names (.obj fs) = readFields names (.obj gs) := by
  simp only [readFields]
  induction names with
  | nil => rfl
  | cons n t ih =>
    rw [List.mapM_cons, List.mapM_cons, ih (fun m hm => h m (List.mem_cons_of_mem _ hm))]
    simp only [optField, field, field?_perm (h n List.mem_cons_self)]

end Verif.Serde

namespace Verif.Jmt

open Verif.Serde

theorem readHash_writeHash (k : Key) : readHash (writeHash k) = .ok k := by
  have : readArray readByte 32 (.seq (k.bytes.map writeByte)) = .ok ⟨k.bytes, k.len⟩ := by
    refine readArray_map k.len fun x _ => ?_
    have := x.toNat_lt
    simp only [writeByte, readByte]
    rw [if_pos (by simpa using this), UInt8.ofNat_toNat]
  simp only [readHash, writeHash, writeBytes, this, Res.ok_bind]
  rfl

theorem readPath_writePath {p : NibblePath} (h : p.numNibbles < 2 ^ 64) : readPath (writePath p) = .ok p := by
  simp [readPath, writePath, readFields, field, field?, readU64_num h, readBytes_writeBytes]

theorem readNodeKey_writeNodeKey {x : Version × NibblePath} (h : x.1 < 2 ^ 64) (hp : x.2.numNibbles < 2 ^ 64) :
    readNodeKey (writeNodeKey x) = .ok x := by
  simp [readNodeKey, writeNodeKey, readFields, field, field?, readU64_num h, readPath_writePath hp]

theorem readNodeType_writeNodeType {t : NodeType} (h : ∀ n, t = .internal n → n < 2 ^ 64) : readNodeType (writeNodeType t) = .ok t := by
  cases t with
  | leaf => rfl
  | internalLegacy => rfl
  | internal n => simp [readNodeType, writeNodeType, readFields, field, field?, readU64_num (h n rfl)]

theorem readChild_writeChild {c : Child Key} (h : ChildFits c) : readChild (writeChild c) = .ok c := by
  simp [readChild, writeChild, readFields, field, field?, readU64_num h.1, readHash_writeHash, readNodeType_writeNodeType h.2]

theorem readChildren_writeChildren {c : Children Key} (h : ∀ i x, c.children i = some x → ChildFits x) (hn : c.numChildren < 2 ^ 64) :
    readChildren (writeChildren c) = .ok c := by
  have he : List.ofFn (fun i : Nibble => writeOption writeChild (c.children i)) = (List.ofFn c.children).map (writeOption writeChild) := by
    rw [List.map_ofFn]; rfl
  have : readArray (readOption readChild) 16 (.seq ((List.ofFn c.children).map (writeOption writeChild))) = .ok ⟨List.ofFn c.children, by simp⟩ := by
    refine readArray_map _ fun o ho => ?_
    rw [List.mem_ofFn] at ho
    obtain ⟨i, rfl⟩ := ho
    exact readOption_writeOption fun a ha => ⟨readChild_writeChild (h i a ha), fun e => by cases e⟩
  rw [← he] at this
  obtain ⟨l, hl⟩ : ∃ l, l = List.ofFn (fun i : Nibble => writeOption writeChild (c.children i)) := ⟨_, rfl⟩
  obtain ⟨m, hm⟩ : ∃ m : {m : List (Option (Child Key)) // m.length = 16}, m = ⟨List.ofFn c.children, by simp⟩ := ⟨_, rfl⟩
  have hg : (fun i : Nibble => m.val[i.val]'(by have := m.property; omega)) = c.children := by
    funext i
    subst hm
    exact List.getElem_ofFn _
  rw [← hl, ← hm] at this
  clear hm
  simp only [readChildren, writeChildren, readFields, ← hl]
  simp [field, field?, this, readU64_num hn, hg]

theorem readInternalNode_writeInternalNode {n : InternalNode Key} (h : InternalFits n) : readInternalNode (writeInternalNode n) = .ok n := by
  have h1 := readChildren_writeChildren h.1 h.2.1
  have h2 : readOption readU64 (writeOption .num n.leafCount) = .ok n.leafCount :=
    readOption_writeOption fun a ha => ⟨readU64_num (h.2.2 a ha), fun e => by cases e⟩
  simp [readInternalNode, writeInternalNode, readFields, field, optField, field?, h1, h2, readBool]

theorem readLeafNode_writeLeafNode (l : LeafNode Key) : readLeafNode (writeLeafNode l) = .ok l := by
  simp [readLeafNode, writeLeafNode, readFields, field, field?, readHash_writeHash]

theorem readNode_writeNode {n : Node Key} (h : NodeFits n) : readNode (writeNode n) = .ok n := by
  cases n with
  | null => rfl
  | internal n => simp [readNode, writeNode, readInternalNode_writeInternalNode (n := n) h]
  | leaf l => simp [readNode, writeNode, readLeafNode_writeLeafNode]

theorem readVec_hashes (l : List Key) : readVec readHash (.seq (l.map writeHash)) = .ok l := readAll_map fun k _ => readHash_writeHash k

theorem readProof_writeProof (p : SparseMerkleProof Key) : readProof (writeProof p) = .ok p := by
  have h : readOption readLeafNode (writeOption writeLeafNode p.leaf) = .ok p.leaf :=
    readOption_writeOption fun a _ => ⟨readLeafNode_writeLeafNode a, fun e => by cases e⟩
  simp [readProof, writeProof, readFields, field, optField, field?, h, readVec_hashes, readUnit]

theorem readRangeProof_writeRangeProof (p : SparseMerkleRangeProof Key) : readRangeProof (writeRangeProof p) = .ok p := by
  simp [readRangeProof, writeRangeProof, readFields, field, field?, readVec_hashes]

theorem readHash_noPanic (v : Serde.Value) : NoPanic (readHash v) := (readArray_noPanic readByte_noPanic _ v).bind fun _ => .ok _

theorem readPath_noPanic (v : Serde.Value) : NoPanic (readPath v) := by
  refine (readFields_noPanic _ v).bind fun l => ?_
  split
  · exact (readU64_noPanic _).bind fun _ => (readBytes_noPanic _).bind fun _ => .ok _
  · exact .err _

theorem readNodeKey_noPanic (v : Serde.Value) : NoPanic (readNodeKey v) := by
  refine (readFields_noPanic _ v).bind fun l => ?_
  split
  · exact (readU64_noPanic _).bind fun _ => (readPath_noPanic _).bind fun _ => .ok _
  · exact .err _

theorem readNodeType_noPanic (v : Serde.Value) : NoPanic (readNodeType v) := by
  unfold readNodeType
  split
  · exact .ite (.ok _) (.ite (.ok _) (.err _))
  · refine .ite ((readUnit_noPanic _).bind fun _ => .ok _) (.ite ((readUnit_noPanic _).bind fun _ => .ok _) (.ite ?_ (.err _)))
    refine (readFields_noPanic _ _).bind fun l => ?_
    split
    · exact (readU64_noPanic _).bind fun _ => .ok _
    · exact .err _
  · exact .err _

theorem readChild_noPanic (v : Serde.Value) : NoPanic (readChild v) := by
  refine (readFields_noPanic _ v).bind fun l => ?_
  split
  · exact (readHash_noPanic _).bind fun _ => (readU64_noPanic _).bind fun _ => (readNodeType_noPanic _).bind fun _ => .ok _
  · exact .err _

theorem readChildren_noPanic (v : Serde.Value) : NoPanic (readChildren v) := by
  refine (readFields_noPanic _ v).bind fun l => ?_
  split
  · exact (readArray_noPanic (readOption_noPanic readChild_noPanic) _ _).bind fun _ => (readU64_noPanic _).bind fun _ => .ok _
  · exact .err _

theorem readInternalNode_noPanic (v : Serde.Value) : NoPanic (readInternalNode v) := by
  refine (readFields_noPanic _ v).bind fun l => ?_
  split
  · exact (readChildren_noPanic _).bind fun _ => (readOption_noPanic readU64_noPanic _).bind fun _ => (readBool_noPanic _).bind fun _ => .ok _
  · exact .err _

theorem readLeafNode_noPanic (v : Serde.Value) : NoPanic (readLeafNode v) := by
  refine (readFields_noPanic _ v).bind fun l => ?_
  split
  · exact (readHash_noPanic _).bind fun _ => (readHash_noPanic _).bind fun _ => .ok _
  · exact .err _

theorem readNode_noPanic (v : Serde.Value) : NoPanic (readNode v) := by
  unfold readNode
  split
  · exact .ite (.ok _) (.err _)
  · exact .ite ((readUnit_noPanic _).bind fun _ => .ok _) (.ite ((readInternalNode_noPanic _).bind fun _ => .ok _)
      (.ite ((readLeafNode_noPanic _).bind fun _ => .ok _) (.err _)))
  · exact .err _

theorem readProof_noPanic (v : Serde.Value) : NoPanic (readProof v) := by
  refine (readFields_noPanic _ v).bind fun l => ?_
  split
  · exact (readOption_noPanic readLeafNode_noPanic _).bind fun _ => (readVec_noPanic readHash_noPanic _).bind fun _ =>
      (readUnit_noPanic _).bind fun _ => .ok _
  · exact .err _

theorem readRangeProof_noPanic (v : Serde.Value) : NoPanic (readRangeProof v) := by
  refine (readFields_noPanic _ v).bind fun l => ?_
  split
  · exact (readVec_noPanic readHash_noPanic _).bind fun _ => .ok _
  · exact .err _

theorem readNodeType_fits {v : Serde.Value} {t : NodeType} (h : readNodeType v = .ok t) : ∀ n, t = .internal n → n < 2 ^ 64 := by
  rintro n rfl
  unfold readNodeType at h
  split at h
  · split at h
    · cases h
    · split at h <;> cases h
  · split at h
    · obtain ⟨_, _, h⟩ := Res.bind_ok h; cases h
    · split at h
      · obtain ⟨_, _, h⟩ := Res.bind_ok h; cases h
      · split at h
        · obtain ⟨l, _, h⟩ := Res.bind_ok h
          split at h
          · obtain ⟨m, hm, h⟩ := Res.bind_ok h
            cases h
            exact readU64_lt hm
          · cases h
        · cases h
  · cases h

theorem readChild_fits {v : Serde.Value} {c : Child Key} (h : readChild v = .ok c) : ChildFits c := by
  obtain ⟨l, _, h⟩ := Res.bind_ok h
  split at h
  · obtain ⟨_, _, h⟩ := Res.bind_ok h
    obtain ⟨_, h1, h⟩ := Res.bind_ok h
    obtain ⟨_, h2, h⟩ := Res.bind_ok h
    cases h
    exact ⟨readU64_lt h1, readNodeType_fits h2⟩
  · cases h

theorem readOption_ok {α : Type} {f : Serde.Value → Res α} {v : Serde.Value} {a : α} (h : readOption f v = .ok (some a)) : f v = .ok a := by
  cases v with
  | null => cases h
  | bool | num | str | seq | obj =>
    obtain ⟨b, hb, h⟩ := Res.bind_ok h
    cases h
    exact hb

theorem readChildren_fits {v : Serde.Value} {c : Children Key} (h : readChildren v = .ok c) :
    (∀ i x, c.children i = some x → ChildFits x) ∧ c.numChildren < 2 ^ 64 := by
  obtain ⟨l, _, h⟩ := Res.bind_ok h
  split at h
  · obtain ⟨cs, hcs, h⟩ := Res.bind_ok h
    obtain ⟨n, hn, h⟩ := Res.bind_ok h
    cases h
    refine ⟨?_, readU64_lt hn⟩
    intro i x hx
    obtain ⟨u, hu⟩ := readArray_mem hcs (some x) (by rw [← hx]; exact List.getElem_mem _)
    exact readChild_fits (readOption_ok hu)
  · cases h

theorem readInternalNode_fits {v : Serde.Value} {n : InternalNode Key} (h : readInternalNode v = .ok n) : InternalFits n := by
  obtain ⟨l, _, h⟩ := Res.bind_ok h
  split at h
  · obtain ⟨_, h1, h⟩ := Res.bind_ok h
    obtain ⟨o, h2, h⟩ := Res.bind_ok h
    obtain ⟨_, _, h⟩ := Res.bind_ok h
    cases h
    refine ⟨(readChildren_fits h1).1, (readChildren_fits h1).2, ?_⟩
    rintro k rfl
    exact readU64_lt (readOption_ok h2)
  · cases h

theorem readNode_fits {v : Serde.Value} {n : Node Key} (h : readNode v = .ok n) : NodeFits n := by
  unfold readNode at h
  split at h
  · split at h
    · cases h; trivial
    · cases h
  · split at h
    · obtain ⟨_, _, h⟩ := Res.bind_ok h; cases h; trivial
    · split at h
      · obtain ⟨_, h1, h⟩ := Res.bind_ok h
        cases h
        exact readInternalNode_fits h1
      · split at h
        · obtain ⟨_, _, h⟩ := Res.bind_ok h; cases h; trivial
        · cases h
  · cases h

end Verif.Jmt
