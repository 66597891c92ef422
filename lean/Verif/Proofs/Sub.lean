import Verif.Proofs.Reads
/-! Subtrees of versioned trees. -/

namespace Verif.Jmt
variable {D : Type}
namespace VTree
open Verif.Spec

/-- The subtree at a relative path. -/
def sub : VTree D → List Nibble → VTree D
  | t, [] => t
  | .node _ _ ch, i :: q => (ch i).sub q
  | .leaf _ _ _, _ :: _ => .empty
  | .empty, _ :: _ => .empty

@[simp] theorem sub_nil (t : VTree D) : t.sub [] = t := by cases t <;> rfl
@[simp] theorem sub_empty (q : List Nibble) : (VTree.empty : VTree D).sub q = .empty := by cases q <;> rfl
@[simp] theorem sub_leaf_cons (v : Version) (k : Key) (h : D) (i : Nibble) (q : List Nibble) : (VTree.leaf v k h).sub (i :: q) = .empty := rfl
@[simp] theorem sub_node_cons (v : Version) (m : Bool) (ch : Nibble → VTree D) (i : Nibble) (q : List Nibble) :
    (VTree.node v m ch).sub (i :: q) = (ch i).sub q := rfl

theorem at?_sub {H : Hasher D} {t : VTree D} {v : Version} {q : List Nibble} {n : Node D} :
    t.at? H v q = some n ↔ t.sub q ≠ .empty ∧ (t.sub q).version = v ∧ (t.sub q).toNode H = n := by
  induction t generalizing q with
  | empty => simp
  | leaf v' k h =>
    rw [at?_leaf]
    cases q with
    | nil => simp [toNode, eq_comm]
    | cons i q => simp
  | node v' m ch ih =>
    cases q with
    | nil =>
      rw [at?_node_nil]
      simp only [Option.ite_none_right_eq_some, Option.some.injEq, sub_nil, ne_eq, reduceCtorEq, not_false_eq_true, version_node, true_and]
      constructor <;> rintro ⟨rfl, h⟩ <;> exact ⟨rfl, h⟩
    | cons i q => rw [at?_node_cons, ih i, sub_node_cons]

theorem wf_sub {p : List Nibble} {t : VTree D} (h : WF p t) (q : List Nibble) : WF (p ++ q) (t.sub q) := by
  induction t generalizing p q with
  | empty => simp [WF]
  | leaf v k x => cases q with
    | nil => simpa using h
    | cons i q => simp [WF]
  | node v m ch ih => cases q with
    | nil => simpa using h
    | cons i q =>
      have := ih i (h.1 i) q
      simpa using this

theorem mem_sub {t : VTree D} {q : List Nibble} {e : Key × D} (h : e ∈ (t.sub q).entries) : e ∈ t.entries := by
  induction t generalizing q with
  | empty => simpa using h
  | leaf v k x => cases q with
    | nil => simpa using h
    | cons i q => simp [entries] at h
  | node v m ch ih => cases q with
    | nil => simpa using h
    | cons i q =>
      have := ih i h
      simp only [entries, List.mem_flatMap, List.mem_finRange, true_and]
      exact ⟨i, this⟩

theorem mem_child {p : List Nibble} {v : Version} {m : Bool} {ch : Nibble → VTree D} (h : WF p (.node v m ch)) {e : Key × D}
    (he : e ∈ (VTree.node v m ch).entries) {i : Nibble} {q : List Nibble} (hp : p ++ i :: q <+: e.1.nibbles) : e ∈ (ch i).entries := by
  simp only [entries, List.mem_flatMap, List.mem_finRange, true_and] at he
  obtain ⟨j, hj⟩ := he
  have hpj := mem_entries_prefix (h.1 j) (k := e.1) (x := e.2) hj
  have h1 : p ++ [i] <+: e.1.nibbles := by
    refine List.IsPrefix.trans ?_ hp
    exact ⟨q, by simp⟩
  have : p ++ [i] = p ++ [j] := by
    have := List.prefix_of_prefix_length_le h1 hpj (by simp)
    exact this.eq_of_length (by simp)
  simp at this
  rw [this]; exact hj

theorem mem_sub_of {p : List Nibble} {t : VTree D} (h : WF p t) {e : Key × D} (he : e ∈ t.entries) {q : List Nibble}
    (hp : p ++ q <+: e.1.nibbles) (hne : t.sub q ≠ .empty) : e ∈ (t.sub q).entries := by
  induction t generalizing p q with
  | empty => simp at hne
  | leaf v k x => cases q with
    | nil => simpa using he
    | cons i q => simp at hne
  | node v m ch ih => cases q with
    | nil => simpa using he
    | cons i q => exact ih i (h.1 i) (mem_child h he hp) (by simpa using hp) hne

/-- Two different entries below a path: there is an internal node. -/
theorem sub_node_of {p : List Nibble} {t : VTree D} (h : WF p t) {q : List Nibble} {e e' : Key × D} (he : e ∈ t.entries)
    (he' : e' ∈ t.entries) (hne : e ≠ e') (hp : p ++ q <+: e.1.nibbles) (hp' : p ++ q <+: e'.1.nibbles) :
    ∃ v m ch, t.sub q = .node v m ch := by
  induction t generalizing p q with
  | empty => simp [entries] at he
  | leaf v k x =>
    simp only [entries, List.mem_singleton] at he he'
    exact absurd (he.trans he'.symm) hne
  | node v m ch ih => cases q with
    | nil => exact ⟨v, m, ch, rfl⟩
    | cons i q => exact ih i (h.1 i) (mem_child h he hp) (mem_child h he' hp') (by simpa using hp) (by simpa using hp')

/-- The place of an entry. -/
theorem exists_leaf {p : List Nibble} {t : VTree D} (h : WF p t) {k : Key} {x : D} (he : (k, x) ∈ t.entries) :
    ∃ q v, t.sub q = .leaf v k x ∧ p ++ q <+: k.nibbles := by
  induction t generalizing p with
  | empty => simp [entries] at he
  | leaf v k' x' =>
    simp only [entries, List.mem_singleton, Prod.mk.injEq] at he
    obtain ⟨rfl, rfl⟩ := he
    exact ⟨[], v, rfl, by rw [List.append_nil]; exact h⟩
  | node v m ch ih =>
    simp only [entries, List.mem_flatMap, List.mem_finRange, true_and] at he
    obtain ⟨i, hi⟩ := he
    obtain ⟨q, v', h1, h2⟩ := ih i (h.1 i) hi
    exact ⟨i :: q, v', h1, by simpa using h2⟩

/-- The parent of a non-empty subtree is a node. -/
theorem sub_parent {t : VTree D} {q : List Nibble} {i : Nibble} (h : t.sub (q ++ [i]) ≠ .empty) :
    ∃ v m ch, t.sub q = .node v m ch ∧ ch i = t.sub (q ++ [i]) := by
  induction t generalizing q with
  | empty => simp at h
  | leaf => cases q <;> simp at h
  | node v m ch ih => cases q with
    | nil => exact ⟨v, m, ch, rfl, by simp⟩
    | cons j q => exact ih j h

theorem sub_append (t : VTree D) (q r : List Nibble) : t.sub (q ++ r) = (t.sub q).sub r := by
  induction q generalizing t with
  | nil => simp
  | cons i q ih => cases t with
    | empty => simp
    | leaf => simp
    | node v m ch => exact ih (ch i)

end VTree
end Verif.Jmt
