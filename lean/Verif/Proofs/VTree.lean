import Verif.Jmt.Tree
import Verif.Spec.Smt
import Verif.Proofs.NodeHash
/-!
Versioned trees: the inductive tree that a root node key denotes in a store, and the pure version of the
update path. Auxiliary to the proofs; no property is stated in terms of it.
-/

namespace Verif.Jmt

inductive VTree (D : Type) where
  | empty
  | leaf (v : Version) (k : Key) (h : D)
  | node (v : Version) (m : Bool) (ch : Nibble → VTree D)

/-- Overwrite one child. -/
def upd {α : Type} (f : Nibble → α) (i : Nibble) (x : α) : Nibble → α := fun j => if j = i then x else f j

@[simp] theorem upd_same {α : Type} (f : Nibble → α) (i : Nibble) (x : α) : upd f i x i = x := by simp [upd]
theorem upd_ne {α : Type} (f : Nibble → α) {i j : Nibble} (x : α) (h : j ≠ i) : upd f i x j = f j := by simp [upd, h]
theorem map_upd {α β : Type} (g : α → β) (f : Nibble → α) (i : Nibble) (x : α) :
    (fun j => g (upd f i x j)) = upd (fun j => g (f j)) i (g x) := by
  funext j; simp only [upd]; split <;> rfl

variable {D : Type}

/-! children given by a function -/

def Children.ofFun (f : Nibble → Option (Child D)) : Children D := ⟨f, ((List.finRange 16).filterMap f).length⟩

def InternalNode.ofFun (m : Bool) (f : Nibble → Option (Child D)) : InternalNode D :=
  ⟨.ofFun f, InternalNode.sumLeafCount (.ofFun f), m⟩

theorem filterMap_length_upd {α : Type} (l : List Nibble) (hl : l.Nodup) (f : Nibble → Option α) (n : Nibble) (x : Option α) :
    (l.filterMap (upd f n x)).length + (if n ∈ l ∧ (f n).isSome then 1 else 0) =
      (l.filterMap f).length + (if n ∈ l ∧ x.isSome then 1 else 0) := by
  induction l with
  | nil => simp
  | cons a t ih =>
    simp only [List.nodup_cons] at hl
    have ih := ih hl.2
    by_cases h : a = n
    · subst h
      have e : upd f a x a = x := by simp
      have : t.filterMap (upd f a x) = t.filterMap f := by
        have : ∀ s : List Nibble, a ∉ s → s.filterMap (upd f a x) = s.filterMap f := by
          intro s hs
          induction s with
          | nil => rfl
          | cons b s ihs =>
            simp only [List.mem_cons, not_or] at hs
            rw [List.filterMap_cons, List.filterMap_cons, ihs hs.2, upd_ne f x (Ne.symm hs.1)]
        exact this t hl.1
      simp only [List.filterMap_cons, e, this, List.mem_cons_self, true_and]
      cases f a <;> cases x <;> simp
    · have e : upd f n x a = f a := upd_ne _ _ h
      have hm : (n ∈ a :: t) ↔ n ∈ t := by simp [Ne.symm h]
      simp only [List.filterMap_cons, e, hm]
      cases f a with
      | none => simpa using ih
      | some c => simp only [List.length_cons]; omega

theorem Children.insert_ofFun (f : Nibble → Option (Child D)) (n : Nibble) (c : Child D) :
    (Children.ofFun f).insert n c = .ofFun (upd f n (some c)) := by
  have := filterMap_length_upd (List.finRange 16) (List.nodup_finRange 16) f n (some c)
  simp only [List.mem_finRange, true_and, Option.isSome_some, if_true] at this
  unfold Children.insert Children.ofFun
  show Children.mk _ (if (f n).isNone = true then _ else _) = _
  congr 1
  rcases h : f n with _ | x
  · simp only [h] at this; simpa using this.symm
  · simp only [h] at this; simpa using this.symm

theorem Children.remove_ofFun (f : Nibble → Option (Child D)) (n : Nibble) :
    (Children.ofFun f).remove n = .ofFun (upd f n none) := by
  have := filterMap_length_upd (List.finRange 16) (List.nodup_finRange 16) f n none
  simp only [List.mem_finRange, true_and, Option.isSome_none, Bool.false_eq_true, if_false] at this
  unfold Children.remove Children.ofFun
  show Children.mk _ (if (f n).isSome = true then _ else _) = _
  congr 1
  rcases h : f n with _ | x
  · simp only [h] at this; simpa using this.symm
  · simp only [h] at this
    simp at this ⊢
    omega

theorem Children.new_eq : (Children.new : Children D) = .ofFun (fun _ => none) := by
  have : (List.finRange 16).filterMap (fun _ => (none : Option (Child D))) = [] := by
    rw [List.filterMap_eq_nil_iff]; simp
  simp [Children.new, Children.ofFun, this]

namespace VTree

def version : VTree D → Version
  | .empty => 0
  | .leaf v _ _ => v
  | .node v _ _ => v

@[simp] theorem version_empty : (VTree.empty : VTree D).version = 0 := rfl
@[simp] theorem version_leaf (v : Version) (k : Key) (h : D) : (VTree.leaf v k h).version = v := rfl
@[simp] theorem version_node (v : Version) (m : Bool) (ch : Nibble → VTree D) : (VTree.node v m ch).version = v := rfl

def isEmpty : VTree D → Bool
  | .empty => true
  | _ => false

def isLeaf : VTree D → Bool
  | .leaf _ _ _ => true
  | _ => false

def setVersion (w : Version) : VTree D → VTree D
  | .empty => .empty
  | .leaf _ k h => .leaf w k h
  | .node _ m ch => .node w m ch

/-- The child record kept in the parent. -/
def child (H : Hasher D) : VTree D → Option (Child D)
  | .empty => none
  | .leaf v k h => some ⟨H.leaf k h, v, .leaf⟩
  | .node v m ch =>
    let n := InternalNode.ofFun m (fun i => (ch i).child H)
    some ⟨n.hash H, v, n.nodeType⟩

/-- The stored node. -/
def toNode (H : Hasher D) : VTree D → Node D
  | .empty => .null
  | .leaf _ k h => .leaf ⟨k, h⟩
  | .node _ m ch => .internal (InternalNode.ofFun m (fun i => (ch i).child H))

def hash (H : Hasher D) (t : VTree D) : D := (t.toNode H).hash H

/-- The node stored under version `v` at relative path `q`. -/
def at? (H : Hasher D) : VTree D → Version → List Nibble → Option (Node D)
  | .empty, _, _ => none
  | .leaf v' k h, v, q => if v = v' ∧ q = [] then some (.leaf ⟨k, h⟩) else none
  | .node v' m ch, v, [] => if v = v' then some (toNode H (.node v' m ch)) else none
  | .node _ _ ch, v, i :: q => (ch i).at? H v q

/-- All entries in order. -/
def entries : VTree D → List (Key × D)
  | .empty => []
  | .leaf _ k h => [(k, h)]
  | .node _ _ ch => (List.finRange 16).flatMap (fun i => (ch i).entries)

/-- Well-formed tree at absolute path `p`. -/
def WF : List Nibble → VTree D → Prop
  | _, .empty => True
  | p, .leaf _ k _ => p <+: k.nibbles
  | p, .node v m ch => (∀ i, WF (p ++ [i]) (ch i)) ∧ 2 ≤ (entries (.node v m ch)).length

/-- All versions are at most `w`. -/
def VerLe (w : Version) : VTree D → Prop
  | .empty => True
  | .leaf v _ _ => v ≤ w
  | .node v _ ch => v ≤ w ∧ ∀ i, VerLe w (ch i)

theorem entries_eq_nil {p : List Nibble} {t : VTree D} (h : WF p t) : t.entries = [] ↔ t = .empty := by
  cases t with
  | empty => simp [entries]
  | leaf => simp [entries]
  | node v m ch =>
    have := h.2
    constructor
    · intro h0; rw [h0] at this; simp at this
    · intro h0; cases h0

theorem entries_length_one {p : List Nibble} {t : VTree D} (h : WF p t) :
    t.entries.length = 1 ↔ t.isLeaf = true := by
  cases t with
  | empty => simp [entries, isLeaf]
  | leaf => simp [entries, isLeaf]
  | node v m ch =>
    have := h.2
    simp only [isLeaf, Bool.false_eq_true, iff_false]
    omega

theorem mem_entries_prefix {p : List Nibble} {t : VTree D} (h : WF p t) {k : Key} {x : D}
    (hm : (k, x) ∈ t.entries) : p <+: k.nibbles := by
  induction t generalizing p with
  | empty => simp [entries] at hm
  | leaf v k' h' =>
    simp only [entries, List.mem_singleton, Prod.mk.injEq] at hm
    obtain ⟨rfl, rfl⟩ := hm
    exact h
  | node v m ch ih =>
    simp only [entries, List.mem_flatMap, List.mem_finRange, true_and] at hm
    obtain ⟨i, hi⟩ := hm
    exact (List.prefix_append p [i]).trans (ih i (h.1 i) hi)

theorem wf_length {p : List Nibble} {t : VTree D} (h : WF p t) (hn : t ≠ .empty) : p.length ≤ 64 := by
  have : t.entries ≠ [] := fun h0 => hn ((entries_eq_nil h).1 h0)
  obtain ⟨⟨k, x⟩, hm⟩ := List.exists_mem_of_ne_nil _ this
  have := (mem_entries_prefix h hm).length_le
  simpa using this

theorem exists_child_of_node {p : List Nibble} {v : Version} {m : Bool} {ch : Nibble → VTree D}
    (h : WF p (.node v m ch)) : ∃ i, ch i ≠ .empty := by
  by_contra hc
  have hc : ∀ i, ch i = .empty := by
    intro i; by_contra hi; exact hc ⟨i, hi⟩
  have := h.2
  simp only [entries] at this
  have e : ((List.finRange 16).flatMap (fun i => (ch i).entries)) = [] := by
    rw [List.flatMap_eq_nil_iff]
    intro i _; rw [hc i]; rfl
  rw [e] at this
  simp at this

theorem wf_node_length {p : List Nibble} {v : Version} {m : Bool} {ch : Nibble → VTree D}
    (h : WF p (.node v m ch)) : p.length < 64 := by
  obtain ⟨i, hi⟩ := exists_child_of_node h
  have := wf_length (h.1 i) hi
  simp at this; omega

theorem prefix_snoc_lt {p : List Nibble} {i j : Nibble} {a b : Key} (ha : p ++ [i] <+: a.nibbles)
    (hb : p ++ [j] <+: b.nibbles) (hij : i < j) : a < b := by
  rw [Key.lt_iff_nibbles]
  obtain ⟨x, hx⟩ := ha
  obtain ⟨y, hy⟩ := hb
  rw [← hx, ← hy]
  simp only [List.append_assoc, List.singleton_append]
  clear hx hy
  induction p with
  | nil => exact List.Lex.rel hij
  | cons c p ih => exact List.Lex.cons ih

/-- Entries are strictly sorted by key. -/
theorem entries_sorted {p : List Nibble} {t : VTree D} (h : WF p t) :
    t.entries.Pairwise (fun a b => a.1 < b.1) := by
  induction t generalizing p with
  | empty => simp [entries]
  | leaf => simp [entries]
  | node v m ch ih =>
    simp only [entries]
    rw [List.pairwise_flatMap]
    refine ⟨fun i _ => ih i (h.1 i), ?_⟩
    refine (List.pairwise_lt_finRange 16).imp ?_
    intro i j hij a ha b hb
    exact prefix_snoc_lt (mem_entries_prefix (h.1 i) ha) (mem_entries_prefix (h.1 j) hb) hij

theorem _root_.Verif.Jmt.Key.lt_irrefl (a : Key) : ¬ a < a := List.lt_irrefl a.bytes

/-- Keys of one tree are pairwise different. -/
theorem entries_nodup {p : List Nibble} {t : VTree D} (h : WF p t) : (t.entries.map Prod.fst).Nodup := by
  rw [List.Nodup, List.pairwise_map]
  refine (entries_sorted h).imp ?_
  intro a b hlt he
  rw [he] at hlt
  exact Key.lt_irrefl _ hlt

end VTree
end Verif.Jmt
