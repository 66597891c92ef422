import Verif.Proofs.VTree
/-! The hash of a well-formed tree is the sparse Merkle root of its entries. -/

namespace Verif.Jmt
open Verif.Spec
variable {D : Type}

theorem flatMap_nibBits_length (p : List Nibble) : (p.flatMap nibBits).length = 4 * p.length := by
  induction p with
  | nil => rfl
  | cons a t ih => simp [ih]; omega

theorem Key.bits_getElem? (k : Key) (j : Nat) (h : j < 256) : k.bits[j]? = some (k.bit j) := by
  simp [Key.bits, h]

theorem Key.bit_of_prefix {k : Key} {p : List Nibble} {i : Nibble} (h : p ++ [i] <+: k.nibbles) (j : Nat) (hj : j < 4) :
    k.bit (4 * p.length + j) = i.val.testBit (3 - j) := by
  have hlen := h.length_le
  simp at hlen
  have h1 := Key.bits_getElem? k (4 * p.length + j) (by omega)
  obtain ⟨x, hx⟩ := h
  rw [Key.bits_eq, ← hx] at h1
  simp only [List.flatMap_append, List.flatMap_cons, List.flatMap_nil, List.append_nil, List.append_assoc] at h1
  rw [List.getElem?_append_right (by rw [flatMap_nibBits_length]; omega), flatMap_nibBits_length] at h1
  have : 4 * p.length + j - 4 * p.length = j := by omega
  rw [this, List.getElem?_append_left (by simpa using hj)] at h1
  have h2 : (nibBits i)[j]? = some (i.val.testBit (3 - j)) := by
    match j, hj with
    | 0, _ => rfl
    | 1, _ => rfl
    | 2, _ => rfl
    | 3, _ => rfl
  rw [h2] at h1
  exact (Option.some.inj h1).symm

/-! spec lemmas -/

@[simp] theorem smt_nil (H : Hasher D) (n : Nat) : smt H n [] = H.placeholder := by cases n <;> rfl
@[simp] theorem smt_single (H : Hasher D) (n : Nat) (k : Key) (x : D) : smt H n [(k, x)] = H.leaf k x := by cases n <;> rfl
theorem smt_two (H : Hasher D) (n : Nat) (l : List (Key × D)) (h : 2 ≤ l.length) :
    smt H (n + 1) l = H.node (smt H n (l.filter (fun e => !e.1.bit (256 - (n + 1)))))
      (smt H n (l.filter (fun e => e.1.bit (256 - (n + 1))))) := by
  match l, h with
  | a :: b :: t, _ => rfl

/-! children and entries over a list of indices -/

def csOf (H : Hasher D) (ch : Nibble → VTree D) (L : List Nibble) : List (Nibble × Child D) :=
  L.filterMap (fun i => ((ch i).child H).map (fun c => (i, c)))
def esOf (ch : Nibble → VTree D) (L : List Nibble) : List (Key × D) := L.flatMap (fun i => (ch i).entries)

theorem filter_csOf (H : Hasher D) (ch : Nibble → VTree D) (L : List Nibble) (P : Nibble → Bool) :
    (csOf H ch L).filter (fun ic => P ic.1) = csOf H ch (L.filter P) := by
  induction L with
  | nil => rfl
  | cons a t ih =>
    simp only [csOf] at ih ⊢
    rw [List.filterMap_cons, List.filter_cons]
    rcases h : (ch a).child H with _ | c
    · cases hp : P a
      · simpa using ih
      · simpa [h] using ih
    · cases hp : P a
      · simpa [hp] using ih
      · simpa [h, hp] using ih

theorem childrenIn_ofFun (H : Hasher D) (m : Bool) (ch : Nibble → VTree D) (start w : Nat) :
    (InternalNode.ofFun m (fun i => (ch i).child H)).childrenIn start w =
      csOf H ch ((List.finRange 16).filter (fun i => decide (start ≤ i.val ∧ i.val < start + w))) :=
  filter_csOf H ch (List.finRange 16) (fun i => decide (start ≤ i.val ∧ i.val < start + w))

theorem child_eq_none {H : Hasher D} {t : VTree D} : t.child H = none ↔ t = .empty := by
  cases t <;> simp [VTree.child]

theorem child_isLeaf {H : Hasher D} {t : VTree D} {c : Child D} (h : t.child H = some c) : c.isLeaf = t.isLeaf := by
  cases t with
  | empty => simp [VTree.child] at h
  | leaf => simp [VTree.child] at h; subst h; rfl
  | node v m ch =>
    simp only [VTree.child, Option.some.injEq] at h; subst h
    simp only [Child.isLeaf, VTree.isLeaf, InternalNode.nodeType]
    split
    · rename_i h; split at h <;> cases h
    · rfl

theorem csOf_nil {H : Hasher D} {ch : Nibble → VTree D} {L : List Nibble} (h : csOf H ch L = []) : esOf ch L = [] := by
  rw [csOf, List.filterMap_eq_nil_iff] at h
  rw [esOf, List.flatMap_eq_nil_iff]
  intro i hi
  have := h i hi
  rw [Option.map_eq_none_iff, child_eq_none] at this
  rw [this]; rfl

theorem csOf_single {H : Hasher D} {ch : Nibble → VTree D} {L : List Nibble} {i : Nibble} {c : Child D}
    (h : csOf H ch L = [(i, c)]) : (ch i).child H = some c ∧ esOf ch L = (ch i).entries := by
  induction L with
  | nil => simp [csOf] at h
  | cons a t ih =>
    rcases ha : (ch a).child H with _ | c'
    · have e : csOf H ch (a :: t) = csOf H ch t := by simp [csOf, ha]
      rw [e] at h
      obtain ⟨h1, h2⟩ := ih h
      refine ⟨h1, ?_⟩
      rw [child_eq_none] at ha
      rw [← h2]
      simp [esOf, ha, VTree.entries]
    · have e : csOf H ch (a :: t) = (a, c') :: csOf H ch t := by simp [csOf, ha]
      rw [e] at h
      simp only [List.cons.injEq, Prod.mk.injEq] at h
      obtain ⟨⟨rfl, rfl⟩, h2⟩ := h
      refine ⟨ha, ?_⟩
      have := csOf_nil h2
      simp only [esOf] at this ⊢
      simp [this]

theorem esOf_length_ge {H : Hasher D} {p : List Nibble} {ch : Nibble → VTree D} (hw : ∀ i, VTree.WF (p ++ [i]) (ch i)) (L : List Nibble) :
    (csOf H ch L).length ≤ (esOf ch L).length := by
  induction L with
  | nil => simp [csOf]
  | cons a t ih =>
    rcases ha : (ch a).child H with _ | c'
    · have e : csOf H ch (a :: t) = csOf H ch t := by simp [csOf, ha]
      rw [e]
      simp only [esOf, List.flatMap_cons, List.length_append] at ih ⊢
      omega
    · have e : csOf H ch (a :: t) = (a, c') :: csOf H ch t := by simp [csOf, ha]
      rw [e]
      have : (ch a).entries ≠ [] := by
        rw [Ne, VTree.entries_eq_nil (hw a)]
        intro h0; rw [h0] at ha; simp [VTree.child] at ha
      have := List.length_pos_iff.2 this
      simp only [esOf, List.flatMap_cons, List.length_append, List.length_cons] at ih ⊢
      omega

theorem filter_flatMap {α β : Type} (L : List α) (f : α → List β) (P : β → Bool) (Q : α → Bool)
    (h : ∀ a ∈ L, ∀ b ∈ f a, P b = Q a) : (L.flatMap f).filter P = (L.filter Q).flatMap f := by
  induction L with
  | nil => rfl
  | cons a t ih =>
    rw [List.flatMap_cons, List.filter_append, ih (fun a ha => h a (List.mem_cons_of_mem _ ha)), List.filter_cons]
    have ha := h a List.mem_cons_self
    cases hq : Q a with
    | true =>
      have : (f a).filter P = f a := List.filter_eq_self.2 (fun b hb => by rw [ha b hb, hq])
      simp [this]
    | false =>
      have : (f a).filter P = [] := List.filter_eq_nil_iff.2 (fun b hb => by rw [ha b hb, hq]; simp)
      simp [this]

theorem half_testBit : ∀ h : Fin 4, ∀ start i : Fin 16, start.val % 2 ^ (h.val + 1) = 0 → start.val ≤ i.val →
    i.val < start.val + 2 ^ (h.val + 1) → i.val.testBit h.val = decide (start.val + 2 ^ h.val ≤ i.val) := by
  decide +kernel

theorem rangeL_filter (start w start' w' : Nat) (Q : Nibble → Bool)
    (hQ : ∀ i : Nibble, start ≤ i.val → i.val < start + w → Q i = decide (start' ≤ i.val ∧ i.val < start' + w'))
    (h1 : start ≤ start') (h2 : start' + w' ≤ start + w) :
    ((List.finRange 16).filter (fun i => decide (start ≤ i.val ∧ i.val < start + w))).filter Q =
      (List.finRange 16).filter (fun i => decide (start' ≤ i.val ∧ i.val < start' + w')) := by
  rw [List.filter_filter]
  apply List.filter_congr
  intro i _
  by_cases h : start ≤ i.val ∧ i.val < start + w
  · simp [h, hQ i h.1 h.2]
  · have : ¬ (start' ≤ i.val ∧ i.val < start' + w') := by omega
    simp [h, this]

theorem sub_eq_smt (H : Hasher D) (m : Bool) (ch : Nibble → VTree D) (p : List Nibble) (hp : p.length < 64)
    (hw : ∀ i, VTree.WF (p ++ [i]) (ch i))
    (hch : ∀ i c, (ch i).child H = some c → c.hash = smt H (256 - 4 * (p.length + 1)) (ch i).entries)
    (h start : Nat) (hh : h ≤ 4) (hs : start < 16) (hal : start % 2 ^ h = 0) (hend : start + 2 ^ h ≤ 16) :
    InternalNode.sub H (.ofFun m (fun i => (ch i).child H)) h start =
      smt H (256 - 4 * (p.length + 1) + h)
        (esOf ch ((List.finRange 16).filter (fun i => decide (start ≤ i.val ∧ i.val < start + 2 ^ h)))) := by
  induction h generalizing start with
  | zero =>
    unfold InternalNode.sub
    rw [childrenIn_ofFun]
    have hL : (List.finRange 16).filter (fun i : Nibble => decide (start ≤ i.val ∧ i.val < start + 2 ^ 0)) = [⟨start, hs⟩] := by
      have : ∀ s : Fin 16, (List.finRange 16).filter (fun i : Nibble => decide (s.val ≤ i.val ∧ i.val < s.val + 2 ^ 0)) = [s] := by
        decide
      exact this ⟨start, hs⟩
    rw [hL]
    rcases hc : (ch ⟨start, hs⟩).child H with _ | c
    · have e := child_eq_none.1 hc
      simp [csOf, esOf, e, VTree.entries, VTree.child]
    · simp [csOf, esOf, hc, hch _ _ hc]
  | succ h ih =>
    unfold InternalNode.sub
    have hw2 : 2 ^ (h + 1) = 2 ^ h + 2 ^ h := by rw [Nat.pow_succ]; omega
    have hpos : 0 < 2 ^ h := Nat.two_pow_pos h
    have hal' : start % 2 ^ h = 0 := by
      have : 2 ^ h ∣ 2 ^ (h + 1) := ⟨2, by rw [Nat.pow_succ]⟩
      exact Nat.mod_eq_zero_of_dvd (Nat.dvd_trans this (Nat.dvd_of_mod_eq_zero hal))
    have hal2 : (start + 2 ^ h) % 2 ^ h = 0 := by rw [Nat.add_mod_right]; exact hal'
    have i1 := ih start (by omega) hs hal' (by rw [hw2] at hend; generalize 2 ^ h = x at *; omega)
    have i2 := ih (start + 2 ^ h) (by omega) (by rw [hw2] at hend; generalize 2 ^ h = x at *; omega) hal2
      (by rw [hw2] at hend; generalize 2 ^ h = x at *; omega)
    simp only [childrenIn_ofFun, InternalNode.stopAt]
    rw [i1, i2]
    generalize hL : (List.finRange 16).filter (fun i : Nibble => decide (start ≤ i.val ∧ i.val < start + 2 ^ (h + 1))) = L
    have hbit : ∀ i ∈ L, ∀ e ∈ (ch i).entries,
        e.1.bit (256 - (256 - 4 * (p.length + 1) + (h + 1))) = decide (start + 2 ^ h ≤ i.val) := by
      intro i hi e he
      rw [← hL, List.mem_filter] at hi
      have hi2 : start ≤ i.val ∧ i.val < start + 2 ^ (h + 1) := by simpa using hi.2
      have hidx : 256 - (256 - 4 * (p.length + 1) + (h + 1)) = 4 * p.length + (3 - h) := by omega
      rw [hidx, Key.bit_of_prefix (VTree.mem_entries_prefix (hw i) he) (3 - h) (by omega)]
      have : 3 - (3 - h) = h := by omega
      rw [this]
      exact half_testBit ⟨h, by omega⟩ ⟨start, hs⟩ i hal hi2.1 hi2.2
    have big : 2 ≤ (esOf ch L).length →
        smt H (256 - 4 * (p.length + 1) + (h + 1)) (esOf ch L) =
        H.node (smt H (256 - 4 * (p.length + 1) + h) (esOf ch ((List.finRange 16).filter (fun i => decide (start ≤ i.val ∧ i.val < start + 2 ^ h)))))
          (smt H (256 - 4 * (p.length + 1) + h) (esOf ch ((List.finRange 16).filter (fun i => decide (start + 2 ^ h ≤ i.val ∧ i.val < start + 2 ^ h + 2 ^ h))))) := by
      intro hlen
      have := smt_two H (256 - 4 * (p.length + 1) + h) (esOf ch L) hlen
      rw [← Nat.add_assoc]
      rw [this]
      simp only [Nat.add_assoc] at this ⊢
      unfold esOf
      rw [filter_flatMap L _ _ (fun i => !decide (start + 2 ^ h ≤ i.val)) (fun i hi e he => by rw [hbit i hi e he]),
        filter_flatMap L _ _ (fun i => decide (start + 2 ^ h ≤ i.val)) hbit, ← hL]
      have q1 : ∀ i : Nibble, start ≤ i.val → i.val < start + 2 ^ (h + 1) →
          (!decide (start + 2 ^ h ≤ i.val)) = decide (start ≤ i.val ∧ i.val < start + 2 ^ h) := by
        intro i h1 h2
        by_cases hlt : start + 2 ^ h ≤ i.val
        · simp [hlt]
        · simp [h1, hlt]; omega
      have q2 : ∀ i : Nibble, start ≤ i.val → i.val < start + 2 ^ (h + 1) →
          decide (start + 2 ^ h ≤ i.val) = decide (start + 2 ^ h ≤ i.val ∧ i.val < start + 2 ^ h + 2 ^ h) := by
        intro i h1 h2
        have : i.val < start + 2 ^ h + 2 ^ h := by rw [hw2] at h2; omega
        simp [this]
      rw [rangeL_filter start (2 ^ (h + 1)) start (2 ^ h) _ q1 (Nat.le_refl _) (by rw [hw2]; generalize 2 ^ h = x; omega),
        rangeL_filter start (2 ^ (h + 1)) (start + 2 ^ h) (2 ^ h) _ q2 (by generalize 2 ^ h = x; omega)
          (by rw [hw2]; generalize 2 ^ h = x; omega)]
      simp only [Nat.add_assoc]
    match hcs : csOf H ch L with
    | [] => rw [csOf_nil hcs, smt_nil]
    | [(i, c)] =>
      obtain ⟨h1, h2⟩ := csOf_single hcs
      simp only [child_isLeaf h1]
      cases hlf : (ch i).isLeaf with
      | true =>
        rw [h2]
        cases hti : ch i with
        | empty => rw [hti] at hlf; simp [VTree.isLeaf] at hlf
        | node => rw [hti] at hlf; simp [VTree.isLeaf] at hlf
        | leaf v k x =>
          rw [hti] at h1
          simp only [VTree.child, Option.some.injEq] at h1
          subst h1
          simp [VTree.entries]
      | false =>
        simp only [Bool.or_false, beq_iff_eq, Nat.add_eq_zero_iff, Nat.one_ne_zero, and_false, if_false]
        rw [big]
        rw [h2]
        cases hti : ch i with
        | empty => rw [hti] at h1; simp [VTree.child] at h1
        | leaf => rw [hti] at hlf; simp [VTree.isLeaf] at hlf
        | node v m' ch' => have := hw i; rw [hti] at this; exact this.2
    | (i, c) :: (j, c') :: t =>
      simp only [beq_iff_eq, Nat.add_eq_zero_iff, Nat.one_ne_zero, and_false, if_false]
      rw [big]
      have := esOf_length_ge (H := H) hw L
      rw [hcs] at this
      simp at this
      omega

namespace VTree

theorem rangeL_all : (List.finRange 16).filter (fun i : Nibble => decide (0 ≤ i.val ∧ i.val < 0 + 2 ^ 4)) = List.finRange 16 := by
  decide

theorem child_hash {H : Hasher D} {t : VTree D} {c : Child D} (h : t.child H = some c) : c.hash = t.hash H := by
  cases t with
  | empty => simp [child] at h
  | leaf => simp only [child, Option.some.injEq] at h; subst h; rfl
  | node => simp only [child, Option.some.injEq] at h; subst h; rfl

theorem hash_eq_smt (H : Hasher D) {p : List Nibble} {t : VTree D} (h : WF p t) :
    t.hash H = smt H (256 - 4 * p.length) t.entries := by
  induction t generalizing p with
  | empty => simp [hash, toNode, Node.hash, entries]
  | leaf => simp [hash, toNode, Node.hash, entries, LeafNode.hash]
  | node v m ch ih =>
    simp only [hash, toNode, Node.hash, InternalNode.hash_eq_sub]
    have hp := wf_node_length h
    rw [sub_eq_smt H m ch p hp h.1 ?_ 4 0 (by omega) (by omega) (by omega) (by omega), rangeL_all]
    · have : 256 - 4 * (p.length + 1) + 4 = 256 - 4 * p.length := by omega
      rw [this]
      rfl
    · intro i c hc
      rw [child_hash hc, ih i (h.1 i)]
      simp

end VTree
end Verif.Jmt
