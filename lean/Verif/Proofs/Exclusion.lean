import Verif.Jmt.Exclusion
import Verif.Spec.Exclusion
import Verif.Proofs.Sub
import Verif.Proofs.LeafVersion
import Verif.Proofs.Reach
/-! The neighbour search of exclusion proofs. -/

set_option autoImplicit false

namespace Verif.Jmt
variable {D : Type}
open VTree Verif.Spec

/-- The internal node of a family of children. -/
abbrev nodeFun (H : Hasher D) (m : Bool) (ch : Nibble → VTree D) : InternalNode D := InternalNode.ofFun m (fun i => (ch i).child H)

/-- What `get_child_without_siblings` finds for the nibble `n`: nothing, the child at `n`, or a leaf at another nibble with no further
child between. -/
def Chosen (ch : Nibble → VTree D) (p : List Nibble) (n : Nibble) : Option NodeKey → Prop
  | none => ch n = .empty
  | some nk => ∃ i, ch i ≠ .empty ∧ nk = ⟨(ch i).version, p ++ [i]⟩ ∧
      (i = n ∨ ((ch i).isLeaf = true ∧ i ≠ n ∧ ch n = .empty ∧ ∀ j, ch j ≠ .empty → j ≠ i → (j < n ↔ j < i)))

theorem chosen_loop (H : Hasher D) (m : Bool) (ch : Nibble → VTree D) (v : Version) (p : List Nibble) (hp : p.length < 64) (n : Nibble)
    (h : Nat) (hh : h ≤ 4) (h0 : h ≠ 0) :
    ∃ r, (nodeFun H m ch).getChildWithoutSiblingsLoop ⟨v, p⟩ n (nodeFun H m ch).generateBitmaps h = .ok r ∧ Chosen ch p n r := by
  induction h with
  | zero => exact absurd rfl h0
  | succ h ih =>
    obtain ⟨t1, -⟩ := half_starts ⟨h, by omega⟩ n
    simp only at t1
    have hcs1 : InternalNode.childHalfStart n h = n.val / 2 ^ h * 2 ^ h := t1
    generalize hs : n.val / 2 ^ h * 2 ^ h = s at hcs1
    have hin : s ≤ n.val ∧ n.val < s + 2 ^ h := by
      rw [← hs]
      have := Nat.two_pow_pos h
      have h1 := Nat.div_add_mod n.val (2 ^ h)
      have h2 := Nat.mod_lt n.val this
      rw [Nat.mul_comm] at h1
      omega
    have hbm := InternalNode.bmOk_generate (nodeFun H m ch) s (2 ^ h)
    unfold InternalNode.getChildWithoutSiblingsLoop
    rw [Nat.one_shiftLeft, hcs1]
    simp only [InternalNode.range_eq_zero_iff _ _ _ _ hbm, InternalNode.stop_iff _ _ _ _ hbm]
    have hchild : ∀ i, (nodeFun H m ch).child i = (ch i).child H := fun i => rfl
    have hnone : (∀ c, (n, c) ∉ (nodeFun H m ch).childrenIn s (2 ^ h)) → ch n = .empty := by
      intro hc
      by_contra hne
      obtain ⟨c, hcc⟩ := Option.isSome_iff_exists.1 (child_isSome (H := H).2 hne)
      exact hc c (InternalNode.childrenIn_mem.2 ⟨hcc, hin⟩)
    by_cases hz : (nodeFun H m ch).childrenIn s (2 ^ h) = []
    · rw [if_pos hz]
      exact ⟨none, rfl, hnone (by rw [hz]; simp)⟩
    · rw [if_neg hz]
      by_cases hstop : (nodeFun H m ch).stopAt s h = true
      · rw [if_pos hstop]
        match hcs : (nodeFun H m ch).childrenIn s (2 ^ h) with
        | [] => exact absurd hcs hz
        | (i, c) :: rest =>
          have hi := InternalNode.onlyChildIndex_eq _ _ _ _ hbm hcs
          have hmem : (nodeFun H m ch).child i = some c ∧ s ≤ i.val ∧ i.val < s + 2 ^ h :=
            InternalNode.childrenIn_mem.1 (by rw [hcs]; exact List.mem_cons_self)
          rw [hi]
          simp only [hmem.1]
          have hnE : ch i ≠ .empty := by
            intro he; have := hmem.1; rw [hchild, he] at this; simp [child] at this
          have hcv : c.version = (ch i).version := by
            have := hmem.1; rw [hchild] at this
            exact (child_version' this)
          have hgen : NodeKey.genChild ⟨v, p⟩ c.version i = .ok ⟨(ch i).version, p ++ [i]⟩ := by
            simp [NodeKey.genChild, rootNibbleHeight, hp, hcv]
          rw [hgen]
          refine ⟨some _, rfl, i, hnE, rfl, ?_⟩
          by_cases hin' : i = n
          · exact .inl hin'
          · right
            have hne0 : h ≠ 0 := by
              rintro rfl
              apply hin'
              apply Fin.ext
              simp at hmem hin; omega
            have hlr : rest = [] ∧ c.isLeaf = true := by
              unfold InternalNode.stopAt at hstop
              rw [hcs] at hstop
              cases rest with
              | nil => simpa [hne0] using hstop
              | cons => simp [hne0] at hstop
            refine ⟨by rw [← child_isLeaf (H := H) (c := c) (by rw [← hchild]; exact hmem.1)]; exact hlr.2, hin', ?_, ?_⟩
            · apply hnone
              rw [hcs, hlr.1]
              simp [Ne.symm hin']
            · intro j hj hji
              obtain ⟨cj, hcj⟩ := Option.isSome_iff_exists.1 (child_isSome (H := H).2 hj)
              have hout : ¬ (s ≤ j.val ∧ j.val < s + 2 ^ h) := by
                intro hr
                have : (j, cj) ∈ (nodeFun H m ch).childrenIn s (2 ^ h) := InternalNode.childrenIn_mem.2 ⟨hcj, hr⟩
                rw [hcs, hlr.1] at this
                simp at this
                exact hji this.1
              rw [Fin.lt_def, Fin.lt_def]
              omega
      · rw [if_neg hstop]
        have hh0 : h ≠ 0 := by
          rintro rfl
          apply hstop
          unfold InternalNode.stopAt
          split <;> simp
        exact ih (by omega) hh0
where
  child_version' {H : Hasher D} {t : VTree D} {c : Child D} (h : t.child H = some c) : c.version = t.version := by
    cases t with
    | empty => simp [child] at h
    | leaf => simp only [child, Option.some.injEq] at h; subst h; rfl
    | node => simp only [child, Option.some.injEq] at h; subst h; rfl

theorem chosen_spec (H : Hasher D) (m : Bool) (ch : Nibble → VTree D) (v : Version) (p : List Nibble) (hp : p.length < 64) (n : Nibble) :
    ∃ r, (nodeFun H m ch).getChildWithoutSiblings ⟨v, p⟩ n = .ok r ∧ Chosen ch p n r :=
  chosen_loop H m ch v p hp n 4 (Nat.le_refl _) (by decide)

/-! ### directions -/

/-- `b` lies beyond `a` in the given direction. -/
def Tree.Extreme.lt {α : Type} [LT α] (e : Tree.Extreme) (a b : α) : Prop :=
  match e with
  | .right => a < b
  | .left => b < a

theorem Tree.Extreme.child_lt {e : Tree.Extreme} {p : List Nibble} {i j : Nibble} {a b : Key} (ha : p ++ [i] <+: a.nibbles)
    (hb : p ++ [j] <+: b.nibbles) (h : e.lt i j) : e.lt a b := by
  cases e with
  | right => exact prefix_snoc_lt ha hb h
  | left => exact prefix_snoc_lt hb ha h

theorem Tree.Extreme.key_asymm {e : Tree.Extreme} {a b : Key} (h : e.lt a b) : ¬ e.lt b a := by
  cases e with
  | right => exact List.lt_asymm h
  | left => exact List.lt_asymm h

theorem Tree.Extreme.nib_total (e : Tree.Extreme) (i j : Nibble) : i = j ∨ e.lt i j ∨ e.lt j i := by
  cases e <;> simp only [Tree.Extreme.lt, Fin.ext_iff, Fin.lt_def] <;> omega

theorem iterSorted_pairwise (cs : Children D) : cs.iterSorted.Pairwise (fun a b => a.1 < b.1) := by
  unfold Children.iterSorted
  refine List.Pairwise.filterMap _ ?_ (List.pairwise_lt_finRange 16)
  intro i j hij a ha b hb
  simp only [Option.map_eq_some_iff] at ha hb
  obtain ⟨c, _, rfl⟩ := ha
  obtain ⟨c', _, rfl⟩ := hb
  exact hij

theorem mem_children_iff (H : Hasher D) (m : Bool) (ch : Nibble → VTree D) (i : Nibble) :
    (∃ c, (i, c) ∈ (nodeFun H m ch).children.iterSorted) ↔ ch i ≠ .empty := by
  have : ∀ c, (i, c) ∈ (nodeFun H m ch).children.iterSorted ↔ (ch i).child H = some c := by
    intro c; rw [InternalNode.mem_iterSorted]; rfl
  simp only [this]
  rw [← child_isSome (H := H), Option.isSome_iff_exists]

theorem head?_least {L : List (Nibble × Child D)} (h : L.Pairwise (fun a b => a.1 < b.1)) {x : Nibble × Child D} (hx : L.head? = some x)
    {y : Nibble × Child D} (hy : y ∈ L) : y.1 = x.1 ∨ x.1 < y.1 := by
  cases L with
  | nil => cases hx
  | cons a L =>
    simp only [List.head?_cons, Option.some.injEq] at hx
    subst hx
    rw [List.mem_cons] at hy
    rcases hy with rfl | hy
    · exact .inl rfl
    · exact .inr ((List.pairwise_cons.1 h).1 y hy)

theorem getLast?_greatest {L : List (Nibble × Child D)} (h : L.Pairwise (fun a b => a.1 < b.1)) {x : Nibble × Child D}
    (hx : L.getLast? = some x) {y : Nibble × Child D} (hy : y ∈ L) : y.1 = x.1 ∨ y.1 < x.1 := by
  obtain ⟨L', rfl⟩ := List.getLast?_eq_some_iff.1 hx
  rw [List.mem_append, List.mem_singleton] at hy
  rcases hy with hy | rfl
  · exact .inr ((List.pairwise_append.1 h).2.2 y hy x (by simp))
  · exact .inl rfl

theorem neighbor_some {H : Hasher D} {m : Bool} {ch : Nibble → VTree D} {n j : Nibble} {e : Tree.Extreme}
    (h : Tree.neighborNibble (nodeFun H m ch) n e = some j) :
    ch j ≠ .empty ∧ e.lt n j ∧ ∀ j', ch j' ≠ .empty → e.lt n j' → j' = j ∨ e.lt j j' := by
  have hp := iterSorted_pairwise (nodeFun H m ch).children
  cases e with
  | left =>
    simp only [Tree.neighborNibble, Option.map_eq_some_iff] at h
    obtain ⟨x, hx, rfl⟩ := h
    have hm := List.mem_filter.1 (List.mem_of_getLast? hx)
    refine ⟨(mem_children_iff H m ch x.1).1 ⟨x.2, hm.1⟩, by simpa [Tree.Extreme.lt] using hm.2, ?_⟩
    intro j' hj' hlt
    obtain ⟨c, hc⟩ := (mem_children_iff H m ch j').2 hj'
    exact getLast?_greatest (hp.filter _) hx (y := (j', c)) (List.mem_filter.2 ⟨hc, by simpa [Tree.Extreme.lt] using hlt⟩)
  | right =>
    simp only [Tree.neighborNibble, Option.map_eq_some_iff] at h
    obtain ⟨x, hx, rfl⟩ := h
    have hm := List.mem_filter.1 (List.mem_of_mem_head? hx)
    refine ⟨(mem_children_iff H m ch x.1).1 ⟨x.2, hm.1⟩, by simpa [Tree.Extreme.lt] using hm.2, ?_⟩
    intro j' hj' hlt
    obtain ⟨c, hc⟩ := (mem_children_iff H m ch j').2 hj'
    exact head?_least (hp.filter _) hx (y := (j', c)) (List.mem_filter.2 ⟨hc, by simpa [Tree.Extreme.lt] using hlt⟩)

theorem neighbor_none {H : Hasher D} {m : Bool} {ch : Nibble → VTree D} {n : Nibble} {e : Tree.Extreme}
    (h : Tree.neighborNibble (nodeFun H m ch) n e = none) (j : Nibble) (hj : ch j ≠ .empty) : ¬ e.lt n j := by
  intro hlt
  obtain ⟨c, hc⟩ := (mem_children_iff H m ch j).2 hj
  cases e with
  | left =>
    simp only [Tree.neighborNibble, Option.map_eq_none_iff, List.getLast?_eq_none_iff] at h
    have : (j, c) ∈ (nodeFun H m ch).children.iterSorted.filter (fun p => decide (p.1 < n)) :=
      List.mem_filter.2 ⟨hc, by simpa [Tree.Extreme.lt] using hlt⟩
    rw [h] at this; cases this
  | right =>
    simp only [Tree.neighborNibble, Option.map_eq_none_iff, List.head?_eq_none_iff] at h
    have : (j, c) ∈ (nodeFun H m ch).children.iterSorted.filter (fun p => decide (n < p.1)) :=
      List.mem_filter.2 ⟨hc, by simpa [Tree.Extreme.lt] using hlt⟩
    rw [h] at this; cases this

theorem minOrMax_spec (H : Hasher D) (m : Bool) (ch : Nibble → VTree D) (e : Tree.Extreme) (hne : ∃ i, ch i ≠ .empty) :
    ∃ j, Tree.minOrMax (nodeFun H m ch) e.opposite = some j ∧ ch j ≠ .empty ∧ ∀ j', ch j' ≠ .empty → j' = j ∨ e.lt j j' := by
  have hp := iterSorted_pairwise (nodeFun H m ch).children
  obtain ⟨i, hi⟩ := hne
  obtain ⟨c, hc⟩ := (mem_children_iff H m ch i).2 hi
  cases e with
  | left =>
    cases hx : (nodeFun H m ch).children.iterSorted.getLast? with
    | none => rw [List.getLast?_eq_none_iff] at hx; rw [hx] at hc; cases hc
    | some x =>
      refine ⟨x.1, by simp [Tree.minOrMax, Tree.Extreme.opposite, hx], (mem_children_iff H m ch x.1).1 ⟨x.2, List.mem_of_getLast? hx⟩, ?_⟩
      intro j' hj'
      obtain ⟨c, hc⟩ := (mem_children_iff H m ch j').2 hj'
      exact getLast?_greatest hp hx (y := (j', c)) hc
  | right =>
    cases hx : (nodeFun H m ch).children.iterSorted.head? with
    | none => rw [List.head?_eq_none_iff] at hx; rw [hx] at hc; cases hc
    | some x =>
      refine ⟨x.1, by simp [Tree.minOrMax, Tree.Extreme.opposite, hx], (mem_children_iff H m ch x.1).1 ⟨x.2, List.mem_of_mem_head? hx⟩, ?_⟩
      intro j' hj'
      obtain ⟨c, hc⟩ := (mem_children_iff H m ch j').2 hj'
      exact head?_least hp hx (y := (j', c)) hc

/-- The first key of a tree in the given direction. -/
def FirstKey (e : Tree.Extreme) (t : VTree D) (a : Key) : Prop :=
  (∃ x, (a, x) ∈ t.entries) ∧ ∀ y ∈ t.entries, y.1 = a ∨ e.lt a y.1

theorem mem_entries_node {v : Version} {m : Bool} {ch : Nibble → VTree D} {x : Key × D} :
    x ∈ (VTree.node v m ch).entries ↔ ∃ i, x ∈ (ch i).entries := by
  simp [entries, List.mem_flatMap]

theorem extreme_loop {H : Hasher D} {r : Reader D} (e : Tree.Extreme) (t : VTree D) (p : List Nibble) (hw : WF p t) (hne : t ≠ .empty)
    (hr : HasTree H r p t) (fuel depth : Nat) (hf : 64 < fuel + p.length) :
    ∃ a, Tree.getExtremeKeyHashLoop r e.opposite fuel depth ⟨t.version, p⟩ = .ok a ∧ FirstKey e t a := by
  induction t generalizing p fuel depth with
  | empty => exact absurd rfl hne
  | leaf v k h =>
    have hpl := wf_length hw hne
    obtain ⟨fuel, rfl⟩ : ∃ f', fuel = f' + 1 := ⟨fuel - 1, by omega⟩
    unfold Tree.getExtremeKeyHashLoop
    rw [hr.root hne]
    refine ⟨k, rfl, ⟨h, by simp [entries]⟩, ?_⟩
    intro y hy
    simp only [entries, List.mem_singleton] at hy
    subst hy; exact .inl rfl
  | node v m ch ih =>
    have hpl := wf_node_length hw
    obtain ⟨fuel, rfl⟩ : ∃ f', fuel = f' + 1 := ⟨fuel - 1, by omega⟩
    unfold Tree.getExtremeKeyHashLoop
    rw [hr.root hne]
    obtain ⟨j, e1, e2, e3⟩ := minOrMax_spec H m ch e (exists_child_of_node hw)
    simp only [toNode, version_node]
    rw [e1]
    obtain ⟨res, c1, c2⟩ := chosen_spec H m ch v p hpl j
    simp only [c1]
    cases res with
    | none => exact absurd c2 e2
    | some nk =>
      obtain ⟨i, h1, rfl, h3⟩ := c2
      have hij : i = j := by
        rcases h3 with h3 | ⟨_, _, h3, _⟩
        · exact h3
        · exact absurd h3 e2
      subst hij
      obtain ⟨a, f1, ⟨x, f2⟩, f3⟩ := ih i (p ++ [i]) (hw.1 i) h1 (hr.child i) fuel (depth + 1) (by simp; omega)
      refine ⟨a, f1, ⟨x, mem_entries_node.2 ⟨i, f2⟩⟩, ?_⟩
      intro y hy
      obtain ⟨j', hj'⟩ := mem_entries_node.1 hy
      have hne' : ch j' ≠ .empty := by intro h0; rw [h0] at hj'; simp [entries] at hj'
      rcases e3 j' hne' with rfl | hlt
      · exact f3 y hj'
      · right
        exact Tree.Extreme.child_lt (mem_entries_prefix (hw.1 i) f2) (mem_entries_prefix (hw.1 j') (x := y.2) hj') hlt

/-! ### the search -/

/-- The tree has no entry beyond `k`. -/
def NoneBeyond (e : Tree.Extreme) (k : Key) (t : VTree D) : Prop := ∀ x ∈ t.entries, ¬ e.lt k x.1

/-- The entries of `t` beyond `k` start with those of its subtree at `q`. -/
structure Next (e : Tree.Extreme) (k : Key) (t : VTree D) (q : List Nibble) : Prop where
  ne : t.sub q ≠ .empty
  deep : q ≠ []
  beyond : ∀ x ∈ (t.sub q).entries, e.lt k x.1
  first : ∀ x ∈ t.entries, e.lt k x.1 → x ∈ (t.sub q).entries ∨ ∀ y ∈ (t.sub q).entries, e.lt y.1 x.1

/-- The path leaves that of `k` at its last nibble. -/
def Fork (k : Key) (path : List Nibble) : Prop := ∃ l i j, path = l ++ [i] ∧ l ++ [j] <+: k.nibbles ∧ i ≠ j

/-- The result of climbing from a place inside `t`, which is at path `p` with the parents `ps`. -/
def Climbed (e : Tree.Extreme) (k : Key) (t : VTree D) (p : List Nibble) (ps : List (InternalNode D)) (res : Res (Option (List Nibble))) :
    Prop :=
  (NoneBeyond e k t ∧ res = Tree.climb e p.reverse ps.reverse) ∨ ∃ q, Next e k t q ∧ Fork k (p ++ q) ∧ res = .ok (some (p ++ q))

/-- Climbing from the child of `k` when nothing there is beyond `k`. -/
theorem climbed_node {H : Hasher D} {e : Tree.Extreme} {k : Key} {v : Version} {m : Bool} {ch : Nibble → VTree D} {p : List Nibble}
    {n : Nibble} (hw : WF p (.node v m ch)) (hk : p ++ [n] <+: k.nibbles) (hn : NoneBeyond e k (ch n)) (ps : List (InternalNode D)) :
    Climbed e k (.node v m ch) p ps (Tree.climb e (p ++ [n]).reverse (ps ++ [nodeFun H m ch]).reverse) := by
  have hpl := wf_node_length hw
  simp only [List.reverse_append, List.reverse_cons, List.reverse_nil, List.nil_append, List.cons_append, Tree.climb]
  -- only children beyond `n` have entries beyond `k`
  have honly : ∀ i x, x ∈ (ch i).entries → e.lt k x.1 → e.lt n i := by
    intro i x hx hb
    rcases e.nib_total n i with rfl | h | h
    · exact absurd hb (hn x hx)
    · exact h
    · exact absurd hb (Tree.Extreme.key_asymm (Tree.Extreme.child_lt (mem_entries_prefix (hw.1 i) (x := x.2) hx) hk h))
  cases hnb : Tree.neighborNibble (nodeFun H m ch) n e with
  | none =>
    left
    refine ⟨?_, rfl⟩
    intro x hx hb
    obtain ⟨i, hi⟩ := mem_entries_node.1 hx
    have hne : ch i ≠ .empty := by intro h0; rw [h0] at hi; simp [entries] at hi
    exact neighbor_none hnb i hne (honly i x hi hb)
  | some j =>
    obtain ⟨h1, h2, h3⟩ := neighbor_some hnb
    right
    have hjn : j ≠ n := by
      rintro rfl
      cases e with
      | left => exact absurd h2 (by simp [Tree.Extreme.lt])
      | right => exact absurd h2 (by simp [Tree.Extreme.lt])
    refine ⟨[j], ⟨by simpa using h1, by simp, ?_, ?_⟩, ⟨p, j, n, rfl, hk, hjn⟩, ?_⟩
    · intro x hx
      simp only [sub_node_cons, sub_nil] at hx
      exact Tree.Extreme.child_lt hk (mem_entries_prefix (hw.1 j) (x := x.2) hx) h2
    · intro x hx hb
      obtain ⟨i, hi⟩ := mem_entries_node.1 hx
      have hne : ch i ≠ .empty := by intro h0; rw [h0] at hi; simp [entries] at hi
      simp only [sub_node_cons, sub_nil]
      rcases h3 i hne (honly i x hi hb) with rfl | hlt
      · exact .inl hi
      · right
        intro y hy
        exact Tree.Extreme.child_lt (mem_entries_prefix (hw.1 j) (x := y.2) hy) (mem_entries_prefix (hw.1 i) (x := x.2) hi) hlt
    · simp [rootNibbleHeight, hpl]

/-- A found leaf is the nearest entry on its side. -/
def Nearest (k : Key) (t : VTree D) (l : Key) : Prop :=
  (∃ x, (l, x) ∈ t.entries) ∧ ∀ e : Tree.Extreme, e.lt k l → ∀ y ∈ t.entries, e.lt k y.1 → y.1 = l ∨ e.lt l y.1

/-- What `search_for_closest_node` finds. -/
def Searched (k : Key) (t : VTree D) (p : List Nibble) (ps : List (InternalNode D)) : Tree.SearchResult D → Prop
  | .foundLeaf l path parents => Nearest k t l ∧ ∀ e : Tree.Extreme, ¬ e.lt k l →
      Climbed e k t p ps (Tree.climb e path.reverse parents.reverse)
  | .foundInternal path parents => ∀ e : Tree.Extreme, Climbed e k t p ps (Tree.climb e path.reverse parents.reverse)

theorem climbed_up {H : Hasher D} {e : Tree.Extreme} {k : Key} {v : Version} {m : Bool} {ch : Nibble → VTree D} {p : List Nibble}
    {n : Nibble} (hw : WF p (.node v m ch)) (hk : p ++ [n] <+: k.nibbles) {ps : List (InternalNode D)} {res : Res (Option (List Nibble))}
    (h : Climbed e k (ch n) (p ++ [n]) (ps ++ [nodeFun H m ch]) res) : Climbed e k (.node v m ch) p ps res := by
  rcases h with ⟨h1, rfl⟩ | ⟨q, h1, hfk, rfl⟩
  · exact climbed_node hw hk h1 ps
  · right
    refine ⟨n :: q, ⟨by simpa using h1.ne, by simp, by simpa using h1.beyond, ?_⟩, by simpa using hfk, by simp⟩
    intro x hx hb
    obtain ⟨i, hi⟩ := mem_entries_node.1 hx
    simp only [sub_node_cons]
    rcases e.nib_total n i with rfl | h | h
    · exact h1.first x hi hb
    · right
      intro y hy
      exact Tree.Extreme.child_lt (mem_entries_prefix (hw.1 n) (x := y.2) (mem_sub hy)) (mem_entries_prefix (hw.1 i) (x := x.2) hi) h
    · exact absurd hb (Tree.Extreme.key_asymm (Tree.Extreme.child_lt (mem_entries_prefix (hw.1 i) (x := x.2) hi) hk h))

theorem Tree.Extreme.lt_of_lt {e e' : Tree.Extreme} {a b : Key} (h : e.lt a b) (h' : e'.lt a b) : e = e' := by
  cases e <;> cases e' <;> first | rfl | exact absurd h (List.lt_asymm h')

theorem nearest_up {k : Key} {v : Version} {m : Bool} {ch : Nibble → VTree D} {p : List Nibble} {n : Nibble} {l : Key}
    (hw : WF p (.node v m ch)) (hk : p ++ [n] <+: k.nibbles) (h : Nearest k (ch n) l) : Nearest k (.node v m ch) l := by
  obtain ⟨⟨x, hx⟩, h2⟩ := h
  refine ⟨⟨x, mem_entries_node.2 ⟨n, hx⟩⟩, ?_⟩
  intro e he y hy hb
  obtain ⟨i, hi⟩ := mem_entries_node.1 hy
  rcases e.nib_total n i with rfl | h | h
  · exact h2 e he y hi hb
  · exact .inr (Tree.Extreme.child_lt (mem_entries_prefix (hw.1 n) hx) (mem_entries_prefix (hw.1 i) (x := y.2) hi) h)
  · exact absurd hb (Tree.Extreme.key_asymm (Tree.Extreme.child_lt (mem_entries_prefix (hw.1 i) (x := y.2) hi) hk h))

theorem search_loop {H : Hasher D} {r : Reader D} {k : Key} (t : VTree D) (p rest : List Nibble) (hw : WF p t) (hne : t ≠ .empty)
    (hr : HasTree H r p t) (hk : p ++ rest = k.nibbles) (fuel depth : Nat) (hf : 64 < fuel + p.length) (ps : List (InternalNode D)) :
    ∃ res, Tree.searchLoop r fuel depth ⟨t.version, p⟩ rest p ps = .ok res ∧ Searched k t p ps res := by
  induction t generalizing p rest fuel depth ps with
  | empty => exact absurd rfl hne
  | leaf v l h =>
    have hpl := wf_length hw hne
    obtain ⟨fuel, rfl⟩ : ∃ f', fuel = f' + 1 := ⟨fuel - 1, by omega⟩
    unfold Tree.searchLoop
    rw [hr.root hne]
    refine ⟨_, rfl, ⟨⟨h, by simp [entries]⟩, ?_⟩, ?_⟩
    · intro e he y hy hb
      simp only [entries, List.mem_singleton] at hy
      subst hy; exact .inl rfl
    · intro e he
      left
      refine ⟨?_, rfl⟩
      intro y hy
      simp only [entries, List.mem_singleton] at hy
      subst hy; exact he
  | node v m ch ih =>
    have hpl := wf_node_length hw
    obtain ⟨fuel, rfl⟩ : ∃ f', fuel = f' + 1 := ⟨fuel - 1, by omega⟩
    unfold Tree.searchLoop
    rw [hr.root hne]
    cases rest with
    | nil =>
      have := congrArg List.length hk
      simp at this; omega
    | cons n rest =>
      have hpre : p ++ [n] <+: k.nibbles := ⟨rest, by rw [← hk]; simp⟩
      obtain ⟨res, c1, c2⟩ := chosen_spec H m ch v p hpl n
      simp only [toNode, version_node, c1]
      cases res with
      | none =>
        refine ⟨_, rfl, ?_⟩
        intro e
        apply climbed_node hw hpre
        have : ch n = .empty := c2
        rw [this]; intro x hx; simp [entries] at hx
      | some nk =>
        obtain ⟨i, h1, rfl, h3⟩ := c2
        rcases h3 with rfl | ⟨hl, hin, hem, hbt⟩
        · obtain ⟨res, e1, e2⟩ := ih i (p ++ [i]) rest (hw.1 i) h1 (hr.child i) (by rw [← hk]; simp) fuel (depth + 1) (by simp; omega)
            (ps ++ [nodeFun H m ch])
          refine ⟨res, e1, ?_⟩
          cases res with
          | foundLeaf l path parents => exact ⟨nearest_up hw hpre e2.1, fun e he => climbed_up hw hpre (e2.2 e he)⟩
          | foundInternal path parents => exact fun e => climbed_up hw hpre (e2 e)
        · -- a leaf at another nibble
          have hri := (hr.child i).root h1
          cases hti : ch i with
          | empty => exact absurd hti h1
          | node => rw [hti] at hl; simp [VTree.isLeaf] at hl
          | leaf v' l x =>
            obtain ⟨fuel, rfl⟩ : ∃ f', fuel = f' + 1 := ⟨fuel - 1, by omega⟩
            rw [hti] at hri
            dsimp only
            unfold Tree.searchLoop
            rw [hri]
            have hnb : ∀ e : Tree.Extreme, NoneBeyond e k (ch n) := by
              intro e; rw [hem]; intro x hx; simp [entries] at hx
            have hlm : (l, x) ∈ (ch i).entries := by rw [hti]; simp [entries]
            refine ⟨_, rfl, ⟨⟨x, mem_entries_node.2 ⟨i, hlm⟩⟩, ?_⟩, fun e _ => climbed_node hw hpre (hnb e) ps⟩
            intro e he y hy hb
            obtain ⟨j, hj⟩ := mem_entries_node.1 hy
            by_cases hji : j = i
            · subst hji
              rw [hti] at hj
              simp only [entries, List.mem_singleton] at hj
              subst hj; exact .inl rfl
            · have hjne : ch j ≠ .empty := by intro h0; rw [h0] at hj; simp [entries] at hj
              have hjn : j ≠ n := by rintro rfl; exact hjne hem
              have hpj := mem_entries_prefix (hw.1 j) (x := y.2) hj
              have hpi := mem_entries_prefix (hw.1 i) hlm
              have hlt := hbt j hjne hji
              right
              -- `i` and `j` are on the same side of `n`, beyond it
              have hsi : e.lt n i := by
                rcases e.nib_total n i with h | h | h
                · exact absurd h.symm hin
                · exact h
                · exact absurd he (Tree.Extreme.key_asymm (Tree.Extreme.child_lt hpi hpre h))
              have hsj : e.lt n j := by
                rcases e.nib_total n j with h | h | h
                · exact absurd h.symm hjn
                · exact h
                · exact absurd hb (Tree.Extreme.key_asymm (Tree.Extreme.child_lt hpj hpre h))
              refine Tree.Extreme.child_lt hpi hpj ?_
              cases e with
              | right => simp only [Tree.Extreme.lt, Fin.lt_def, Fin.ext_iff] at *; omega
              | left => simp only [Tree.Extreme.lt, Fin.lt_def, Fin.ext_iff] at *; omega

/-! ### the bounds -/

/-- The nearest entry beyond `k`, if any. -/
def Bound (e : Tree.Extreme) (k : Key) (t : VTree D) : Option Key → Prop
  | none => NoneBeyond e k t
  | some a => (∃ x, (a, x) ∈ t.entries) ∧ e.lt k a ∧ ∀ y ∈ t.entries, e.lt k y.1 → y.1 = a ∨ e.lt a y.1

theorem firstKey_exists (e : Tree.Extreme) {p : List Nibble} {t : VTree D} (hw : WF p t) (hne : t ≠ .empty) : ∃ a, FirstKey e t a := by
  have hs := entries_sorted hw
  have hn : t.entries ≠ [] := fun h => hne ((entries_eq_nil hw).1 h)
  cases e with
  | right =>
    cases he : t.entries with
    | nil => exact absurd he hn
    | cons x l =>
      refine ⟨x.1, ⟨x.2, by rw [he]; simp⟩, ?_⟩
      intro y hy
      rw [he] at hs hy
      rw [List.mem_cons] at hy
      rcases hy with rfl | hy
      · exact .inl rfl
      · exact .inr ((List.pairwise_cons.1 hs).1 y hy)
  | left =>
    cases he : t.entries.getLast? with
    | none => exact absurd (List.getLast?_eq_none_iff.1 he) hn
    | some x =>
      obtain ⟨l, hl⟩ := List.getLast?_eq_some_iff.1 he
      refine ⟨x.1, ⟨x.2, by rw [hl]; simp⟩, ?_⟩
      intro y hy
      rw [hl] at hs hy
      rw [List.mem_append, List.mem_singleton] at hy
      rcases hy with hy | rfl
      · exact .inr ((List.pairwise_append.1 hs).2.2 y hy x (by simp))
      · exact .inl rfl

theorem Tree.Extreme.key_trans {e : Tree.Extreme} {a b c : Key} (h : e.lt a b) (h' : e.lt b c) : e.lt a c := by
  cases e with
  | right => exact List.lt_trans h h'
  | left => exact List.lt_trans h' h

theorem Next.bound {e : Tree.Extreme} {k a : Key} {t : VTree D} {q : List Nibble} (h : Next e k t q) (ha : FirstKey e (t.sub q) a) :
    Bound e k t (some a) := by
  obtain ⟨⟨x, hx⟩, h2⟩ := ha
  refine ⟨⟨x, mem_sub hx⟩, h.beyond _ hx, ?_⟩
  intro y hy hb
  rcases h.first y hy hb with h3 | h3
  · exact h2 y h3
  · exact .inr (h3 _ hx)

theorem keyAt_sub {w : Version} {a : Key} {t : VTree D} (h : KeyAt w a t) (q : List Nibble) : KeyAt w a (t.sub q) := by
  induction t generalizing q with
  | empty => simp [KeyAt]
  | leaf v k x => cases q with
    | nil => simpa using h
    | cons i q => simp [KeyAt]
  | node v m ch ih => cases q with
    | nil => simpa using h
    | cons i q => exact ih i (h i) q

theorem keyAt_leaf (H : Hasher D) {w : Version} {a : Key} {x : D} {t : VTree D} (h : KeyAt w a t) (hm : (a, x) ∈ t.entries) :
    ∃ q, t.at? H w q = some (.leaf ⟨a, x⟩) := by
  induction t with
  | empty => simp [entries] at hm
  | leaf v k y =>
    simp only [entries, List.mem_singleton, Prod.mk.injEq] at hm
    obtain ⟨rfl, rfl⟩ := hm
    have hv : v = w := h rfl
    exact ⟨[], by simp [at?_leaf, hv]⟩
  | node v m ch ih =>
    obtain ⟨i, hi⟩ := mem_entries_node.1 hm
    obtain ⟨q, hq⟩ := ih i (h i) hi
    exact ⟨i :: q, by rw [at?_node_cons]; exact hq⟩

theorem sub_append (t : VTree D) (q q' : List Nibble) : t.sub (q ++ q') = (t.sub q).sub q' := by
  induction t generalizing q with
  | empty => simp
  | leaf v k x => cases q with
    | nil => simp
    | cons i q => simp
  | node v m ch ih => cases q with
    | nil => simp
    | cons i q => simp [ih]

/-- A reader on which version `w` is the tree `T`. -/
structure ReadsTree (H : Hasher D) (r : Reader D) (w : Version) (T : VTree D) : Prop where
  wf : WF [] T
  has : HasTree H r [] T
  only : ∀ q n, r.getNodeOption ⟨w, q⟩ = some n → q ≠ [] → T.at? H w q = some n
  root : T ≠ .empty → T.version = w
  mono : ∀ v q q' n n', T.at? H v q = some n → T.at? H w (q ++ q') = some n' → v = w

theorem Fork.parting {k a : Key} {q : List Nibble} (h : Fork k q) (ha : q <+: a.nibbles) : Parting k a q := by
  obtain ⟨l, i, j, rfl, h2, h3⟩ := h
  exact ⟨l, i, j, rfl, ha, h2, h3⟩

/-- There is one such path. -/
theorem _root_.Verif.Spec.Parting.unique {k a : Key} {q q' : List Nibble} (h : Parting k a q) (h' : Parting k a q') : q = q' := by
  obtain ⟨p, i, j, rfl, h2, h3, h4⟩ := h
  obtain ⟨p', i', j', rfl, h2', h3', h4'⟩ := h'
  have key : ∀ {p p' : List Nibble} {i j i' j' : Nibble}, p ++ [i] <+: a.nibbles → p ++ [j] <+: k.nibbles → i ≠ j → p' ++ [i'] <+: a.nibbles →
      p' ++ [j'] <+: k.nibbles → ¬ p.length < p'.length := by
    intro p p' i j i' j' h1 h2 h3 h1' h2' hlt
    have e1 : p ++ [i] <+: p' := List.prefix_of_prefix_length_le h1 ((List.prefix_append p' [i']).trans h1') (by simp; omega)
    have e2 : p ++ [j] <+: p' := List.prefix_of_prefix_length_le h2 ((List.prefix_append p' [j']).trans h2') (by simp; omega)
    have := List.prefix_of_prefix_length_le e1 e2 (by simp)
    have := this.eq_of_length (by simp)
    exact h3 (by simpa using this)
  have hl : p.length = p'.length := by
    have e1 := key h2 h3 h4 h2' h3'
    have e2 := key h2' h3' h4' h2 h3
    omega
  exact (List.prefix_of_prefix_length_le h2 h2' (by simp [hl])).eq_of_length (by simp [hl])

theorem closest_spec {H : Hasher D} {r : Reader D} {w : Version} {T : VTree D} (h : ReadsTree H r w T) {e : Tree.Extreme} {k : Key}
    {path : List Nibble} {parents : List (InternalNode D)} (hc : Climbed e k T [] [] (Tree.climb e path.reverse parents.reverse)) :
    (∃ o, Tree.searchClosestExtremeNode r w e path parents = .ok o ∧ Bound e k T o ∧
      ∀ a, o = some a → ∃ q, Parting k a q ∧ (r.getNodeOption ⟨w, q⟩).isSome = true) ∨
    (Tree.searchClosestExtremeNode r w e path parents = .error (.err "Missing node") ∧
      ∃ a q, Bound e k T (some a) ∧ Parting k a q ∧ r.getNodeOption ⟨w, q⟩ = none ∧
        ∀ b x, (b, x) ∈ T.entries → q <+: b.nibbles → ¬ KeyAt w b T) := by
  unfold Tree.searchClosestExtremeNode
  rcases hc with ⟨h1, h2⟩ | ⟨q, h1, hfk, h2⟩
  · left
    rw [h2]
    exact ⟨none, rfl, h1, by intro a ha; cases ha⟩
  · rw [h2]
    simp only [List.nil_append, Res.ok_bind]
    have hwq := wf_sub h.wf q
    have hql : q.length ≤ 64 := by simpa using wf_length hwq h1.ne
    have hat : T.at? H (T.sub q).version q = some ((T.sub q).toNode H) := at?_sub.2 ⟨h1.ne, rfl, rfl⟩
    rw [List.nil_append] at hfk
    have hpart : ∀ a, FirstKey e (T.sub q) a → Parting k a q := by
      rintro a ⟨⟨x, hx⟩, _⟩
      exact hfk.parting (by simpa using mem_entries_prefix hwq hx)
    by_cases hv : (T.sub q).version = w
    · left
      have hr : HasTree H r q (T.sub q) := by
        intro v q' n hn
        have := at?_sub.1 hn
        rw [← sub_append] at this
        simpa using h.has v (q ++ q') n (at?_sub.2 this)
      obtain ⟨a, e1, e2⟩ := extreme_loop e (T.sub q) q (by simpa using hwq) h1.ne hr (65 - q.length) q.length (by omega)
      rw [hv] at e1
      unfold Tree.getExtremeKeyHash
      show ∃ o, (Tree.getExtremeKeyHashLoop r e.opposite (65 - q.length) q.length ⟨w, q⟩ >>= _) = _ ∧ _
      rw [e1]
      refine ⟨some a, rfl, h1.bound e2, ?_⟩
      intro b hb
      cases hb
      refine ⟨q, hpart a e2, ?_⟩
      have := h.has _ _ _ hat
      rw [hv, List.nil_append] at this
      rw [this]; rfl
    · right
      have hno : r.getNodeOption ⟨w, q⟩ = none := by
        cases hg : r.getNodeOption ⟨w, q⟩ with
        | none => rfl
        | some n => exact absurd (at?_sub.1 (h.only q n hg h1.deep)).2.1 hv
      have hq0 : q.length ≠ 0 := by simpa using h1.deep
      constructor
      · unfold Tree.getExtremeKeyHash
        obtain ⟨f, hf⟩ : ∃ f, rootNibbleHeight + 1 - q.length = f + 1 := ⟨64 - q.length, by unfold rootNibbleHeight; omega⟩
        rw [hf]
        unfold Tree.getExtremeKeyHashLoop
        rw [hno]
        simp [hq0]
      · obtain ⟨a, ha⟩ := firstKey_exists e hwq h1.ne
        refine ⟨a, q, h1.bound ha, hpart a ha, hno, ?_⟩
        intro b x hb hqb hka
        have hx := mem_sub_of h.wf hb (by simpa using hqb) h1.ne
        obtain ⟨q', hq'⟩ := keyAt_leaf H (keyAt_sub hka q) hx
        have := at?_sub.1 hq'
        rw [← sub_append] at this
        exact hv (h.mono _ q q' _ _ hat (at?_sub.2 this))

/-- The walk to `k` ends at the leaf of `a`. -/
def FoundAt (r : Reader D) (w : Version) (k a : Key) : Prop :=
  ∃ path parents, Tree.searchForClosestNode r w k = .ok (.foundLeaf a path parents)

theorem bounding_spec {H : Hasher D} {r : Reader D} {w : Version} {T : VTree D} (h : ReadsTree H r w T) (hne : T ≠ .empty) {k : Key}
    (hk : ∀ x, (k, x) ∉ T.entries) :
    (∃ a b, Tree.getBoundingPath r k w = .ok (a, b) ∧ Bound .left k T a ∧ Bound .right k T b ∧
      ∀ x, a = some x ∨ b = some x → FoundAt r w k x ∨ ∃ q, Parting k x q ∧ (r.getNodeOption ⟨w, q⟩).isSome = true) ∨
    (Tree.getBoundingPath r k w = .error (.err "Missing node") ∧
      ∃ (e : Tree.Extreme) (a : Key) (q : List Nibble), Bound e k T (some a) ∧ ¬ FoundAt r w k a ∧ Parting k a q ∧
        r.getNodeOption ⟨w, q⟩ = none ∧ ∀ b x, (b, x) ∈ T.entries → q <+: b.nibbles → ¬ KeyAt w b T) := by
  obtain ⟨res, e1, e2⟩ := search_loop (k := k) T [] k.nibbles h.wf hne h.has rfl 65 0 (by simp) []
  rw [h.root hne] at e1
  have e1' : Tree.searchForClosestNode r w k = .ok res := e1
  unfold Tree.getBoundingPath
  rw [e1']
  simp only [Res.ok_bind]
  have nearest : ∀ (e : Tree.Extreme) (l : Key), Nearest k T l → e.lt k l → Bound e k T (some l) := by
    intro e l hl hlt
    exact ⟨hl.1, hlt, fun y hy hb => hl.2 e hlt y hy hb⟩
  cases res with
  | foundLeaf l path parents =>
    obtain ⟨hn, hcl⟩ := e2
    have hfound : FoundAt r w k l := ⟨path, parents, e1'⟩
    have honly : ∀ a, FoundAt r w k a → a = l := by
      rintro a ⟨p', ps', hp'⟩
      rw [e1'] at hp'
      cases hp'; rfl
    simp only
    by_cases h1 : l < k
    · rw [if_pos h1]
      rcases closest_spec h (hcl .right (List.lt_asymm h1)) with ⟨o, f1, f2, f3⟩ | ⟨f1, a, q, f2, f3⟩
      · left
        rw [f1]
        refine ⟨some l, o, rfl, nearest .left l hn h1, f2, ?_⟩
        rintro x (hx | hx)
        · cases hx; exact .inl hfound
        · exact .inr (f3 x hx)
      · right
        rw [f1]
        refine ⟨rfl, .right, a, q, f2, ?_, f3⟩
        intro hfa
        rw [honly a hfa] at f2
        exact List.lt_asymm h1 f2.2.1
    · rw [if_neg h1]
      have hlk : l ≠ k := by rintro rfl; obtain ⟨x, hx⟩ := hn.1; exact hk x hx
      rw [if_neg hlk]
      have h2 : k < l := by
        rcases Key.lt_tri k l with h | h | h
        · exact h
        · exact absurd h.symm hlk
        · exact absurd h h1
      rcases closest_spec h (hcl .left h1) with ⟨o, f1, f2, f3⟩ | ⟨f1, a, q, f2, f3⟩
      · left
        rw [f1]
        refine ⟨o, some l, rfl, f2, nearest .right l hn h2, ?_⟩
        rintro x (hx | hx)
        · exact .inr (f3 x hx)
        · cases hx; exact .inl hfound
      · right
        rw [f1]
        refine ⟨rfl, .left, a, q, f2, ?_, f3⟩
        intro hfa
        rw [honly a hfa] at f2
        exact h1 f2.2.1
  | foundInternal path parents =>
    have hnot : ∀ a, ¬ FoundAt r w k a := by
      rintro a ⟨p', ps', hp'⟩
      rw [e1'] at hp'
      cases hp'
    simp only
    rcases closest_spec h (e2 .right) with ⟨o, f1, f2, f3⟩ | ⟨f1, a, q, f2, f3⟩
    · rw [f1]
      rcases closest_spec h (e2 .left) with ⟨o', g1, g2, g3⟩ | ⟨g1, a, q, g2, g3⟩
      · left
        simp only [Res.ok_bind]
        rw [g1]
        refine ⟨o', o, rfl, g2, f2, ?_⟩
        rintro x (hx | hx)
        · exact .inr (g3 x hx)
        · exact .inr (f3 x hx)
      · right
        simp only [Res.ok_bind]
        rw [g1]
        exact ⟨rfl, .left, a, q, g2, hnot a, g3⟩
    · right
      rw [f1]
      exact ⟨rfl, .right, a, q, f2, hnot a, f3⟩

/-- The key of the leaf found. -/
def Tree.SearchResult.key : Tree.SearchResult D → Option Key
  | .foundLeaf a _ _ => some a
  | .foundInternal _ _ => none

/-- The walk ends at a leaf exactly when the proof of `get_with_proof` has this leaf. -/
theorem searchLoop_leaf {H : Hasher D} {r : Reader D} {k : Key} {w : Version} (fuel depth : Nat) (nk : NodeKey) (nibs visited : List Nibble)
    (sibs : List D) (parents : List (InternalNode D)) {o : Option Value} {p : SparseMerkleProof D} {res : Tree.SearchResult D}
    (hp : Tree.getWithProofLoop H r k w fuel depth nk nibs sibs = .ok (o, p))
    (hs : Tree.searchLoop r fuel depth nk nibs visited parents = .ok res) :
    p.leaf.map LeafNode.keyHash = res.key := by
  induction fuel generalizing depth nk nibs visited sibs parents with
  | zero => cases hp
  | succ fuel ih =>
    unfold Tree.getWithProofLoop at hp
    unfold Tree.searchLoop at hs
    cases hg : r.getNodeOption nk with
    | none => rw [hg] at hs; cases hs
    | some n =>
      rw [hg] at hs hp
      cases n with
      | null =>
        simp only at hs
        split at hs <;> cases hs
      | leaf l =>
        simp only at hs hp
        cases hs
        split at hp
        · split at hp
          · cases hp
          · cases hp; rfl
        · cases hp; rfl
      | internal n =>
        cases nibs with
        | nil => cases hs
        | cons q nibs =>
          simp only at hs hp
          rw [getChildWithoutSiblings_eq H] at hs
          cases hc : n.getChildWithSiblings H nk q with
          | error e => rw [hc] at hp; cases hp
          | ok x =>
            obtain ⟨c, sb⟩ := x
            rw [hc] at hs hp
            cases c with
            | none =>
              simp only at hp
              cases hp
              cases hs
              rfl
            | some nk' => exact ih _ _ _ _ _ _ hp hs

theorem foundAt_iff {H : Hasher D} {r : Reader D} {k : Key} {w : Version} {T : VTree D} (h : ReadsTree H r w T) (hne : T ≠ .empty)
    {o : Option Value} {p : SparseMerkleProof D} (hp : Tree.getWithProof H r k w = .ok (o, p)) (a : Key) :
    FoundAt r w k a ↔ ∃ l, p.leaf = some l ∧ l.keyHash = a := by
  obtain ⟨res, e1, -⟩ := search_loop (k := k) T [] k.nibbles h.wf hne h.has rfl 65 0 (by simp) []
  rw [h.root hne] at e1
  have e1' : Tree.searchForClosestNode r w k = .ok res := e1
  have := searchLoop_leaf 65 0 _ _ _ _ _ hp e1
  rw [← Option.map_eq_some_iff, this]
  unfold FoundAt
  rw [e1']
  cases res with
  | foundLeaf l path parents =>
    constructor
    · rintro ⟨_, _, h⟩; cases h; rfl
    · intro h; cases h; exact ⟨_, _, rfl⟩
  | foundInternal path parents =>
    constructor
    · rintro ⟨_, _, h⟩; cases h
    · intro h; cases h

/-! ### reached stores -/

/-- A node above a node of the newest commit is itself of the newest commit. -/
theorem Inv.mono {H : Hasher D} {N : NodeKey → Option (Node D)} {St : Version → NodeKey → Prop} {T : Version → VTree D}
    {v0 next lo w : Version} (h : Inv H N St T v0 next lo) (h0 : lo ≤ w) (h1 : w < next) (v : Version) (q q' : List Nibble)
    (n n' : Node D) (hn : (T w).at? H v q = some n) (hn' : (T w).at? H w (q ++ q') = some n') : v = w := by
  have hlo := h.loge
  have hle : v ≤ w := at?_version_le (h.tree w (by omega) h1).2.1 hn
  by_contra hne
  rcases Nat.eq_or_lt_of_le (Nat.le_trans hlo h0) with hw | hw
  · have hs : stored H w (T w) v q = some n := by
      rw [stored_of_ne]
      · exact hn
      · intro he; rw [he] at hn; simp at hn
    have := (h.dom v q n (h.nodes w h0 h1 v q n hs)).1
    omega
  · obtain ⟨u, rfl⟩ : ∃ u, w = u + 1 := ⟨w - 1, by omega⟩
    have hvu : v ≤ u := by omega
    clear hne hle
    induction q' generalizing q v n with
    | nil =>
      rw [List.append_nil] at hn'
      have e1 := (at?_sub.1 hn).2.1
      have e2 := (at?_sub.1 hn').2.1
      omega
    | cons i q' ih =>
      have hsub := at?_sub.1 hn'
      have hni : (T (u + 1)).sub (q ++ [i]) ≠ .empty := by
        intro he
        rw [show q ++ i :: q' = (q ++ [i]) ++ q' by simp, sub_append, he] at hsub
        simp at hsub
      have hat : (T (u + 1)).at? H ((T (u + 1)).sub (q ++ [i])).version (q ++ [i]) = some (((T (u + 1)).sub (q ++ [i])).toNode H) :=
        at?_sub.2 ⟨hni, rfl, rfl⟩
      obtain ⟨v', m, c, a1, a2, a3⟩ := at?_parent hat
      have b1 := at?_sub.1 a1
      have b2 := at?_sub.1 hn
      have hnm : n = .internal m := b2.2.2.symm.trans b1.2.2
      subst hnm
      have hold := h.chain u (by omega) h1 v q _ hvu hn
      have hc := at?_child hold a2
      obtain ⟨n2, hn2⟩ := Option.isSome_iff_exists.1 hc
      have hcv : c.version ≤ u := at?_version_le (h.tree u (by omega) (by omega)).2.1 hn2
      exact ih _ (q ++ [i]) _ hat (by simpa using hn') (by omega)

theorem StoreInv.readsTree {H : Hasher D} {v0 lo : Version} {hist : List Commit} {s : Store D} (h : StoreInv H v0 hist lo s) {w : Version}
    (h0 : lo ≤ w) (h1 : w < v0 + hist.length) : ReadsTree H s.reader w (treeAt H v0 hist w) := by
  have hf := h.facts h0 h1
  refine ⟨hf.hold.1, hf.has, ?_, hf.ver, h.inv.mono h0 h1⟩
  intro q n hq hne
  have hd := (h.inv.dom w q n hq).2.2
  cases q with
  | nil => exact absurd rfl hne
  | cons i q => rwa [stored_cons] at hd

/-- A key written by the commit of version `w` (any key, for the first version) has its leaf at version `w`. -/
theorem StoreInv.keyAt {H : Hasher D} {v0 lo : Version} {hist : List Commit} {s : Store D} (h : StoreInv H v0 hist lo s) {w : Version}
    (h0 : lo ≤ w) (h1 : w < v0 + hist.length) {k : Key} (hk : w = v0 ∨ ∃ c, hist[w - v0]? = some c ∧ ∃ x, (k, x) ∈ c.updates) :
    KeyAt w k (treeAt H v0 hist w) := by
  have hlo := h.inv.loge
  rcases Nat.eq_or_lt_of_le (Nat.le_trans hlo h0) with hw | hw
  · rw [keyAt_iff H]
    intro v q l hl _
    have hs : stored H w (treeAt H v0 hist w) v q = some (.leaf l) := by
      rw [stored_of_ne]
      · exact hl
      · intro he; rw [he] at hl; simp at hl
    have := (h.inv.dom v q _ (h.inv.nodes w h0 h1 v q _ hs)).1
    have := at?_version_le (h.inv.tree w (by omega) h1).2.1 hl
    omega
  · rcases hk with hk | ⟨c, hc, x, hx⟩
    · omega
    · obtain ⟨u, rfl⟩ : ∃ u, w = u + 1 := ⟨w - 1, by omega⟩
      rw [treeAt_succ (by omega) hc]
      apply commit_keyAt H c (u + 1) (h.inv.tree u (by omega) (by omega)).1
      rw [lastOf_isSome_iff]
      exact ⟨_, hx, rfl⟩

theorem Reached.readsTree {H : Hasher D} {v0 next : Version} {ops : List Op} {s : Store D} (h : Reached H v0 ops s next) {v : Version}
    (hv : Readable v0 ops v) : ReadsTree H s.reader v (treeAt H v0 (commitsOf ops) v) ∧
      ∀ k, (v = v0 ∨ ∃ c, (commitsOf ops)[v - v0]? = some c ∧ ∃ x, (k, x) ∈ c.updates) → KeyAt v k (treeAt H v0 (commitsOf ops) v) := by
  obtain ⟨e1, e2⟩ := h.inv
  have hf : floorOf ops v0 v0 ≤ v := by
    rcases hv.kept with hk | hk
    · exact floorOf_le ops v0 v0 v hv.ge hk
    · have := e2.inv.loLt
      have := hv.ge
      omega
  exact ⟨e2.readsTree hf hv.lt, fun k hk => e2.keyAt hf hv.lt hk⟩

end Verif.Jmt
