import Verif.Proofs.Refine
/-! Refinement of `insert_at`. -/

namespace Verif.Jmt
variable {D : Type}
open VTree

/-- The subtree at path `p` of the current version is `t`. -/
structure Holds (H : Hasher D) (ver : Version) (c : TreeCache D) (p : List Nibble) (t : VTree D) : Prop where
  M : ∀ v q, c.M ⟨v, p ++ q⟩ = if v = ver then t.at? H v q else none
  old : ∀ v q n, v < ver → t.at? H v q = some n → c.base ⟨v, p ++ q⟩ = some n ∧ ¬ c.S ⟨v, p ++ q⟩
  le : VerLe ver t
  stats : t ≠ .empty → TreeCache.StatsOk c

/-- Effect on the cache of replacing the subtree `t` at path `p` by `t'`. -/
structure Step (H : Hasher D) (ver : Version) (p : List Nibble) (c : TreeCache D) (t : VTree D) (c' : TreeCache D)
    (t' : VTree D) : Prop where
  same : TreeCache.Same c c'
  M : ∀ v q, c'.M ⟨v, p ++ q⟩ = if v = ver then t'.at? H v q else none
  frame : ∀ nk : NodeKey, ¬ p <+: nk.path → c'.M nk = c.M nk
  S : ∀ v path, c'.S ⟨v, path⟩ ↔ c.S ⟨v, path⟩ ∨
    ∃ q, path = p ++ q ∧ v < ver ∧ (t.at? H v q).isSome = true ∧ t'.at? H v q = none
  stats : TreeCache.StatsOk c → TreeCache.StatsOk c'

theorem Holds.getNodeOption {H : Hasher D} {ver : Version} {c : TreeCache D} {p : List Nibble} {t : VTree D}
    (h : Holds H ver c p t) (ht : t ≠ .empty) : c.getNodeOption ⟨t.version, p⟩ = some (t.toNode H) := by
  rw [TreeCache.getNodeOption_eq]
  have hm := h.M t.version []
  rw [List.append_nil, at?_nil H ht] at hm
  by_cases hv : t.version = ver
  · rw [hm]; simp [hv]
  · have hle : t.version ≤ ver := by
      have := h.le
      cases t with
      | empty => exact absurd rfl ht
      | leaf => exact this
      | node => exact this.1
    have hb := (h.old t.version [] (t.toNode H) (by omega) (by rw [at?_nil H ht]; simp)).1
    rw [List.append_nil] at hb
    rw [hm]; simp [hv, hb]

theorem toNode_isLeaf (H : Hasher D) (t : VTree D) : (t.toNode H).isLeaf = t.isLeaf := by
  cases t <;> rfl

/-- Deleting the root node of a subtree. `n` is the node as stored. -/
theorem deleteRoot {ver : Version} {c : TreeCache D} {p : List Nibble} {v : Version} {n : Node D} (hv : v ≤ ver)
    (hM : ∀ v', c.M ⟨v', p⟩ = if v' = ver ∧ v = ver then some n else none)
    (hold : v < ver → c.base ⟨v, p⟩ = some n ∧ ¬ c.S ⟨v, p⟩) (hl : n.isLeaf = true → TreeCache.StatsOk c) :
    ∃ c', c.deleteNode ⟨v, p⟩ n.isLeaf = .ok c' ∧ TreeCache.Same c c' ∧
      (∀ nk, c'.M nk = if nk.path = p then none else c.M nk) ∧
      (∀ nk, c'.S nk ↔ c.S nk ∨ (nk = ⟨v, p⟩ ∧ v < ver)) ∧ (TreeCache.StatsOk c → TreeCache.StatsOk c') := by
  by_cases hvv : v = ver
  · subst hvv
    obtain ⟨c', h1, h2, h3, h4, h5⟩ := TreeCache.deleteNode_new (c := c) (nk := ⟨v, p⟩) (n := n) (by rw [hM]; simp) hl
    refine ⟨c', h1, h2, ?_, ?_, h5⟩
    · rintro ⟨v', p'⟩
      rw [h3]
      by_cases hp : p' = p
      · subst hp
        by_cases hv' : v' = v
        · simp [hv']
        · simp [hv', hM]
      · simp [hp]
    · intro nk; rw [h4]; simp
  · have hlt : v < ver := by omega
    obtain ⟨c', h1, h2, h3, h4, h5⟩ := TreeCache.deleteNode_old (c := c) (nk := ⟨v, p⟩) (n := n)
      (by rw [hM]; simp [hvv]) (hold hlt).2 (hold hlt).1
    refine ⟨c', h1, h2, ?_, ?_, h5⟩
    · rintro ⟨v', p'⟩
      rw [h3]
      by_cases hp : p' = p
      · subst hp; simp [hM, hvv]
      · simp [hp]
    · intro nk; rw [h4]; simp only [hlt, and_true]; exact or_comm

theorem Holds.version_le {H : Hasher D} {ver : Version} {c : TreeCache D} {p : List Nibble} {t : VTree D}
    (h : Holds H ver c p t) : t.version ≤ ver := by
  have := h.le
  cases t with
  | empty => simp
  | leaf => exact this
  | node => exact this.1

theorem Holds.deleteRoot {H : Hasher D} {ver : Version} {c : TreeCache D} {p : List Nibble} {t : VTree D}
    (h : Holds H ver c p t) (ht : t ≠ .empty) :
    ∃ c', c.deleteNode ⟨t.version, p⟩ t.isLeaf = .ok c' ∧ TreeCache.Same c c' ∧
      (∀ nk, c'.M nk = if nk.path = p then none else c.M nk) ∧
      (∀ nk, c'.S nk ↔ c.S nk ∨ (nk = ⟨t.version, p⟩ ∧ t.version < ver)) ∧
      (TreeCache.StatsOk c → TreeCache.StatsOk c') := by
  have := Jmt.deleteRoot (c := c) (p := p) (v := t.version) (n := t.toNode H) h.version_le (ver := ver) ?_ ?_ (fun _ => h.stats ht)
  · rwa [toNode_isLeaf] at this
  · intro v'
    have := h.M v' []
    rw [List.append_nil, at?_nil H ht] at this
    rw [this]
    by_cases h1 : v' = ver
    · subst h1; by_cases h2 : v' = t.version
      · simp [← h2]
      · simp [h2, Ne.symm h2]
    · simp [h1]
  · intro hlt
    have := h.old t.version [] (t.toNode H) hlt (by rw [at?_nil H ht]; simp)
    rwa [List.append_nil] at this

/-- Nodes of `t` hanging below the path `s`. -/
def under (H : Hasher D) (s : List Nibble) (t : VTree D) (v : Version) (q : List Nibble) : Option (Node D) :=
  if s <+: q then t.at? H v (q.drop s.length) else none

theorem under_append (H : Hasher D) (s : List Nibble) (t : VTree D) (v : Version) (q : List Nibble) :
    under H s t v (s ++ q) = t.at? H v q := by simp [under]

theorem child_node (H : Hasher D) (ver : Version) (m : Bool) (ch : Nibble → VTree D) :
    (VTree.node ver m ch).child H =
      some ⟨(InternalNode.ofFun m (fun i => (ch i).child H)).hash H, ver, (InternalNode.ofFun m (fun i => (ch i).child H)).nodeType⟩ := by
  simp [VTree.child]

theorem new_upd_single (H : Hasher D) (ver : Version) (a : Nibble) (m : Bool) (ch : Nibble → VTree D) :
    InternalNode.new (Children.new.insert a
        ⟨(InternalNode.ofFun m (fun i => (ch i).child H)).hash H, ver, (InternalNode.ofFun m (fun i => (ch i).child H)).nodeType⟩) =
      .ok (.ofFun true (fun i => (upd noCh a (VTree.node ver m ch) i).child H)) := by
  rw [Children.new_eq, Children.insert_ofFun, map_upd (fun t => VTree.child H t), child_node]
  have e : (fun j => VTree.child H (noCh j)) = (fun _ => none : Nibble → Option (Child D)) := by
    funext j; simp [noCh, VTree.child]
  rw [e]
  apply newMigration_ofFun
  · exact ⟨a, by simp⟩
  · intro i c hi hl
    exfalso
    by_cases hia : i = a
    · subst hia
      rw [upd_same] at hi
      rw [← child_node H ver m ch] at hi
      rw [child_isLeaf hi] at hl
      simp [VTree.isLeaf] at hl
    · rw [upd_ne _ _ hia] at hi; cases hi

theorem chainUp_spec (H : Hasher D) (ver : Version) (p : List Nibble) (s : List Nibble) (m : Bool) (ch : Nibble → VTree D)
    (c : TreeCache D)
    (hM : ∀ v q, c.M ⟨v, p ++ q⟩ = if v = ver then under H s (.node ver m ch) v q else none) :
    ∃ c' m' ch', Tree.chainUp H ver s.length (p ++ s) ⟨ver, p ++ s⟩ (.ofFun m (fun i => (ch i).child H)) c =
        .ok (c', (⟨ver, p⟩, .ofFun m' (fun i => (ch' i).child H))) ∧
      wrap ver s (.node ver m ch) = .node ver m' ch' ∧
      TreeCache.Same c c' ∧
      (∀ v q, c'.M ⟨v, p ++ q⟩ = if v = ver then (wrap ver s (.node ver m ch)).at? H v q else none) ∧
      (∀ nk : NodeKey, ¬ p <+: nk.path → c'.M nk = c.M nk) ∧ (∀ nk, c'.S nk ↔ c.S nk) ∧
      (TreeCache.StatsOk c → TreeCache.StatsOk c') := by
  generalize hn : s.length = n
  induction n generalizing s m ch c with
  | zero =>
    have : s = [] := List.length_eq_zero_iff.1 hn
    subst this
    refine ⟨c, m, ch, by simp [Tree.chainUp], rfl, .refl c, ?_, fun _ _ => rfl, fun _ => Iff.rfl, id⟩
    intro v q
    rw [hM, wrap]
    simp [under]
  | succ n ih =>
    rcases List.eq_nil_or_concat s with rfl | ⟨s', a, rfl⟩
    · simp at hn
    · have hn' : s'.length = n := by simpa using hn
      simp only [List.concat_eq_append] at *
      obtain ⟨c1, h1, h2, h3, h4, h5⟩ := TreeCache.putNode_spec (c := c) (nk := ⟨ver, p ++ s'⟩)
        (.internal (.ofFun true (fun i => (upd noCh a (VTree.node ver m ch) i).child H))) (by
          rw [hM]; simp only [if_true, under]
          rw [if_neg]
          intro hp
          have := hp.length_le
          simp at this
          omega)
      obtain ⟨c', m', ch', g1, g2, g3, g4, g5, g6, g7⟩ := ih s' true (upd noCh a (.node ver m ch)) c1 (by
        intro v q
        rw [h3, hM]
        by_cases hv : v = ver
        · subst hv
          simp only [NodeKey.mk.injEq, true_and, if_true, List.append_cancel_left_eq]
          by_cases hq : q = s'
          · subst hq
            have := under_append H q (.node v true (upd noCh a (.node v m ch))) v []
            rw [List.append_nil] at this
            simp [this, at?_node_nil, toNode]
          · simp only [hq, if_false]
            unfold under
            by_cases hpre : s' <+: q
            · obtain ⟨r, rfl⟩ := hpre
              simp only [List.prefix_append, if_true, List.drop_left']
              cases r with
              | nil => simp at hq
              | cons i r =>
                rw [at?_node_cons]
                by_cases hia : i = a
                · subst hia
                  rw [upd_same]
                  have e : s' ++ i :: r = (s' ++ [i]) ++ r := by simp
                  rw [e]
                  simp
                · rw [upd_ne _ _ hia, if_neg]
                  · simp [noCh]
                  · rw [List.prefix_append_right_inj]
                    simp [Ne.symm hia]
            · rw [if_neg hpre, if_neg]
              intro hh
              exact hpre ((List.prefix_append s' [a]).trans hh)
        · simp [hv]) hn'
      refine ⟨c', m', ch', ?_, ?_, h2.trans g3, ?_, ?_, ?_, fun hs => g7 (h5 hs)⟩
      · unfold Tree.chainUp
        have e1 : (p ++ (s' ++ [a])).getLast? = some a := by rw [← List.append_assoc]; simp
        have e2 : (p ++ (s' ++ [a])).dropLast = p ++ s' := by rw [← List.append_assoc]; simp
        rw [e1]
        simp only [e2]
        rw [new_upd_single]
        simp only [Res.ok_bind, h1]
        exact g1
      · rw [wrap_snoc]; exact g2
      · intro v q; rw [g4, wrap_snoc]
      · intro nk hnk
        rw [g5 nk hnk, h3, if_neg]
        rintro rfl
        exact hnk (List.prefix_append _ _)
      · intro nk; rw [g6, h4]

theorem genChild_ok {nk : NodeKey} (h : nk.path.length < 64) {v : Version} {i : Nibble} :
    nk.genChild v i = .ok ⟨v, nk.path ++ [i]⟩ := if_pos h

/-- The result value that matches a pure update. -/
def resOf (H : Hasher D) (ver : Version) (p : List Nibble) : Upd D → PutResult (NodeKey × Node D)
  | .notChanged => .notChanged
  | .removed => .removed
  | .updated t => .updated (⟨ver, p⟩, t.toNode H)

theorem Step.refl {H : Hasher D} {ver : Version} {c : TreeCache D} {p : List Nibble} {t : VTree D}
    (h : Holds H ver c p t) : Step H ver p c t c t where
  same := .refl c
  M := h.M
  frame := fun _ _ => rfl
  S := by
    intro v path
    constructor
    · exact .inl
    · rintro (h | ⟨q, _, _, h1, h2⟩)
      · exact h
      · rw [h2] at h1; simp at h1
  stats := id

theorem notPrefix_ne {p q : List Nibble} {nk : NodeKey} (h : ¬ p <+: nk.path) : nk.path ≠ p ++ q := by
  intro e; rw [e] at h; exact h (List.prefix_append _ _)

/-- Replacing a leaf by a tree of new nodes, given the state of the cache after the node insertions. -/
theorem Step.of_leaf {H : Hasher D} {ver : Version} {c c1 c' : TreeCache D} {p : List Nibble} {v : Version} {k' : Key} {h' : D}
    {t' : VTree D} (hs1 : TreeCache.Same c c1) (hM1 : ∀ nk, c1.M nk = if nk.path = p then none else c.M nk)
    (hS1 : ∀ nk, c1.S nk ↔ c.S nk ∨ (nk = ⟨v, p⟩ ∧ v < ver)) (hst1 : TreeCache.StatsOk c → TreeCache.StatsOk c1)
    (hs2 : TreeCache.Same c1 c') (hM2 : ∀ v q, c'.M ⟨v, p ++ q⟩ = if v = ver then t'.at? H v q else none)
    (hf2 : ∀ nk : NodeKey, ¬ p <+: nk.path → c'.M nk = c1.M nk) (hS2 : ∀ nk, c'.S nk ↔ c1.S nk)
    (hst2 : TreeCache.StatsOk c1 → TreeCache.StatsOk c')
    (hnew : ∀ v q n, t'.at? H v q = some n → v = ver) : Step H ver p c (.leaf v k' h') c' t' where
  same := hs1.trans hs2
  M := hM2
  frame := by
    intro nk hnk
    rw [hf2 nk hnk, hM1, if_neg]
    have := notPrefix_ne (q := []) hnk
    simpa using this
  S := by
    intro v' path
    rw [hS2, hS1]
    apply or_congr_right
    constructor
    · rintro ⟨h1, h2⟩
      simp only [NodeKey.mk.injEq] at h1
      obtain ⟨rfl, rfl⟩ := h1
      refine ⟨[], by simp, h2, by simp [at?_leaf], ?_⟩
      cases hh : t'.at? H v' [] with
      | none => rfl
      | some n => have := hnew _ _ _ hh; omega
    · rintro ⟨q, rfl, h2, h3, h4⟩
      rw [at?_leaf] at h3
      split at h3
      · rename_i hh
        obtain ⟨rfl, rfl⟩ := hh
        simp [h2]
      · simp at h3
  stats := fun hs => hst2 (hst1 hs)

theorem insertAtLeaf_spec (H : Hasher D) (m : Bool) (ver : Version) (key : Key) (x : Option D) (p rest : List Nibble)
    (hk : key.nibbles = p ++ rest) (v : Version) (k' : Key) (h' : D) (c : TreeCache D)
    (hw : WF p (VTree.leaf v k' h')) (hc : Holds H ver c p (.leaf v k' h')) :
    ∃ c', Tree.insertAtLeafNode H m ⟨v, p⟩ ⟨k', h'⟩ ver key p rest x c =
        .ok (c', resOf H ver p (put ver m key x rest (.leaf v k' h'))) ∧
      Step H ver p c (.leaf v k' h') c' (after (.leaf v k' h') (put ver m key x rest (.leaf v k' h'))) := by
  have hl : p.length + rest.length = 64 := by rw [← List.length_append, ← hk]; simp
  have hskip : skipCommonPrefix p k'.nibbles = p.length := commonPrefixLen_prefix _ _ hw
  obtain ⟨r', hr'⟩ := hw
  have hl' : r'.length = rest.length := by
    have : p.length + r'.length = 64 := by rw [← List.length_append, hr']; simp
    omega
  have hdrop : k'.nibbles.drop p.length = r' := by rw [← hr']; simp
  have hdrop2 : k'.nibbles.drop (64 - rest.length) = r' := by
    have : 64 - rest.length = p.length := by omega
    rw [this, hdrop]
  unfold Tree.insertAtLeafNode
  simp only [hskip, beq_self_eq_true, assert_true, Res.ok_bind, hdrop]
  obtain ⟨c1, d1, d2, d3, d4, d5⟩ := hc.deleteRoot (by simp)
  simp only [version_leaf, VTree.isLeaf] at d1 d4
  have hnone : ∀ v q, c1.M ⟨v, p ++ q⟩ = none := by
    intro v1 q
    rw [d3]
    by_cases hq : q = []
    · simp [hq]
    · rw [if_neg (by simpa using hq), hc.M, at?_leaf]
      simp [hq]
  have hcreate : ∀ h, ∃ c', Tree.createLeafNode ⟨ver, p⟩ key h c1 = .ok (c', (⟨ver, p⟩, .leaf ⟨key, h⟩)) ∧
      Step H ver p c (.leaf v k' h') c' (.leaf ver key h) := by
    intro h
    obtain ⟨c2, e1, e2, e3, e4, e5⟩ := TreeCache.putNode_spec (c := c1) (nk := ⟨ver, p⟩) (.leaf ⟨key, h⟩)
      (by have := hnone ver []; rwa [List.append_nil] at this)
    refine ⟨c2, by simp [Tree.createLeafNode, e1], ?_⟩
    refine Step.of_leaf d2 d3 d4 d5 e2 ?_ ?_ e4 e5 ?_
    · intro v1 q
      rw [e3, hnone, at?_leaf]
      by_cases hv : v1 = ver
      · simp [hv]
      · simp [hv]
    · intro nk hnk
      rw [e3, if_neg]
      rintro rfl
      exact hnk (List.prefix_refl _)
    · intro v1 q n hh
      rw [at?_leaf] at hh
      split at hh
      · rename_i h; exact h.1
      · cases hh
  by_cases hkk : k' = key
  · -- same key
    subst hkk
    have hrr : r' = rest := List.append_cancel_left (hr'.trans hk)
    subst hrr
    have hcp : skipCommonPrefix r' r' = r'.length := by
      have := commonPrefixLen_prefix r' r' (List.prefix_refl _)
      exact this
    simp only [hcp, List.drop_length, List.isEmpty_nil, if_true, assert_true, Res.ok_bind, d1]
    unfold put
    simp only [if_true]
    cases x with
    | some h =>
      obtain ⟨c', g1, g2⟩ := hcreate h
      exact ⟨c', by simp [NodeKey.setVersion, g1, resOf, toNode], g2⟩
    | none =>
      refine ⟨c1, by simp [resOf], ?_⟩
      refine Step.of_leaf d2 d3 d4 d5 (.refl _) ?_ (fun _ _ => rfl) (fun _ => Iff.rfl) id (by simp [after])
      intro v1 q; rw [hnone]; simp [after]
  · -- different keys
    have hne : r' ≠ rest := fun h0 => hkk (Key.nibbles_inj (by rw [← hr', h0, hk]))
    have ht := take_commonPrefixLen rest r'
    have hd := drop_commonPrefixLen rest r'
    have hle := commonPrefixLen_le_left rest r'
    have hsplit1 := List.take_append_drop (commonPrefixLen rest r') rest
    have hsplit2 := List.take_append_drop (commonPrefixLen rest r') r'
    have hlt : ¬ (rest.drop (commonPrefixLen rest r') = [] ∨ r'.drop (commonPrefixLen rest r') = []) := by
      intro h0
      apply hne
      have e1 : rest.length ≤ commonPrefixLen rest r' := by
        rcases h0 with h0 | h0
        · exact List.drop_eq_nil_iff.1 h0
        · have := List.drop_eq_nil_iff.1 h0; omega
      rw [List.take_of_length_le e1, List.take_of_length_le (by omega)] at ht
      exact ht.symm
    rcases hd with ⟨b, a, bs, as, hab, hb, ha⟩ | hd
    · generalize hcs : rest.take (commonPrefixLen rest r') = cs at *
      have hcsl : cs.length = commonPrefixLen rest r' := by rw [← hcs, List.length_take]; omega
      rw [hb] at hsplit1
      rw [ha, ← ht] at hsplit2
      have hn : skipCommonPrefix rest r' = commonPrefixLen rest r' := rfl
      simp only [hn, hcs, hb, ha, List.isEmpty_cons, Bool.false_eq_true, if_false]
      unfold put
      simp only [hkk, if_false, hdrop2]
      cases x with
      | none => exact ⟨c, by simp [resOf], .refl hc⟩
      | some h =>
        simp only [d1, Res.ok_bind]
        have hab' : (a != b) = true := by simpa using Ne.symm hab
        simp only [hab', assert_true, Res.ok_bind]
        have hplen : (p ++ cs).length < 64 := by
          have := congrArg List.length hsplit1
          simp at this ⊢; omega
        have hgen : ∀ i, NodeKey.genChild ⟨ver, p ++ cs⟩ ver i = .ok ⟨ver, p ++ cs ++ [i]⟩ := by
          intro i; exact genChild_ok hplen
        simp only [hgen, Res.ok_bind]
        obtain ⟨c2, e1, e2, e3, e4, e5⟩ := TreeCache.putNode_spec (c := c1) (nk := ⟨ver, p ++ cs ++ [a]⟩) (.leaf ⟨k', h'⟩)
          (by rw [List.append_assoc]; exact hnone _ _)
        obtain ⟨c3, f1, f2, f3, f4, f5⟩ := TreeCache.putNode_spec (c := c2) (nk := ⟨ver, p ++ cs ++ [b]⟩) (.leaf ⟨key, h⟩)
          (by
            rw [e3, if_neg (by simp [hab]), List.append_assoc]; exact hnone _ _)
        simp only [e1, Res.ok_bind, Tree.createLeafNode, f1, Res.pure_eq]
        have hnode : InternalNode.newMigration
            ((Children.new.insert a ⟨LeafNode.hash H ⟨k', h'⟩, ver, .leaf⟩).insert b
              ⟨Node.hash H (.leaf ⟨key, h⟩), ver, .leaf⟩) m =
            .ok (.ofFun m (fun i => (upd (upd noCh a (.leaf ver k' h')) b (.leaf ver key h) i).child H)) := by
          rw [Children.new_eq, Children.insert_ofFun, Children.insert_ofFun,
            map_upd (fun t => VTree.child H t), map_upd (fun t => VTree.child H t)]
          have e : (fun j => VTree.child H (noCh j)) = (fun _ => none : Nibble → Option (Child D)) := by
            funext j; simp [noCh, VTree.child]
          rw [e]
          have e' : ∀ k2 h2, (VTree.leaf ver k2 h2).child H = some ⟨H.leaf k2 h2, ver, .leaf⟩ := by
            intro k2 h2; simp [VTree.child]
          rw [e', e']
          apply newMigration_ofFun
          · exact ⟨b, by simp⟩
          · intro i c hi hl
            by_cases hib : i = b
            · exact ⟨a, by rw [hib]; exact Ne.symm hab, by rw [upd_ne _ _ (Ne.symm hab)]; simp⟩
            · exact ⟨b, Ne.symm hib, by simp⟩
        simp only [hnode, Res.ok_bind]
        obtain ⟨c4, g1, g2, g3, g4, g5⟩ := TreeCache.putNode_spec (c := c3) (nk := ⟨ver, p ++ cs⟩)
          (.internal (.ofFun m (fun i => (upd (upd noCh a (.leaf ver k' h')) b (.leaf ver key h) i).child H)))
          (by rw [f3, if_neg (by simp), e3, if_neg (by simp)]; exact hnone _ _)
        simp only [g1, Res.ok_bind]
        obtain ⟨c5, m', ch', i1, i2, i3, i4, i5, i6, i7⟩ := chainUp_spec H ver p cs m
          (upd (upd noCh a (.leaf ver k' h')) b (.leaf ver key h)) c4 (by
            intro v1 q
            rw [g3, f3, e3, hnone]
            by_cases hv : v1 = ver
            · subst hv
              simp only [NodeKey.mk.injEq, true_and, if_true, List.append_assoc, List.append_cancel_left_eq]
              unfold under
              by_cases hpre : cs <+: q
              · obtain ⟨r, rfl⟩ := hpre
                simp only [List.prefix_append, if_true, List.drop_left', List.append_cancel_left_eq]
                cases r with
                | nil => simp [at?_node_nil, toNode]
                | cons i r =>
                  rw [at?_node_cons]
                  by_cases hib : i = b
                  · subst hib
                    rw [upd_same, at?_leaf]
                    by_cases hr : r = []
                    · simp [hr]
                    · simp [hr]
                  · rw [upd_ne _ _ hib]
                    by_cases hia : i = a
                    · subst hia
                      rw [upd_same, at?_leaf]
                      by_cases hr : r = []
                      · simp [hr, hib]
                      · simp [hr]
                    · rw [upd_ne _ _ hia]
                      simp [noCh, hia, hib]
              · rw [if_neg hpre]
                have n1 : ∀ s, q ≠ cs ++ s := fun s h0 => hpre (by rw [h0]; exact List.prefix_append _ _)
                have n2 : q ≠ cs := fun h0 => hpre (by rw [h0]; exact List.prefix_refl _)
                simp [n1, n2]
            · simp [hv])
        have hforkeq : fork ver m k' h' key h r' rest = wrap ver cs (.node ver m (upd (upd noCh a (.leaf ver k' h')) b (.leaf ver key h))) := by
          rw [← hsplit1, ← hsplit2]
          exact fork_eq_wrap ver m k' h' key h cs a b as bs (Ne.symm hab)
        rw [hcsl] at i1
        simp only [i1, Res.ok_bind]
        refine ⟨c5, ?_, ?_⟩
        · simp only [resOf, hforkeq, i2, toNode]
        · simp only [after, hforkeq]
          refine Step.of_leaf d2 d3 d4 d5 (((e2.trans f2).trans g2).trans i3) i4 ?_ ?_ (fun hs => i7 (g5 (f5 (e5 hs)))) ?_
          · intro nk hnk
            rw [i5 nk hnk, g3, f3, e3]
            have z : ∀ s, nk ≠ ⟨ver, p ++ s⟩ := by
              rintro s rfl; exact hnk (List.prefix_append _ _)
            rw [if_neg (z _), if_neg (by rw [List.append_assoc]; exact z _), if_neg (by rw [List.append_assoc]; exact z _)]
          · intro nk; rw [i6, g4, f4, e4]
          · intro v1 q n hh
            rw [← hforkeq] at hh
            exact fork_version H _ _ _ _ _ _ _ _ hh
    · exact absurd hd hlt

theorem csOf_map_fst (H : Hasher D) (ch : Nibble → VTree D) (L : List Nibble) :
    (csOf H ch L).map Prod.fst = L.filter (fun i => !(ch i).isEmpty) := by
  induction L with
  | nil => rfl
  | cons a t ih =>
    rw [List.filter_cons, ← ih]
    rcases ha : (ch a).child H with _ | c
    · have : (ch a).isEmpty = true := VTree.isEmpty_iff.2 (child_eq_none.1 ha)
      simp [csOf, ha, this]
    · have : (ch a).isEmpty = false := by
        rw [Bool.eq_false_iff]
        intro h; rw [VTree.isEmpty_iff] at h; rw [h] at ha; simp [VTree.child] at ha
      simp [csOf, ha, this]

theorem iterSorted_ofFun (H : Hasher D) (ch : Nibble → VTree D) :
    (Children.ofFun (fun i => (ch i).child H)).iterSorted = csOf H ch (List.finRange 16) := rfl

theorem filter_finRange_eq : ∀ i : Nibble, (List.finRange 16).filter (fun j => decide (j = i)) = [i] := by
  decide

theorem new_ofFun_finish {H : Hasher D} {ver : Version} {ch : Nibble → VTree D}
    (h : finish ver ch = .updated (.node ver true ch)) (hne : ∃ i, ch i ≠ .empty) :
    InternalNode.new (.ofFun (fun i => (ch i).child H)) = .ok (.ofFun true (fun i => (ch i).child H)) := by
  apply newMigration_ofFun
  · obtain ⟨i, hi⟩ := hne
    exact ⟨i, child_isSome.2 hi⟩
  · intro i c hi hl
    rw [child_isLeaf hi] at hl
    by_contra hno
    have hall : ∀ j, j ≠ i → ch j = .empty := by
      intro j hj
      by_contra hne
      exact hno ⟨j, hj, child_isSome.2 hne⟩
    cases hci : ch i with
    | empty => rw [hci] at hl; simp [VTree.isLeaf] at hl
    | node => rw [hci] at hl; simp [VTree.isLeaf] at hl
    | leaf v k x =>
      have hf : (List.finRange 16).filter (fun j => !(ch j).isEmpty) = [i] := by
        have e : ∀ j, (!(ch j).isEmpty) = decide (j = i) := by
          intro j
          by_cases hj : j = i
          · subst hj; simp [hci, VTree.isEmpty]
          · simp [hall j hj, VTree.isEmpty, hj]
        simp only [e]
        exact filter_finRange_eq i
      unfold finish at h
      rw [hf] at h
      simp [hci] at h

theorem child_of_version {H : Hasher D} {t : VTree D} {ver : Version} (hne : t ≠ .empty) (hv : t.version = ver) :
    ∃ ty, t.child H = some ⟨(t.toNode H).hash H, ver, ty⟩ ∧ (t.toNode H).nodeType = .ok ty := by
  subst hv
  cases t with
  | empty => exact absurd rfl hne
  | leaf v2 k2 x2 => exact ⟨.leaf, by simp [VTree.child, toNode, Node.hash, LeafNode.hash], rfl⟩
  | node v2 m2 ch2 => exact ⟨_, by simp only [VTree.child, toNode, Node.hash, version_node], rfl⟩

theorem finishRest_spec (H : Hasher D) (ver : Version) (p : List Nibble) (hp : p.length < 64) (v : Version) (hv : v ≤ ver)
    (n0 : Node D) (hn0 : n0.isLeaf = false) (ch : Nibble → VTree D) (c : TreeCache D) (t : VTree D)
    (hroot : ∀ v', c.M ⟨v', p⟩ = if v' = ver ∧ v = ver then some n0 else none)
    (hold : v < ver → c.base ⟨v, p⟩ = some n0 ∧ ¬ c.S ⟨v, p⟩)
    (hch : ∀ j, Holds H ver c (p ++ [j]) (ch j)) :
    ∃ c', Tree.finishInternal.rest ⟨v, p⟩ ver (.ofFun (fun i => (ch i).child H)) c = .ok (c', resOf H ver p (finish ver ch)) ∧
      TreeCache.Same c c' ∧
      (∀ v q, c'.M ⟨v, p ++ q⟩ = if v = ver then (after t (finish ver ch)).at? H v q else none) ∧
      (∀ nk : NodeKey, ¬ p <+: nk.path → c'.M nk = c.M nk) ∧
      (∀ v1 path, c'.S ⟨v1, path⟩ ↔ c.S ⟨v1, path⟩ ∨ (v1 = v ∧ path = p ∧ v < ver) ∨
        ∃ j q, path = p ++ j :: q ∧ v1 < ver ∧ ((ch j).at? H v1 q).isSome = true ∧
          (after t (finish ver ch)).at? H v1 (j :: q) = none) ∧
      (TreeCache.StatsOk c → TreeCache.StatsOk c') := by
  obtain ⟨c1, d1, d2, d3, d4, d5⟩ := deleteRoot (c := c) (p := p) hv hroot hold (fun h => by rw [hn0] at h; cases h)
  rw [hn0] at d1
  have hM1 : ∀ v1 j q, c1.M ⟨v1, p ++ j :: q⟩ = if v1 = ver then (ch j).at? H v1 q else none := by
    intro v1 j q
    rw [d3, if_neg (by simp)]
    have := (hch j).M v1 q
    rw [List.append_assoc] at this
    exact this
  have hM1r : ∀ v1, c1.M ⟨v1, p⟩ = none := by intro v1; rw [d3]; simp
  unfold Tree.finishInternal.rest
  simp only [d1, Res.ok_bind, iterSorted_ofFun]
  have hmk : finish ver ch = .updated (.node ver true ch) → (∃ i, ch i ≠ .empty) →
      ∃ c', (do
        let newInternal ← InternalNode.new (.ofFun (fun i => (ch i).child H))
        let c ← c1.putNode (NodeKey.setVersion ⟨v, p⟩ ver) (.internal newInternal)
        (.ok (c, PutResult.updated ((NodeKey.setVersion ⟨v, p⟩ ver), Node.internal newInternal)) : Res _)) =
          .ok (c', resOf H ver p (finish ver ch)) ∧ TreeCache.Same c c' ∧
      (∀ v q, c'.M ⟨v, p ++ q⟩ = if v = ver then (after t (finish ver ch)).at? H v q else none) ∧
      (∀ nk : NodeKey, ¬ p <+: nk.path → c'.M nk = c.M nk) ∧
      (∀ v1 path, c'.S ⟨v1, path⟩ ↔ c.S ⟨v1, path⟩ ∨ (v1 = v ∧ path = p ∧ v < ver) ∨
        ∃ j q, path = p ++ j :: q ∧ v1 < ver ∧ ((ch j).at? H v1 q).isSome = true ∧
          (after t (finish ver ch)).at? H v1 (j :: q) = none) ∧
      (TreeCache.StatsOk c → TreeCache.StatsOk c') := by
    intro hf hne
    obtain ⟨c2, e1, e2, e3, e4, e5⟩ := TreeCache.putNode_spec (c := c1) (nk := ⟨ver, p⟩)
      (.internal (.ofFun true (fun i => (ch i).child H))) (hM1r ver)
    refine ⟨c2, ?_, d2.trans e2, ?_, ?_, ?_, fun hs => e5 (d5 hs)⟩
    · simp only [new_ofFun_finish hf hne, Res.ok_bind, NodeKey.setVersion, e1, hf, resOf, toNode]
    · intro v1 q
      rw [e3, hf]
      simp only [after]
      cases q with
      | nil =>
        rw [List.append_nil, hM1r, at?_node_nil]
        by_cases h1 : v1 = ver <;> simp [h1, toNode]
      | cons j q =>
        rw [hM1, at?_node_cons, if_neg (by simp)]
    · intro nk hnk
      rw [e3, if_neg, d3, if_neg]
      · have := notPrefix_ne (q := []) hnk; simpa using this
      · rintro rfl; exact hnk (List.prefix_refl _)
    · intro v1 path
      rw [e4, d4, hf]
      simp only [after, at?_node_cons, NodeKey.mk.injEq]
      apply or_congr_right
      constructor
      · rintro ⟨⟨rfl, rfl⟩, h2⟩; exact .inl ⟨rfl, rfl, h2⟩
      · rintro (⟨rfl, rfl, h⟩ | ⟨j, q, _, _, h1, h2⟩)
        · exact ⟨⟨rfl, rfl⟩, h⟩
        · rw [h2] at h1; simp at h1
  have hfst := csOf_map_fst H ch (List.finRange 16)
  match hcs : csOf H ch (List.finRange 16) with
  | [] =>
    rw [hcs] at hfst
    have hall : ∀ i, ch i = .empty := by
      intro i
      by_contra hne
      have : i ∈ (List.finRange 16).filter (fun i => !(ch i).isEmpty) := by
        rw [List.mem_filter]
        refine ⟨by simp, ?_⟩
        cases h : (ch i).isEmpty
        · rfl
        · exact absurd (isEmpty_iff.1 h) hne
      rw [← hfst] at this; simp at this
    have hf : finish ver ch = .removed := by unfold finish; rw [← hfst]; rfl
    refine ⟨c1, by simp [hf, resOf], d2, ?_, ?_, ?_, d5⟩
    · intro v1 q
      rw [hf]
      simp only [after, at?_empty]
      cases q with
      | nil => rw [List.append_nil, hM1r]; simp
      | cons j q => rw [hM1, hall j]; simp
    · intro nk hnk
      rw [d3, if_neg]
      have := notPrefix_ne (q := []) hnk; simpa using this
    · intro v1 path
      rw [d4]
      simp only [NodeKey.mk.injEq]
      apply or_congr_right
      constructor
      · rintro ⟨⟨rfl, rfl⟩, h2⟩; exact .inl ⟨rfl, rfl, h2⟩
      · rintro (⟨rfl, rfl, h⟩ | ⟨j, q, _, _, h1, h2⟩)
        · exact ⟨⟨rfl, rfl⟩, h⟩
        · rw [hall j] at h1; simp at h1
  | [(i, cc)] =>
    rw [hcs] at hfst
    obtain ⟨hci, -⟩ := csOf_single hcs
    have hall : ∀ j, j ≠ i → ch j = .empty := by
      intro j hj
      by_contra hne
      have : j ∈ (List.finRange 16).filter (fun i => !(ch i).isEmpty) := by
        rw [List.mem_filter]
        refine ⟨by simp, ?_⟩
        cases h : (ch j).isEmpty
        · rfl
        · exact absurd (isEmpty_iff.1 h) hne
      rw [← hfst] at this; simp at this; exact hj this
    simp only [child_isLeaf hci]
    cases hti : ch i with
    | empty => rw [hti] at hci; simp [VTree.child] at hci
    | node v2 m2 ch2 =>
      have hf : finish ver ch = .updated (.node ver true ch) := by
        unfold finish; rw [← hfst]; simp [hti]
      simp only [VTree.isLeaf, Bool.false_eq_true, if_false]
      exact hmk hf ⟨i, by simp [hti]⟩
    | leaf v2 k2 x2 =>
      have hf : finish ver ch = .updated (.leaf ver k2 x2) := by
        unfold finish; rw [← hfst]; simp [hti]
      have hver : cc.version = v2 := by
        rw [hti] at hci; simp only [VTree.child, Option.some.injEq] at hci; rw [← hci]
      have hhi := hch i
      rw [hti] at hhi
      -- the child after deletion of the parent
      have hhi1 : Holds H ver c1 (p ++ [i]) (.leaf v2 k2 x2) := by
        refine ⟨?_, ?_, hhi.le, fun h => d5 (hhi.stats h)⟩
        · intro v1 q
          rw [d3, if_neg (by simp)]; exact hhi.M v1 q
        · intro v1 q n hv1 hn
          obtain ⟨b1, b2⟩ := hhi.old v1 q n hv1 hn
          refine ⟨by rw [d2.base]; exact b1, ?_⟩
          rw [d4]
          rintro (h | ⟨h, _⟩)
          · exact b2 h
          · simp at h
      simp only [VTree.isLeaf, if_true, hver]
      rw [genChild_ok (nk := ⟨v, p⟩) hp]
      simp only [Res.ok_bind]
      have hget := TreeCache.getNode_of (hhi1.getNodeOption (by simp))
      simp only [version_leaf, toNode] at hget
      simp only [hget, Res.ok_bind]
      obtain ⟨c2, e1, e2, e3, e4, e5⟩ := hhi1.deleteRoot (by simp)
      simp only [version_leaf, VTree.isLeaf] at e1 e4
      simp only [e1, Res.ok_bind, NodeKey.setVersion]
      obtain ⟨c3, f1, f2, f3, f4, f5⟩ := TreeCache.putNode_spec (c := c2) (nk := ⟨ver, p⟩) (.leaf ⟨k2, x2⟩)
        (by rw [e3, if_neg (by simp)]; exact hM1r ver)
      simp only [f1, Res.ok_bind, Res.pure_eq, hf]
      refine ⟨c3, by simp [resOf, toNode], (d2.trans e2).trans f2, ?_, ?_, ?_, fun hs => f5 (e5 (d5 hs))⟩
      · intro v1 q
        rw [f3, e3]
        simp only [after, at?_leaf]
        cases q with
        | nil =>
          rw [List.append_nil]
          by_cases h1 : v1 = ver <;> simp [h1, hM1r]
        | cons j q =>
          rw [hM1]
          by_cases hj : j = i
          · subst hj
            rw [hti, at?_leaf]
            by_cases hq : q = [] <;> simp [hq]
          · rw [hall j hj]
            simp
      · intro nk hnk
        rw [f3, if_neg, e3, if_neg, d3, if_neg]
        · have := notPrefix_ne (q := []) hnk; simpa using this
        · exact notPrefix_ne hnk
        · rintro rfl; exact hnk (List.prefix_refl _)
      · intro v1 path
        rw [f4, e4, d4]
        simp only [after, NodeKey.mk.injEq, or_assoc]
        apply or_congr_right
        constructor
        · rintro (⟨⟨rfl, rfl⟩, h2⟩ | ⟨⟨rfl, rfl⟩, h2⟩)
          · exact .inl ⟨rfl, rfl, h2⟩
          · refine .inr ⟨i, [], rfl, h2, by simp [hti, at?_leaf], by simp [at?_leaf]⟩
        · rintro (⟨rfl, rfl, h⟩ | ⟨j, q, rfl, h0, h1, h2⟩)
          · exact .inl ⟨⟨rfl, rfl⟩, h⟩
          · right
            by_cases hj : j = i
            · subst hj
              rw [hti, at?_leaf] at h1
              split at h1
              · rename_i hh
                obtain ⟨rfl, rfl⟩ := hh
                exact ⟨⟨rfl, rfl⟩, h0⟩
              · simp at h1
            · rw [hall j hj] at h1; simp at h1
  | (i, cc) :: (j, cc') :: l =>
    rw [hcs] at hfst
    have hf : finish ver ch = .updated (.node ver true ch) := by
      unfold finish; rw [← hfst]; simp
    have hne : ch i ≠ .empty := by
      have : i ∈ (List.finRange 16).filter (fun i => !(ch i).isEmpty) := by rw [← hfst]; simp
      rw [List.mem_filter] at this
      intro h0; rw [h0] at this; simp [VTree.isEmpty] at this
    exact hmk hf ⟨i, hne⟩

/-- The update below `p` computes the pure update. -/
theorem insertAt_spec (H : Hasher D) (m : Bool) (ver : Version) (key : Key) (x : Option D) (t : VTree D) (p rest : List Nibble)
    (hk : key.nibbles = p ++ rest) (c : TreeCache D) (hw : WF p t) (ht : t ≠ .empty) (hc : Holds H ver c p t) :
    ∃ c', Tree.insertAt H m ver key x rest p ⟨t.version, p⟩ c = .ok (c', resOf H ver p (put ver m key x rest t)) ∧
      Step H ver p c t c' (after t (put ver m key x rest t)) := by
  have hl : p.length + rest.length = 64 := by rw [← List.length_append, ← hk]; simp
  induction t generalizing p rest c with
  | empty => exact absurd rfl ht
  | leaf v k' h' =>
    unfold Tree.insertAt
    rw [hc.getNodeOption ht]
    exact insertAtLeaf_spec H m ver key x p rest hk v k' h' c hw hc
  | node v mm ch ih =>
    have hplen := wf_node_length hw
    have hget := hc.getNodeOption ht
    cases rest with
    | nil => simp at hl; omega
    | cons i rest =>
      have hk2 : key.nibbles = (p ++ [i]) ++ rest := by rw [hk]; simp
      have hchild : ∀ j, Holds H ver c (p ++ [j]) (ch j) := by
        intro j
        refine ⟨?_, ?_, hc.le.2 j, fun _ => hc.stats ht⟩
        · intro v1 q
          have := hc.M v1 (j :: q)
          rw [at?_node_cons] at this
          rw [List.append_assoc]; exact this
        · intro v1 q n hv1 hn
          have := hc.old v1 (j :: q) n hv1 (by rw [at?_node_cons]; exact hn)
          rw [List.append_assoc]; exact this
      -- the recursive call (or the creation of a new leaf)
      have hrec : ∃ c1, (match (InternalNode.ofFun mm (fun j => (ch j).child H)).child i with
          | some child => do
            let childKey ← NodeKey.genChild ⟨v, p⟩ child.version i
            Tree.insertAt H m ver key x rest (p ++ [i]) childKey c
          | none =>
            match x with
            | some vh => do
              let newChildKey ← NodeKey.genChild ⟨v, p⟩ ver i
              let (c, r) ← Tree.createLeafNode newChildKey key vh c
              pure (c, PutResult.updated r)
            | none => pure (c, PutResult.notChanged) : Res _) =
            .ok (c1, resOf H ver (p ++ [i]) (put ver m key x rest (ch i))) ∧
          Step H ver (p ++ [i]) c (ch i) c1 (after (ch i) (put ver m key x rest (ch i))) := by
        have hcd : (InternalNode.ofFun mm (fun j => (ch j).child H)).child i = (ch i).child H := rfl
        rw [hcd]
        by_cases hne : ch i = .empty
        · rw [hne]
          simp only [VTree.child]
          cases x with
          | none =>
            refine ⟨c, by simp [put, resOf], ?_⟩
            have := Step.refl (hchild i)
            rw [hne] at this
            simpa [put, after] using this
          | some h =>
            simp only [put]
            rw [genChild_ok (nk := ⟨v, p⟩) hplen]
            have hM0 : c.M ⟨ver, p ++ [i]⟩ = none := by
              have := (hchild i).M ver []
              rw [List.append_nil, hne] at this
              simpa using this
            obtain ⟨c1, e1, e2, e3, e4, e5⟩ := TreeCache.putNode_spec (c := c) (nk := ⟨ver, p ++ [i]⟩) (.leaf ⟨key, h⟩) hM0
            refine ⟨c1, by simp [Tree.createLeafNode, e1, resOf, toNode], ⟨e2, ?_, ?_, ?_, e5⟩⟩
            · intro v1 q
              rw [e3, (hchild i).M, hne]
              simp only [after, at?_leaf]
              by_cases hv : v1 = ver
              · by_cases hq : q = [] <;> simp [hv, hq]
              · simp [hv]
            · intro nk hnk
              rw [e3, if_neg]
              rintro rfl; exact hnk (List.prefix_refl _)
            · intro v1 path
              rw [e4]
              simp
        · obtain ⟨cc, hcc⟩ := Option.isSome_iff_exists.1 ((child_isSome (H := H)).2 hne)
          have hver : cc.version = (ch i).version := by
            cases hci : ch i with
            | empty => exact absurd hci hne
            | leaf => rw [hci] at hcc; simp only [VTree.child, Option.some.injEq] at hcc; rw [← hcc]; rfl
            | node => rw [hci] at hcc; simp only [VTree.child, Option.some.injEq] at hcc; rw [← hcc]; rfl
          rw [hcc]
          simp only [hver]
          rw [genChild_ok (nk := ⟨v, p⟩) hplen]
          simp only [Res.ok_bind]
          exact ih i (p ++ [i]) rest hk2 c (hw.1 i) hne (hchild i) (by simp at hl ⊢; omega)
      obtain ⟨c1, r1, s1⟩ := hrec
      have hunf : Tree.insertAt H m ver key x (i :: rest) p ⟨v, p⟩ c =
          Tree.finishInternal H ⟨v, p⟩ (.ofFun mm (fun j => (ch j).child H)) ver i
            (resOf H ver (p ++ [i]) (put ver m key x rest (ch i))) c1 := by
        unfold Tree.insertAt
        simp only [version_node, toNode] at hget
        rw [hget]
        simp only
        refine Eq.trans ?_ (b := (.ok (c1, resOf H ver (p ++ [i]) (put ver m key x rest (ch i))) : Res _) >>= fun r =>
          Tree.finishInternal H ⟨v, p⟩ (.ofFun mm (fun j => (ch j).child H)) ver i r.2 r.1) ?_
        · rw [← r1]
          have hcd : (InternalNode.ofFun mm (fun j => (ch j).child H)).child i = (ch i).child H := rfl
          simp only [hcd]
          cases (ch i).child H with
          | some cc => simp only [Res.bind_assoc]
          | none => cases x <;> simp
        · rfl
      simp only [version_node]
      rw [hunf]
      have hput : put ver m key x (i :: rest) (.node v mm ch) = (match put ver m key x rest (ch i) with
        | .notChanged => .notChanged
        | .removed => finish ver (upd ch i .empty)
        | .updated t => finish ver (upd ch i t)) := by
        rw [put]; cases put ver m key x rest (ch i) <;> rfl
      rw [hput]
      -- after the child has been replaced by `t'`
      have hafter : ∀ t', Step H ver (p ++ [i]) c (ch i) c1 t' → VerLe ver t' →
          (∀ v1 q n, v1 < ver → t'.at? H v1 q = some n → (ch i).at? H v1 q = some n) →
          ∃ c', Tree.finishInternal.rest ⟨v, p⟩ ver (.ofFun (fun j => (upd ch i t' j).child H)) c1 =
              .ok (c', resOf H ver p (finish ver (upd ch i t'))) ∧
            Step H ver p c (.node v mm ch) c' (after (.node v mm ch) (finish ver (upd ch i t'))) := by
        intro t' st hle hsub
        have hfr : ∀ j q v1, j ≠ i → c1.M ⟨v1, p ++ j :: q⟩ = c.M ⟨v1, p ++ j :: q⟩ := by
          intro j q v1 hj
          apply st.frame
          intro hp
          simp only at hp
          rw [List.prefix_append_right_inj] at hp
          simp at hp; exact hj hp.symm
        have hroot1 : ∀ v1, c1.M ⟨v1, p⟩ = c.M ⟨v1, p⟩ := by
          intro v1
          apply st.frame
          intro hp
          have := hp.length_le
          simp at this
          omega
        have hh : ∀ j, Holds H ver c1 (p ++ [j]) (upd ch i t' j) := by
          intro j
          by_cases hj : j = i
          · subst hj
            rw [upd_same]
            refine ⟨st.M, ?_, hle, fun _ => st.stats (hc.stats ht)⟩
            intro v1 q n hv1 hn
            obtain ⟨b1, b2⟩ := (hchild j).old v1 q n hv1 (hsub v1 q n hv1 hn)
            refine ⟨by rw [st.same.base]; exact b1, ?_⟩
            rw [st.S]
            rintro (h | ⟨q', h1, h2, h3, h4⟩)
            · exact b2 h
            · rw [List.append_cancel_left_eq] at h1
              subst h1
              rw [hn] at h4; cases h4
          · rw [upd_ne _ _ hj]
            refine ⟨?_, ?_, (hchild j).le, fun _ => st.stats (hc.stats ht)⟩
            · intro v1 q
              have := hfr j q v1 hj
              rw [List.append_assoc]
              simp only [List.singleton_append]
              rw [this]
              have := (hchild j).M v1 q
              rwa [List.append_assoc] at this
            · intro v1 q n hv1 hn
              obtain ⟨b1, b2⟩ := (hchild j).old v1 q n hv1 hn
              refine ⟨by rw [st.same.base]; exact b1, ?_⟩
              rw [st.S]
              rintro (h | ⟨q', h1, h2, h3, h4⟩)
              · exact b2 h
              · simp only [List.append_assoc, List.append_cancel_left_eq, List.singleton_append, List.cons.injEq] at h1
                exact hj h1.1
        have hroot : ∀ v', c1.M ⟨v', p⟩ = if v' = ver ∧ v = ver then some (toNode H (.node v mm ch)) else none := by
          intro v'
          rw [hroot1]
          have := hc.M v' []
          rw [List.append_nil, at?_node_nil] at this
          rw [this]
          by_cases h1 : v' = ver
          · subst h1
            by_cases h2 : v' = v
            · simp [h2]
            · simp [h2, Ne.symm h2]
          · simp [h1]
        have hold : v < ver → c1.base ⟨v, p⟩ = some (toNode H (.node v mm ch)) ∧ ¬ c1.S ⟨v, p⟩ := by
          intro hlt
          have := hc.old v [] (toNode H (.node v mm ch)) hlt (by rw [at?_node_nil]; simp)
          rw [List.append_nil] at this
          refine ⟨by rw [st.same.base]; exact this.1, ?_⟩
          rw [st.S]
          rintro (h | ⟨q, h, _⟩)
          · exact this.2 h
          · simp at h
        obtain ⟨c', g1, g2, g3, g4, g5, g6⟩ := finishRest_spec H ver p hplen v hc.le.1 (toNode H (.node v mm ch)) rfl
          (upd ch i t') c1 (.node v mm ch) hroot hold hh
        refine ⟨c', g1, st.same.trans g2, g3, ?_, ?_, fun hs => g6 (st.stats hs)⟩
        · intro nk hnk
          rw [g4 nk hnk]
          apply st.frame
          intro h0
          exact hnk ((List.prefix_append p [i]).trans h0)
        · intro v1 path
          rw [g5, st.S, or_assoc]
          apply or_congr_right
          have hfin : ∀ v1 q, v1 < ver → (after (.node v mm ch) (finish ver (upd ch i t'))).at? H v1 q = none ∨
              ∃ j q', q = j :: q' ∧ ((upd ch i t' j).at? H v1 q').isSome = true := by
            intro v1 q hv1
            cases hh : (after (.node v mm ch) (finish ver (upd ch i t'))).at? H v1 q with
            | none => exact .inl rfl
            | some n =>
              obtain ⟨j, q', h1, h2⟩ := finish_old hv1 hh
              exact .inr ⟨j, q', h1, by rw [h2]; rfl⟩
          constructor
          · rintro (⟨q, rfl, h1, h2, h3⟩ | ⟨rfl, rfl, h1⟩ | ⟨j, q, rfl, h1, h2, h3⟩)
            · refine ⟨i :: q, by simp, h1, by rwa [at?_node_cons], ?_⟩
              rcases hfin v1 (i :: q) h1 with h | ⟨j, q', h, hs⟩
              · exact h
              · simp only [List.cons.injEq] at h
                obtain ⟨rfl, rfl⟩ := h
                rw [upd_same, h3] at hs; simp at hs
            · refine ⟨[], by simp, h1, by simp [at?_node_nil], ?_⟩
              rcases hfin v1 [] h1 with h | ⟨j, q', h, hs⟩
              · exact h
              · simp at h
            · refine ⟨j :: q, rfl, h1, ?_, h3⟩
              rw [at?_node_cons]
              by_cases hj : j = i
              · subst hj
                rw [upd_same] at h2
                obtain ⟨n, hn⟩ := Option.isSome_iff_exists.1 h2
                rw [hsub v1 q n h1 hn]; rfl
              · rwa [upd_ne _ _ hj] at h2
          · rintro ⟨q, rfl, h1, h2, h3⟩
            cases q with
            | nil =>
              rw [at?_node_nil] at h2
              split at h2
              · rename_i hv; subst hv
                exact .inr (.inl ⟨rfl, by simp, h1⟩)
              · simp at h2
            | cons j q =>
              rw [at?_node_cons] at h2
              by_cases hin : ((upd ch i t' j).at? H v1 q).isSome = true
              · exact .inr (.inr ⟨j, q, rfl, h1, hin, h3⟩)
              · by_cases hj : j = i
                · subst hj
                  rw [upd_same] at hin
                  exact .inl ⟨q, by simp, h1, h2, by simpa using hin⟩
                · rw [upd_ne _ _ hj] at hin
                  exact absurd h2 hin
      cases hr : put ver m key x rest (ch i) with
      | notChanged =>
        rw [hr] at s1
        simp only [resOf, Tree.finishInternal]
        refine ⟨c1, rfl, ?_⟩
        simp only [after] at s1 ⊢
        -- nothing changed in the child
        refine ⟨s1.same, ?_, ?_, ?_, s1.stats⟩
        · intro v1 q
          by_cases hp : p ++ [i] <+: p ++ q
          · rw [List.prefix_append_right_inj] at hp
            obtain ⟨q', rfl⟩ := hp
            have := s1.M v1 q'
            rw [List.append_assoc] at this
            rw [this]; simp [at?_node_cons]
          · rw [s1.frame _ hp, hc.M]
        · intro nk hnk
          exact s1.frame nk (fun h0 => hnk ((List.prefix_append p [i]).trans h0))
        · intro v1 path
          rw [s1.S]
          apply or_congr_right
          constructor
          · rintro ⟨q, _, _, h1, h2⟩; rw [h2] at h1; simp at h1
          · rintro ⟨q, _, _, h1, h2⟩; rw [h2] at h1; simp at h1
      | removed =>
        rw [hr] at s1
        obtain ⟨c', g1, g2⟩ := hafter .empty s1 trivial (by simp)
        refine ⟨c', Eq.trans ?_ g1, g2⟩
        simp only [resOf, Tree.finishInternal]
        congr 1
        have : (InternalNode.ofFun mm (fun j => (ch j).child H)).children = .ofFun (fun j => (ch j).child H) := rfl
        rw [this, Children.remove_ofFun, map_upd (fun t => VTree.child H t)]
        simp [VTree.child]
      | updated t' =>
        rw [hr] at s1
        have hsp := (put_spec (ver := ver) (m := m) (x := x) (ch i) (p ++ [i]) rest hk2 (hw.1 i)).2.2.2 t' hr
        have hle : VerLe ver t' := by
          have := verLe_put (m := m) (k := key) (x := x) (ch i) rest (hc.le.2 i)
          rw [hr] at this; exact this
        obtain ⟨c', g1, g2⟩ := hafter t' s1 hle (by
          intro v1 q n hv1 hn
          have := put_old (H := H) (m := m) (k := key) (x := x) hv1 (ch i) rest q (n := n)
          rw [hr] at this
          exact this hn)
        obtain ⟨ty, hcc, hnt⟩ := child_of_version (H := H) hsp.1 hsp.2
        refine ⟨c', Eq.trans ?_ g1, g2⟩
        simp only [resOf, Tree.finishInternal, hnt, Res.ok_bind]
        congr 1
        have : (InternalNode.ofFun mm (fun j => (ch j).child H)).children = .ofFun (fun j => (ch j).child H) := rfl
        rw [this, Children.insert_ofFun, map_upd (fun t => VTree.child H t), hcc]

end Verif.Jmt
