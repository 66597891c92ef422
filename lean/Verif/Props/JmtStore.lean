import Verif.Proofs.Reach
import Verif.Proofs.Sub
import Verif.Props.Examples
/-! Properties C09, C11, C12, C13, C14, C49, C50: nodes, stale marks and pruning. -/

set_option autoImplicit false

namespace Verif.Props
open Verif Verif.Jmt Verif.Spec
variable {D : Type}

/-- A call of one of the two update functions. -/
inductive Call where
  | put (migration : Bool) (sets : List Tree.ValueSet)
  | batch (migration : Bool) (sets : List (List (Key × Value)))

/-- The call as an operation of a run (the call, followed by writing its batch). -/
def Call.op : Call → Op
  | .put m sets => .update m sets
  | .batch m sets => .batch m sets

/-- Number of versions the call creates. -/
def Call.count : Call → Nat
  | .put _ sets => sets.length
  | .batch _ sets => sets.length

/-- The result of the call at version `v` on the store `s`. -/
def Call.compute (H : Hasher D) (s : Store D) (v : Version) : Call → Res (List D × TreeUpdateBatch D)
  | .put m sets => Tree.putValueSets H m s.reader sets v
  | .batch m sets => Tree.batchPutValueSets H m s.reader sets none v

theorem Call.length (c : Call) : c.op.commits.length = c.count := by cases c <;> simp [Call.op, Op.commits, Call.count]

theorem Call.spec {H : Hasher D} {v0 lo : Version} {hist : List Commit} {s : Store D} (h : StoreInv H v0 hist lo s) (c : Call)
    (hs : Startable v0 (hist ++ c.op.commits)) :
    ∃ roots b, c.compute H s (v0 + hist.length) = .ok (roots, b) ∧ BatchSpec H v0 hist c.op.commits lo s roots b := by
  cases c with
  | put m sets => exact putValueSets_spec h m sets hs
  | batch m sets => obtain ⟨r, b, e1, e2, _⟩ := batchPutValueSets_spec h m sets hs; exact ⟨r, b, e1, e2⟩

/-! ### C13 -/

/-- **C13.** The node batch of an update at the versions `next, ..., next + n - 1` holds only node keys with these versions, none of
which is in the store; writing it succeeds and changes no node of the store. Partial: a first version above 0 that leaves no key is left out
(`Startable`), of which this is false (`C13_first_version_false`). -/
theorem C13_fresh_keys_partial (H : Hasher D) (v0 next : Version) (ops : List Op) (s : Store D) (h : Reached H v0 ops s next) (c : Call)
    (hs : Startable v0 (commitsOf ops ++ c.op.commits)) :
    ∃ roots b s', c.compute H s next = .ok (roots, b) ∧ s.writeTreeUpdateBatch b = .ok s' ∧
      (∀ nk, (b.nodeBatch.nodes.get nk).isSome = true → next ≤ nk.version ∧ nk.version < next + c.count ∧ s.nodes.get nk = none) ∧
      (∀ nk n, s.nodes.get nk = some n → s'.nodes.get nk = some n) ∧
      (∀ nk, nk.version < next → s'.nodes.get nk = s.nodes.get nk) := by
  obtain ⟨rfl, hi⟩ := h.inv
  obtain ⟨roots, b, e1, e2⟩ := c.spec hi hs
  obtain ⟨s', e3, e4, e5, _⟩ := hi.write e2
  have hold : ∀ nk n, s.nodes.get nk = some n → nk.version < v0 + (commitsOf ops).length := by
    rintro ⟨v, q⟩ n hn
    exact (hi.inv.dom v q n hn).2.1
  have hb : ∀ nk, nk.version < v0 + (commitsOf ops).length → b.nodeBatch.nodes.get nk = none := by
    intro nk hlt
    cases hg : b.nodeBatch.nodes.get nk with
    | none => rfl
    | some n => have := e2.fresh nk (by rw [hg]; rfl); omega
  refine ⟨roots, b, s', e1, e3, ?_, ?_, ?_⟩
  · rintro ⟨v, q⟩ hn
    have h1 := e2.fresh _ hn
    obtain ⟨n, hn⟩ := Option.isSome_iff_exists.1 hn
    have h2 := (e4.inv.dom v q n (by rw [e5, hn]; rfl)).2.1
    rw [List.length_append, Call.length] at h2
    refine ⟨h1, by simp only; omega, ?_⟩
    cases hg : s.nodes.get ⟨v, q⟩ with
    | none => rfl
    | some n' => have := hold _ _ hg; simp only at h1 this; omega
  · intro nk n hn
    rw [e5, hb nk (hold nk n hn), hn]; rfl
  · intro nk hlt
    rw [e5, hb nk hlt]; rfl

/-- **C13** fails for a store whose first version is neither 0 nor leaves a key: the update at version 5 writes a node of version 4. -/
theorem C13_first_version_false : ∃ roots b, Tree.putValueSets termHasher true (Store.empty (D := Term)).reader [[]] 5 = .ok (roots, b) ∧
    (b.nodeBatch.nodes.get ⟨4, []⟩).isSome = true := ⟨_, _, rfl, rfl⟩

/-- Two puts with the batch function, used in the examples. -/
def exCall : Call := .batch true [[(key 9 9, [1]), (key 9 8, [2])], [(key 1 2, [0])]]

theorem exCall_startable : Startable 0 (commitsOf exOps ++ exCall.op.commits) :=
  ⟨.inl rfl, by simp [exOps, commitsOf, Op.commits, exCall, Call.op]⟩

example : ∃ s roots b s', Reached termHasher 0 exOps s 3 ∧ exCall.compute termHasher s 3 = .ok (roots, b) ∧
    s.writeTreeUpdateBatch b = .ok s' ∧ ∀ nk n, s.nodes.get nk = some n → s'.nodes.get nk = some n := by
  obtain ⟨s, h⟩ := exOps_reached
  obtain ⟨roots, b, s', e1, e2, _, e3, _⟩ := C13_fresh_keys_partial _ _ _ _ _ h exCall exCall_startable
  exact ⟨s, roots, b, s', h, e1, e2, e3⟩

/-! ### C14 -/

/-- Node `nk` is a leaf in the store after the batch. -/
def isLeafIn (s : Store D) (b : TreeUpdateBatch D) (nk : NodeKey) : Bool :=
  match (b.nodeBatch.nodes.get nk).or (s.nodes.get nk) with
  | some n => n.isLeaf
  | none => false

/-- **C14**, counts: one entry of statistics per version; it counts the node keys of that version in the batch and how many of them are
leaves, and the stale marks recorded at that version and how many of them are marks of leaves. (Both lists are free of duplicates, so
lengths count node keys and marks.) -/
theorem C14_counts (H : Hasher D) (v0 next : Version) (ops : List Op) (s : Store D) (h : Reached H v0 ops s next) (c : Call)
    (hs : Startable v0 (commitsOf ops ++ c.op.commits)) :
    ∃ roots b, c.compute H s next = .ok (roots, b) ∧ b.nodeStats.length = c.count ∧
      (b.nodeBatch.nodes.entries.map Prod.fst).Nodup ∧ b.staleNodeIndexBatch.elems.Nodup ∧
      ∀ i st, b.nodeStats[i]? = some st →
        st.newNodes = (b.nodeBatch.nodes.entries.filter (fun e => decide (e.1.version = next + i))).length ∧
        st.newLeaves = (b.nodeBatch.nodes.entries.filter (fun e => decide (e.1.version = next + i) && e.2.isLeaf)).length ∧
        st.staleNodes = (b.staleNodeIndexBatch.elems.filter (fun j => decide (j.staleSinceVersion = next + i))).length ∧
        st.staleLeaves = (b.staleNodeIndexBatch.elems.filter (fun j => decide (j.staleSinceVersion = next + i) &&
          isLeafIn s b j.nodeKey)).length := by
  obtain ⟨rfl, hi⟩ := h.inv
  obtain ⟨roots, b, e1, e2⟩ := c.spec hi hs
  refine ⟨roots, b, e1, ?_, e2.nodup, e2.snodup, ?_⟩
  · rw [e2.stats, List.length_map, List.length_range, Call.length]
  · intro i st hst
    rw [e2.stats, List.getElem?_map, Option.map_eq_some_iff] at hst
    obtain ⟨j, hj, rfl⟩ := hst
    obtain ⟨hlt, hj⟩ := List.getElem?_eq_some_iff.1 hj
    rw [List.getElem_range] at hj
    subst hj
    simp only [← List.countP_eq_length_filter]
    refine ⟨?_, ?_, ?_, ?_⟩ <;> first | rfl | trivial

/-- The updates have no effect on the map `f`: they only delete absent keys. -/
def NoEffect (u : Updates) (f : Key → Option Value) : Prop := ∀ e ∈ u, e.2 = none ∧ f e.1 = none

/-- **C14**, leaf difference, as far as it holds: `new_leaves - stale_leaves` of a version is the change of the number of keys, unless the
version has no effect and the map has exactly one key. Full claim: without that exception. It fails there, see
`C14_single_leaf_copy`: the only leaf is copied to the new version and counted as new. -/
theorem C14_leaf_difference_partial (H : Hasher D) (v0 next : Version) (ops : List Op) (s : Store D) (h : Reached H v0 ops s next) (c : Call)
    (hs : Startable v0 (commitsOf ops ++ c.op.commits)) :
    ∃ roots b, c.compute H s next = .ok (roots, b) ∧ ∀ i cm L L', c.op.commits[i]? = some cm →
      Lists H (contents ((commitsOf ops ++ c.op.commits.take i).map Commit.updates)) L →
      Lists H (contents ((commitsOf ops ++ c.op.commits.take (i + 1)).map Commit.updates)) L' →
      ¬ (NoEffect cm.updates (contents ((commitsOf ops ++ c.op.commits.take i).map Commit.updates)) ∧ L.length = 1) →
      ∃ st, b.nodeStats[i]? = some st ∧ st.newLeaves + L.length = st.staleLeaves + L'.length := by
  obtain ⟨rfl, hi⟩ := h.inv
  obtain ⟨roots, b, e1, e2⟩ := c.spec hi hs
  refine ⟨roots, b, e1, ?_⟩
  intro i cm L L' hcm hL hL' hno
  obtain ⟨st, h1, h2⟩ := e2.leaf (v0 + (commitsOf ops).length + i) cm (by omega) (by
    rw [show v0 + (commitsOf ops).length + i - v0 = (commitsOf ops).length + i by omega, List.getElem?_append_right (by omega)]
    rw [← hcm]; congr 1; omega)
  rw [show v0 + (commitsOf ops).length + i - (v0 + (commitsOf ops).length) = i by omega] at h1
  have hb := holding_treeFold H v0 ((commitsOf ops ++ c.op.commits).take (v0 + (commitsOf ops).length + i - v0))
  have ha := holding_treeAt H v0 (commitsOf ops ++ c.op.commits) (v0 + (commitsOf ops).length + i)
  have t1 : (commitsOf ops ++ c.op.commits).take (v0 + (commitsOf ops).length + i - v0) = commitsOf ops ++ c.op.commits.take i := by
    rw [show v0 + (commitsOf ops).length + i - v0 = (commitsOf ops).length + i by omega, List.take_length_add_append]
  have t2 : (commitsOf ops ++ c.op.commits).take (v0 + (commitsOf ops).length + i + 1 - v0) =
      commitsOf ops ++ c.op.commits.take (i + 1) := by
    rw [show v0 + (commitsOf ops).length + i + 1 - v0 = (commitsOf ops).length + (i + 1) by omega, List.take_length_add_append]
  rw [t1] at hb h2
  rw [t2] at ha
  have l1 := (lists_perm hb.lists hL).length_eq
  have l2 := (lists_perm ha.lists hL').length_eq
  refine ⟨st, h1, ?_⟩
  rw [← l1, ← l2]
  apply h2.diff
  rintro ⟨hq, hl⟩
  apply hno
  refine ⟨?_, ?_⟩
  · intro e he
    obtain ⟨g1, g2⟩ := hq e he
    refine ⟨g1, ?_⟩
    cases hf : contents ((commitsOf ops ++ c.op.commits.take i).map Commit.updates) e.1 with
    | none => rfl
    | some x => exact absurd ((hb.2 e.1 (H.value x)).2 (by rw [hf]; rfl)) (g2 _)
  · rw [← l1]
    revert hl
    cases treeFold H v0 .empty (commitsOf ops ++ c.op.commits.take i) <;> simp [VTree.isLeaf, VTree.entries]

/-- **C14**, the exception: a version without effect on a map with exactly one key reports one new leaf and no stale leaf, although the
number of keys stays 1. -/
theorem C14_single_leaf_copy (H : Hasher D) (v0 next : Version) (ops : List Op) (s : Store D) (h : Reached H v0 ops s next) (c : Call)
    (hs : Startable v0 (commitsOf ops ++ c.op.commits)) :
    ∃ roots b, c.compute H s next = .ok (roots, b) ∧ ∀ i cm L, c.op.commits[i]? = some cm →
      Lists H (contents ((commitsOf ops ++ c.op.commits.take i).map Commit.updates)) L →
      NoEffect cm.updates (contents ((commitsOf ops ++ c.op.commits.take i).map Commit.updates)) → L.length = 1 →
      ∃ st, b.nodeStats[i]? = some st ∧ st.newLeaves = 1 ∧ st.staleLeaves = 0 := by
  obtain ⟨rfl, hi⟩ := h.inv
  obtain ⟨roots, b, e1, e2⟩ := c.spec hi hs
  refine ⟨roots, b, e1, ?_⟩
  intro i cm L hcm hL hno hlen
  obtain ⟨st, h1, h2⟩ := e2.leaf (v0 + (commitsOf ops).length + i) cm (by omega) (by
    rw [show v0 + (commitsOf ops).length + i - v0 = (commitsOf ops).length + i by omega, List.getElem?_append_right (by omega)]
    rw [← hcm]; congr 1; omega)
  rw [show v0 + (commitsOf ops).length + i - (v0 + (commitsOf ops).length) = i by omega] at h1
  have hb := holding_treeFold H v0 ((commitsOf ops ++ c.op.commits).take (v0 + (commitsOf ops).length + i - v0))
  have t1 : (commitsOf ops ++ c.op.commits).take (v0 + (commitsOf ops).length + i - v0) = commitsOf ops ++ c.op.commits.take i := by
    rw [show v0 + (commitsOf ops).length + i - v0 = (commitsOf ops).length + i by omega, List.take_length_add_append]
  rw [t1] at hb h2
  have l1 := (lists_perm hb.lists hL).length_eq
  refine ⟨st, h1, h2.copied ?_ ?_⟩
  · intro e he
    refine ⟨(hno e he).1, ?_⟩
    intro d hd
    have := (hb.2 e.1 d).1 hd
    rw [(hno e he).2] at this; cases this
  · rw [hlen] at l1
    have hw := hb.1
    revert l1 hw
    cases treeFold H v0 .empty (commitsOf ops ++ c.op.commits.take i) with
    | empty => intro l1; simp [VTree.entries] at l1
    | leaf => intro _ _; rfl
    | node v m ch =>
      intro l1 hw
      have := hw.2
      omega

/-- **C14** is false as stated: after inserting one key, an empty value set reports one new leaf and no stale leaf. -/
theorem C14_leaf_difference_false : ∃ roots b s' roots' b' st,
    Tree.putValueSets termHasher true (Store.empty (D := Term)).reader [[(key 1 1, some [1])]] 0 = .ok (roots, b) ∧
    Store.empty.writeTreeUpdateBatch b = .ok s' ∧ Tree.putValueSets termHasher true s'.reader [[]] 1 = .ok (roots', b') ∧
    b'.nodeStats = [st] ∧ st.newLeaves = 1 ∧ st.staleLeaves = 0 :=
  ⟨_, _, _, _, _, _, rfl, rfl, rfl, rfl, rfl, rfl⟩

example : ∃ s roots b, Reached termHasher 0 exOps s 3 ∧ exCall.compute termHasher s 3 = .ok (roots, b) ∧ b.nodeStats.length = 2 := by
  obtain ⟨s, h⟩ := exOps_reached
  obtain ⟨roots, b, e1, e2, _⟩ := C14_counts _ _ _ _ _ h exCall exCall_startable
  exact ⟨s, roots, b, h, e1, e2⟩

/-- The hypotheses of the partial theorem are met by the first set of `exCall`. -/
example : ∃ (s : Store Term) (roots : List Term) (b : TreeUpdateBatch Term) (st : NodeStats) (L L' : List (Key × Term)), Reached termHasher 0 exOps s 3 ∧ exCall.compute termHasher s 3 = .ok (roots, b) ∧
    b.nodeStats[0]? = some st ∧ st.newLeaves + L.length = st.staleLeaves + L'.length := by
  obtain ⟨s, h⟩ := exOps_reached
  obtain ⟨roots, b, e1, e2⟩ := C14_leaf_difference_partial _ _ _ _ _ h exCall exCall_startable
  obtain ⟨L, hL⟩ := lists_exists termHasher ((commitsOf exOps ++ exCall.op.commits.take 0).map Commit.updates)
  obtain ⟨L', hL'⟩ := lists_exists termHasher ((commitsOf exOps ++ exCall.op.commits.take 1).map Commit.updates)
  obtain ⟨st, e3, e4⟩ := e2 0 (.batch true [(key 9 9, [1]), (key 9 8, [2])]) L L' rfl hL hL' (by
    rintro ⟨h1, _⟩
    have := (h1 (key 9 9, some [1]) (by simp [Commit.updates])).1
    cases this)
  exact ⟨s, roots, b, st, L, L', h, e1, e3, e4⟩

/-! ### C09, C50 -/

/-- Commit the value sets one by one: `put_value_set`, write the batch, next version. Returns the root hashes and the final store. -/
def putEach (H : Hasher D) (m : Bool) : List Tree.ValueSet → Store D → Version → Res (List D × Store D)
  | [], s, _ => .ok ([], s)
  | set :: sets, s, v => do
    let (root, b) ← Tree.putValueSet H m s.reader set v
    let s ← s.writeTreeUpdateBatch b
    let (roots, s) ← putEach H m sets s (v + 1)
    .ok (root :: roots, s)

theorem putEach_spec {H : Hasher D} {v0 lo : Version} {s : Store D} (m : Bool) (sets : List Tree.ValueSet) (hist : List Commit)
    (h : StoreInv H v0 hist lo s) (hs : Startable v0 (hist ++ sets.map (.seq m))) :
    ∃ s', putEach H m sets s (v0 + hist.length) =
        .ok ((List.range sets.length).map (fun i => (treeAt H v0 (hist ++ sets.map (.seq m)) (v0 + hist.length + i)).hash H), s') ∧
      StoreInv H v0 (hist ++ sets.map (.seq m)) lo s' ∧
      (∀ nk, nk.version < v0 + hist.length → s'.nodes.get nk = s.nodes.get nk) := by
  induction sets generalizing s hist with
  | nil => exact ⟨s, rfl, by simpa using h, fun _ _ => rfl⟩
  | cons x sets ih =>
    have happ : hist ++ (x :: sets).map (Commit.seq m) = hist ++ [.seq m x] ++ sets.map (.seq m) := by simp
    rw [happ] at hs ⊢
    obtain ⟨roots, b, e1, e2⟩ := putValueSets_spec h m [x] (Startable.prefix hs)
    obtain ⟨s1, f1, f2, f3, _⟩ := h.write e2
    obtain ⟨s2, g1, g2, g3⟩ := ih (hist ++ [.seq m x]) f2 hs
    have hl : v0 + (hist ++ [Commit.seq m x]).length = v0 + hist.length + 1 := by simp; omega
    rw [hl] at g1 g3
    have hr : roots = [(treeAt H v0 (hist ++ [.seq m x]) (v0 + hist.length)).hash H] := e2.roots
    refine ⟨s2, ?_, g2, ?_⟩
    · subst hr
      simp only [putEach, Tree.putValueSet, e1, Res.ok_bind]
      rw [List.length_cons, List.range_succ_eq_map, List.map_cons, List.map_map]
      have : (treeAt H v0 (hist ++ [Commit.seq m x] ++ sets.map (.seq m)) (v0 + hist.length + 0)).hash H =
          (treeAt H v0 (hist ++ [.seq m x]) (v0 + hist.length)).hash H := by
        rw [Nat.add_zero, treeAt_append (by omega) (by simp)]
      rw [this]
      show (do let s ← s.writeTreeUpdateBatch b; _) = _
      rw [f1]
      simp only [Res.ok_bind, g1]
      congr 3
      apply List.map_congr_left
      intro i _
      simp only [Function.comp]
      congr 2
      omega
    · intro nk hlt
      rw [g3 nk (by omega), f3]
      cases hg : b.nodeBatch.nodes.get nk with
      | none => rfl
      | some n => have := e2.fresh nk (by rw [hg]; rfl); omega

theorem each_both {H : Hasher D} {v0 lo : Version} {hist : List Commit} {s : Store D} (h : StoreInv H v0 hist lo s) (m : Bool)
    (sets : List Tree.ValueSet) (hs : Startable v0 (hist ++ sets.map (.seq m))) :
    ∃ roots b s1 s2, Tree.putValueSets H m s.reader sets (v0 + hist.length) = .ok (roots, b) ∧ s.writeTreeUpdateBatch b = .ok s1 ∧
      putEach H m sets s (v0 + hist.length) = .ok (roots, s2) ∧ StoreInv H v0 (hist ++ sets.map (.seq m)) lo s1 ∧
      StoreInv H v0 (hist ++ sets.map (.seq m)) lo s2 ∧ s1.reader = s2.reader := by
  obtain ⟨roots, b, e1, e2⟩ := putValueSets_spec h m sets hs
  obtain ⟨s1, f1, f2, f3, _⟩ := h.write e2
  obtain ⟨s2, g1, g2, g3⟩ := putEach_spec m sets hist h hs
  refine ⟨roots, b, s1, s2, e1, f1, ?_, f2, g2, ?_⟩
  · rw [g1, e2.roots, List.length_map]
  · have hn : s1.nodes.get = s2.nodes.get := by
      funext ⟨v, q⟩
      by_cases hv : v < v0 + hist.length
      · rw [g3 _ hv, f3]
        cases hg : b.nodeBatch.nodes.get ⟨v, q⟩ with
        | none => rfl
        | some n => have := e2.fresh ⟨v, q⟩ (by rw [hg]; rfl); simp only at this; omega
      · have := h.inv.loLt
        exact StoreInv.get_eq f2 g2 v (by omega) q
    have hv : s1.getValueOption = s2.getValueOption := by
      funext w k
      rw [f2.getValueOption, g2.getValueOption]
    unfold Store.reader
    rw [hn, hv]

/-- **C09.** `put_value_sets` with several sets returns the root hashes of committing the sets one by one, and afterwards both stores
answer every `get_node_option` and every `get_value_option` alike (`Reader` has these two functions as its fields, and every other read is computed from
it). -/
theorem C09_multi_version (H : Hasher D) (v0 next : Version) (ops : List Op) (s : Store D) (h : Reached H v0 ops s next) (m : Bool)
    (sets : List Tree.ValueSet) (hs : Startable v0 (commitsOf ops ++ sets.map (.seq m))) :
    ∃ roots b s1 s2, Tree.putValueSets H m s.reader sets next = .ok (roots, b) ∧ s.writeTreeUpdateBatch b = .ok s1 ∧
      putEach H m sets s next = .ok (roots, s2) ∧
      (∀ nk, s1.reader.getNodeOption nk = s2.reader.getNodeOption nk) ∧
      (∀ v k, s1.reader.getValueOption v k = s2.reader.getValueOption v k) := by
  obtain ⟨rfl, hi⟩ := h.inv
  obtain ⟨roots, b, s1, s2, e1, e2, e3, _, _, e4⟩ := each_both hi m sets hs
  exact ⟨roots, b, s1, s2, e1, e2, e3, by simp [e4], by simp [e4]⟩

/-- **C50**, as far as it holds: the stale marks of nodes other than roots are the same whether the sets are committed at once or one by
one. Full claim: the same for all nodes; roots are the exception, see `C50_root_marks_false`. -/
theorem C50_stale_marks_partial (H : Hasher D) (v0 next : Version) (ops : List Op) (s : Store D) (h : Reached H v0 ops s next) (m : Bool)
    (sets : List Tree.ValueSet) (hs : Startable v0 (commitsOf ops ++ sets.map (.seq m))) :
    ∃ roots b s1 s2, Tree.putValueSets H m s.reader sets next = .ok (roots, b) ∧ s.writeTreeUpdateBatch b = .ok s1 ∧
      putEach H m sets s next = .ok (roots, s2) ∧
      ∀ i : StaleNodeIndex, i.nodeKey.path ≠ [] → (i ∈ s1.staleNodes ↔ i ∈ s2.staleNodes) := by
  obtain ⟨rfl, hi⟩ := h.inv
  obtain ⟨roots, b, s1, s2, e1, e2, e3, i1, i2, e4⟩ := each_both hi m sets hs
  refine ⟨roots, b, s1, s2, e1, e2, e3, ?_⟩
  have key : ∀ (a b : Store D), StoreInv H v0 (commitsOf ops ++ sets.map (.seq m)) (floorOf ops v0 v0) a →
      StoreInv H v0 (commitsOf ops ++ sets.map (.seq m)) (floorOf ops v0 v0) b →
      ∀ i : StaleNodeIndex, i.nodeKey.path ≠ [] → i ∈ a.staleNodes → i ∈ b.staleNodes := by
    rintro a b ha hb ⟨sv, ⟨v, q⟩⟩ hne hm
    obtain ⟨j, q, rfl⟩ := List.exists_cons_of_ne_nil hne
    obtain ⟨g1, g2, g3, g4, g5⟩ := ha.inv.stale sv v _ hm
    have g6 := ha.inv.wasIn sv v j q hm
    have g7 := g5 sv (Nat.le_refl _) g2
    rw [stored_cons] at g7
    have := hb.inv.complete (sv - 1) (by omega) (by omega) v j q g6 (by rw [show sv - 1 + 1 = sv by omega]; exact g7)
    rw [show sv - 1 + 1 = sv by omega] at this
    exact this
  intro i hne
  exact ⟨key _ _ i1 i2 i hne, key _ _ i2 i1 i hne⟩

/-- **C50** is false for roots: with an empty set in the middle, committing the three sets at once marks the root of version 0 stale since
version 2, committing them one by one marks the root of version 1 instead. -/
theorem C50_root_marks_false : ∃ roots b s1 s2,
    Tree.putValueSets termHasher true (Store.empty (D := Term)).reader [[(key 1 1, some [1])], [], [(key 1 1, some [2])]] 0 = .ok (roots, b) ∧
    Store.empty.writeTreeUpdateBatch b = .ok s1 ∧
    putEach termHasher true [[(key 1 1, some [1])], [], [(key 1 1, some [2])]] Store.empty 0 = .ok (roots, s2) ∧
    ⟨2, ⟨0, []⟩⟩ ∈ s1.staleNodes ∧ ⟨2, ⟨1, []⟩⟩ ∉ s1.staleNodes ∧
    ⟨2, ⟨0, []⟩⟩ ∉ s2.staleNodes ∧ ⟨2, ⟨1, []⟩⟩ ∈ s2.staleNodes :=
  ⟨_, _, _, _, rfl, rfl, rfl, by decide, by decide, by decide, by decide⟩

/-- Value sets used in the examples: insert and delete, nothing, and an overwrite. -/
def exSets : List Tree.ValueSet := [[(key 9 9, some [1]), (key 1 2, none)], [], [(key 9 9, some [2])]]

theorem exSets_startable : Startable 0 (commitsOf exOps ++ exSets.map (.seq true)) :=
  ⟨.inl rfl, by simp [exOps, commitsOf, Op.commits, exSets]⟩

example : ∃ s roots b s1 s2, Reached termHasher 0 exOps s 3 ∧ Tree.putValueSets termHasher true s.reader exSets 3 = .ok (roots, b) ∧
    s.writeTreeUpdateBatch b = .ok s1 ∧ putEach termHasher true exSets s 3 = .ok (roots, s2) ∧
    ∀ nk, s1.reader.getNodeOption nk = s2.reader.getNodeOption nk := by
  obtain ⟨s, h⟩ := exOps_reached
  obtain ⟨roots, b, s1, s2, e1, e2, e3, e4, _⟩ := C09_multi_version _ _ _ _ _ h true exSets exSets_startable
  exact ⟨s, roots, b, s1, s2, h, e1, e2, e3, e4⟩

example : ∃ s roots b s1 s2, Reached termHasher 0 exOps s 3 ∧ Tree.putValueSets termHasher true s.reader exSets 3 = .ok (roots, b) ∧
    s.writeTreeUpdateBatch b = .ok s1 ∧ putEach termHasher true exSets s 3 = .ok (roots, s2) ∧
    ∀ i : StaleNodeIndex, i.nodeKey.path ≠ [] → (i ∈ s1.staleNodes ↔ i ∈ s2.staleNodes) := by
  obtain ⟨s, h⟩ := exOps_reached
  obtain ⟨roots, b, s1, s2, e1, e2, e3, e4⟩ := C50_stale_marks_partial _ _ _ _ _ h true exSets exSets_startable
  exact ⟨s, roots, b, s1, s2, h, e1, e2, e3, e4⟩

/-! ### C11, C12, C49 -/

/-- The versions that are readable after `ops` and stay readable after pruning to `m`. -/
theorem readable_purge {v0 : Version} {ops : List Op} {v m : Version} (hv : Readable v0 ops v)
    (hm : m ≤ v ∨ v + 1 = v0 + (commitsOf ops).length) : Readable v0 (ops ++ [.purge m]) v := by
  have hc : commitsOf (ops ++ [.purge m]) = commitsOf ops := by simp [commitsOf, Op.commits]
  refine ⟨hv.ge, by rw [hc]; exact hv.lt, ?_⟩
  rw [hc]
  rcases hm with hm | hm
  · rcases hv.kept with hk | hk
    · left
      intro m' hm'
      rw [List.mem_append] at hm'
      rcases hm' with h | h
      · exact hk m' h
      · simp only [List.mem_singleton, Op.purge.injEq] at h; omega
    · exact .inr hk
  · exact .inr hm

/-- **C11.** Pruning to any version `m` succeeds, and every readable version `≥ m` (and the newest version in any case) gives the
answers it gave before: root hash, every value with its proof, leaf count; its nodes are all still there, unchanged. -/
theorem C11_pruning_safe (H : Hasher D) (v0 next : Version) (ops : List Op) (s : Store D) (h : Reached H v0 ops s next) (m : Version) :
    ∃ s', s.purgeStaleNodes m = .ok s' ∧ ∀ v, Readable v0 ops v → m ≤ v ∨ v + 1 = next →
      (∃ r, Tree.getRootHash H s.reader v = .ok r ∧ Tree.getRootHash H s'.reader v = .ok r) ∧
      (∀ k, ∃ r, Tree.getWithProof H s.reader k v = .ok r ∧ Tree.getWithProof H s'.reader k v = .ok r) ∧
      (∀ k, s'.reader.getValueOption v k = s.reader.getValueOption v k) ∧
      (∃ r, Tree.getLeafCount true s.reader v = .ok r ∧ Tree.getLeafCount true s'.reader v = .ok r) ∧
      (∀ nk, InTree s.nodes.get v nk ↔ InTree s'.nodes.get v nk) ∧
      (∀ nk, InTree s.nodes.get v nk → ∃ n, s.nodes.get nk = some n ∧ s'.nodes.get nk = some n) := by
  obtain ⟨s', e1, e2⟩ := Reached.purge h m
  refine ⟨s', e1, ?_⟩
  intro v hv hm
  rw [h.inv.1] at hm
  have hv' := readable_purge hv hm
  have hc : commitsOf (ops ++ [.purge m]) = commitsOf ops := by simp [commitsOf, Op.commits]
  have f1 := h.facts hv
  have f2 := e2.facts hv'
  have hct : contentsAt v0 (ops ++ [.purge m]) v = contentsAt v0 ops v := by unfold contentsAt; rw [hc]
  rw [hc, hct] at f2
  have i1 := Reached.inTree h hv
  have i2 := Reached.inTree e2 hv'
  rw [hc] at i2
  refine ⟨⟨_, f1.getRootHash, f2.getRootHash⟩, fun k => ⟨_, f1.getWithProof k, f2.getWithProof k⟩, ?_, ?_, ?_, ?_⟩
  · intro k; rw [f1.value, f2.value]
  · obtain ⟨L, hL⟩ := lists_exists H (((commitsOf ops).map Commit.updates).take (v + 1 - v0))
    exact ⟨_, f1.getLeafCount hL, f2.getLeafCount hL⟩
  · rintro ⟨w, q⟩; rw [i1, i2]
  · rintro ⟨w, q⟩ hin
    rw [i1] at hin
    obtain ⟨n, hn⟩ := Option.isSome_iff_exists.1 hin
    exact ⟨n, Reached.nodes h hv w q n hn, Reached.nodes e2 hv' w q n (by rw [hc]; exact hn)⟩

example : ∃ s s', Reached termHasher 0 exOps s 3 ∧ s.purgeStaleNodes 2 = .ok s' ∧
    ∃ r, Tree.getRootHash termHasher s.reader 2 = .ok r ∧ Tree.getRootHash termHasher s'.reader 2 = .ok r := by
  obtain ⟨s, h⟩ := exOps_reached
  obtain ⟨s', e1, e2⟩ := C11_pruning_safe _ _ _ _ _ h 2
  exact ⟨s, s', h, e1, (e2 2 exOps_readable2 (.inl (Nat.le_refl _))).1⟩

/-- **C12.** Every stale mark `⟨since, nk⟩` of a reachable store: the node is there; it was written before version `since`; it was part of
the tree of an earlier version, namely of version `since - 1` unless it is a root; it is in the tree of no version from `since` on; and
there is no second mark for the node. -/
theorem C12_stale_marks (H : Hasher D) (v0 next : Version) (ops : List Op) (s : Store D) (h : Reached H v0 ops s next)
    (i : StaleNodeIndex) (hi : i ∈ s.staleNodes) :
    (s.nodes.get i.nodeKey).isSome = true ∧ i.nodeKey.version < i.staleSinceVersion ∧ i.staleSinceVersion < next ∧
    (∃ u, u < i.staleSinceVersion ∧ InTree s.nodes.get u i.nodeKey) ∧
    (i.nodeKey.path ≠ [] → InTree s.nodes.get (i.staleSinceVersion - 1) i.nodeKey) ∧
    (∀ w, i.staleSinceVersion ≤ w → w < next → ¬ InTree s.nodes.get w i.nodeKey) ∧
    (∀ j ∈ s.staleNodes, j.nodeKey = i.nodeKey → j = i) := by
  obtain ⟨rfl, hs⟩ := h.inv
  obtain ⟨sv, ⟨v, q⟩⟩ := i
  obtain ⟨g1, g2, g3, g4, g5⟩ := hs.inv.stale sv v q hi
  have hin : q ≠ [] → InTree s.nodes.get (sv - 1) ⟨v, q⟩ := by
    intro hne
    obtain ⟨j, q, rfl⟩ := List.exists_cons_of_ne_nil hne
    rw [hs.inv.inTree (by omega) (by omega), stored_cons]
    exact hs.inv.wasIn sv v j q hi
  refine ⟨g4, g1, g2, ?_, hin, ?_, ?_⟩
  · by_cases hq : q = []
    · subst hq
      obtain ⟨n, hn⟩ := Option.isSome_iff_exists.1 g4
      exact ⟨v, g1, .root hn⟩
    · exact ⟨sv - 1, by simp only; omega, hin hq⟩
  · intro w h0 h1 hw
    rw [hs.inv.inTree (by simp only at h0; omega) h1, g5 w h0 h1] at hw
    cases hw
  · rintro ⟨sv', nk⟩ hj he
    simp only at he
    subst he
    have := hs.inv.uniq sv' sv _ hj hi
    rw [this]

/-- **C12**, nothing is missed: a node other than a root that is in the tree of a readable version and not in that of the next version is
marked stale since that next version. -/
theorem C12_marks_complete (H : Hasher D) (v0 next : Version) (ops : List Op) (s : Store D) (h : Reached H v0 ops s next) (w : Version)
    (hw : Readable v0 ops w) (hn : w + 1 < next) (nk : NodeKey) (hp : nk.path ≠ []) (h0 : InTree s.nodes.get w nk)
    (h1 : ¬ InTree s.nodes.get (w + 1) nk) : ⟨w + 1, nk⟩ ∈ s.staleNodes := by
  obtain ⟨v, q⟩ := nk
  obtain ⟨j, q, rfl⟩ := List.exists_cons_of_ne_nil hp
  rw [h.inTree hw, stored_cons] at h0
  obtain ⟨rfl, hs⟩ := h.inv
  have hlo : floorOf ops v0 v0 ≤ w := by
    rcases hw.kept with hk | hk
    · exact floorOf_le ops v0 v0 w hw.ge hk
    · omega
  rw [hs.inv.inTree (by omega) hn, stored_cons] at h1
  refine hs.inv.complete w hlo hn v j q h0 ?_
  simpa using h1

/-- **C12**, why roots are excepted: after an empty set in the middle of an update the root of version 0 is marked stale since version 2,
though it is not part of the tree of version 1. -/
theorem C12_root_mark : ∃ s next, Reached termHasher 0 [.update true [[(key 1 1, some [1])], [], [(key 1 1, some [2])]]] s next ∧
    ⟨2, ⟨0, []⟩⟩ ∈ s.staleNodes ∧ ¬ InTree s.nodes.get 1 ⟨0, []⟩ := by
  have hs : Startable 0 (commitsOf [Op.update true [[(key 1 1, some [1])], [], [(key 1 1, some [2])]]]) :=
    ⟨.inl rfl, by simp [commitsOf, Op.commits]⟩
  have hr : Reached termHasher 0 [.update true [[(key 1 1, some [1])], [], [(key 1 1, some [2])]]] _ _ := ⟨hs, rfl⟩
  refine ⟨_, _, hr, by decide, ?_⟩
  intro hin
  generalize he : (⟨0, []⟩ : NodeKey) = nk at hin
  cases hin with
  | root _ => cases he
  | child _ _ _ => simp at he

/-- There are stale marks, also of nodes that are not roots. -/
example : ∃ s, Reached termHasher 0 [.update true [[(key 1 1, some [1]), (key 0xF0 0, some [3])], [(key 1 1, some [2])]]] s 2 ∧
    ∃ i ∈ s.staleNodes, i.nodeKey.path ≠ [] ∧ i.staleSinceVersion = 1 :=
  ⟨_, ⟨⟨.inl rfl, by simp [commitsOf, Op.commits]⟩, rfl⟩, ⟨1, ⟨0, [0]⟩⟩, by decide, by decide, rfl⟩

/-- **C49**, as far as it holds: after pruning to `m` every node left in the store, unless it is a root, is part of the tree of some version `≥ m`
(of the newest version, when `m` is larger). Full claim: roots included; they are an exception, see `C49_root_copy_false`. -/
theorem C49_reclaimed_partial (H : Hasher D) (v0 next : Version) (ops : List Op) (s : Store D) (h : Reached H v0 ops s next) (m : Version) :
    ∃ s', s.purgeStaleNodes m = .ok s' ∧ ∀ nk, (s'.nodes.get nk).isSome = true → nk.path ≠ [] →
      ∃ w, min m (next - 1) ≤ w ∧ w < next ∧ InTree s'.nodes.get w nk := by
  obtain ⟨rfl, hi⟩ := h.inv
  obtain ⟨s', e1, e2, _⟩ := hi.purge m
  refine ⟨s', e1, ?_⟩
  rintro ⟨v, q⟩ hn hp
  obtain ⟨j, q, rfl⟩ := List.exists_cons_of_ne_nil hp
  obtain ⟨n, hn⟩ := Option.isSome_iff_exists.1 hn
  obtain ⟨w, g1, g2, g3⟩ := e2.inv.live v j q n hn
  refine ⟨w, ?_, g2, ?_⟩
  · unfold pruneFloor at g1; omega
  · rw [e2.inv.inTree g1 g2, stored_cons, g3]; rfl

/-- Insert a key, commit an empty version, overwrite the key. -/
def exCopy : List Op := [.update true [[(key 1 1, some [1])]], .update true [[]], .update true [[(key 1 1, some [2])]]]

/-- **C49** is false for roots: an empty version copies the root without marking the old one, so the root of version 0 survives pruning to
version 2 although it is in the tree of no version `≥ 2` (and never will be marked). -/
theorem C49_root_copy_false : ∃ s s', Reached termHasher 0 exCopy s 3 ∧ s.purgeStaleNodes 2 = .ok s' ∧
    (s'.nodes.get ⟨0, []⟩).isSome = true ∧ (∀ i ∈ s'.staleNodes.elems, i.nodeKey ≠ ⟨0, []⟩) ∧ ¬ InTree s'.nodes.get 2 ⟨0, []⟩ := by
  have hs : Startable 0 (commitsOf exCopy) := ⟨.inl rfl, by simp [commitsOf, Op.commits, exCopy]⟩
  obtain ⟨s, hr⟩ := Reached.exists termHasher hs
  have hd : (match runOps termHasher exCopy (Store.empty, 0) with
      | .ok (s, _) => (match s.purgeStaleNodes 2 with
        | .ok s' => (s'.nodes.get ⟨0, []⟩).isSome && s'.staleNodes.elems.all (fun i => decide (i.nodeKey ≠ ⟨0, []⟩))
        | .error _ => false)
      | .error _ => false) = true := by decide +kernel
  rw [hr.run] at hd
  obtain ⟨s', e1, _⟩ := Reached.purge hr 2
  simp only [e1, Bool.and_eq_true, List.all_eq_true, decide_eq_true_eq] at hd
  refine ⟨s, s', hr, e1, hd.1, hd.2, ?_⟩
  intro hin
  generalize he : (⟨0, []⟩ : NodeKey) = nk at hin
  cases hin with
  | root _ => cases he
  | child _ _ _ => simp at he

example : ∃ s s', Reached termHasher 0 exOps s 3 ∧ s.purgeStaleNodes 2 = .ok s' ∧ ∀ nk, (s'.nodes.get nk).isSome = true → nk.path ≠ [] →
    ∃ w, min 2 (3 - 1) ≤ w ∧ w < 3 ∧ InTree s'.nodes.get w nk := by
  obtain ⟨s, h⟩ := exOps_reached
  obtain ⟨s', e1, e2⟩ := C49_reclaimed_partial _ _ _ _ _ h 2
  exact ⟨s, s', h, e1, e2⟩

/-! ### C25 -/

/-- Key `k` is present in the map and lies below the path `q`. -/
def Below (f : Key → Option Value) (q : List Nibble) (k : Key) : Prop := (f k).isSome = true ∧ q <+: k.nibbles

/-- **C25.** Every node key in the tree of a readable version: its path has at most 64 nibbles and its version is at most the tree's; the node
exists; the null node only stands for the empty map, as the root; a leaf is the one present key below its path, with the hash of its value, and the path
is the shortest one with that property; an internal node has two different present keys below its path. -/
theorem C25_canonical (H : Hasher D) (v0 next : Version) (ops : List Op) (s : Store D) (h : Reached H v0 ops s next) (v : Version)
    (hv : Readable v0 ops v) (nk : NodeKey) (hin : InTree s.nodes.get v nk) :
    nk.path.length ≤ 64 ∧ nk.version ≤ v ∧ ∃ n, s.nodes.get nk = some n ∧
      match n with
      | .null => nk.path = [] ∧ ∀ k, contentsAt v0 ops v k = none
      | .leaf l =>
        (contentsAt v0 ops v l.keyHash).map H.value = some l.valueHash ∧
        (∀ k, Below (contentsAt v0 ops v) nk.path k ↔ k = l.keyHash) ∧
        ∀ q, q <+: nk.path → q ≠ nk.path → ∃ k, k ≠ l.keyHash ∧ Below (contentsAt v0 ops v) q k
      | .internal _ => ∃ k k', k ≠ k' ∧ Below (contentsAt v0 ops v) nk.path k ∧ Below (contentsAt v0 ops v) nk.path k' := by
  obtain ⟨w, q⟩ := nk
  have hin' := hin
  rw [h.inTree hv] at hin'
  obtain ⟨n, hn⟩ := Option.isSome_iff_exists.1 hin'
  have hget := h.nodes hv w q n hn
  have hf := (h.facts hv)
  have hle : VTree.VerLe v (treeAt H v0 (commitsOf ops) v) := by
    obtain ⟨rfl, hi⟩ := h.inv
    exact (hi.inv.tree v hv.ge hv.lt).2.1
  obtain ⟨hwf, hmem⟩ := hf.hold
  generalize treeAt H v0 (commitsOf ops) v = t at hn hwf hmem hle
  generalize hcont : contentsAt v0 ops v = f at hmem
  have hsome : ∀ k, (f k).isSome = true ↔ ∃ x, (k, x) ∈ t.entries := by
    intro k
    simp only [hmem]
    cases f k <;> simp
  by_cases he : t = .empty
  · subst he
    simp only [VTree.stored] at hn
    split at hn
    · rename_i hwq
      obtain ⟨rfl, rfl⟩ := hwq
      cases hn
      refine ⟨by simp, Nat.le_refl _, .null, hget, rfl, ?_⟩
      intro k
      have := hsome k
      cases hfk : f k with
      | none => rfl
      | some x => rw [hfk] at this; simp [VTree.entries] at this
    · cases hn
  · rw [stored_of_ne H he] at hn
    have hvle := VTree.at?_version_le hle hn
    rw [VTree.at?_sub] at hn
    obtain ⟨h1, h2, h3⟩ := hn
    have hws := VTree.wf_sub hwf q
    rw [List.nil_append] at hws
    have hbelow : ∀ e ∈ (t.sub q).entries, Below f q e.1 := by
      intro e he
      exact ⟨(hsome e.1).2 ⟨e.2, VTree.mem_sub he⟩, VTree.mem_entries_prefix hws (k := e.1) (x := e.2) he⟩
    have hback : ∀ k, Below f q k → ∃ x, (k, x) ∈ (t.sub q).entries := by
      rintro k ⟨hk1, hk2⟩
      obtain ⟨x, hx⟩ := (hsome k).1 hk1
      exact ⟨x, VTree.mem_sub_of hwf hx (by simpa using hk2) h1⟩
    have hne : (t.sub q).entries ≠ [] := by
      rw [Ne, VTree.entries_eq_nil hws]
      exact h1
    refine ⟨?_, hvle, n, hget, ?_⟩
    · obtain ⟨e, he⟩ := List.exists_mem_of_ne_nil _ hne
      have := (hbelow e he).2.length_le
      rwa [Key.nibbles_length] at this
    · cases hsub : t.sub q with
      | empty => exact absurd hsub h1
      | leaf v' k' x' =>
        rw [hsub] at h3 hbelow hback
        simp only [VTree.toNode] at h3
        subst h3
        simp only [VTree.entries, List.mem_singleton, forall_eq, Prod.mk.injEq] at hbelow hback
        refine ⟨?_, ?_, ?_⟩
        · rw [← hmem]
          apply VTree.mem_sub (q := q)
          rw [hsub]; simp [VTree.entries]
        · intro k
          constructor
          · intro hk; obtain ⟨x, rfl, _⟩ := hback k hk; rfl
          · rintro rfl; exact hbelow
        · intro q' hq' hne'
          obtain ⟨r, hr⟩ := hq'
          simp only at hr hne'
          cases r with
          | nil => exact absurd (by simpa using hr) hne'
          | cons i r =>
            have hq2 : q' ++ [i] <+: q := ⟨r, by rw [← hr]; simp⟩
            have hpne : t.sub (q' ++ [i]) ≠ .empty := by
              rw [show q = (q' ++ [i]) ++ r by rw [← hr]; simp] at h1
              intro hc
              rw [VTree.sub_append, hc] at h1
              simp at h1
            obtain ⟨v1, m1, ch, hnode, _⟩ := VTree.sub_parent hpne
            have hw1 := VTree.wf_sub hwf q'
            rw [List.nil_append] at hw1
            have hlen : 2 ≤ (t.sub q').entries.length := by rw [hnode] at hw1 ⊢; exact hw1.2
            have hnd := VTree.entries_nodup hw1
            have : ∃ e ∈ (t.sub q').entries, e.1 ≠ k' := by
              match hl : (t.sub q').entries, hlen with
              | a :: b :: l, _ =>
                rw [hl] at hnd
                simp only [List.map_cons, List.nodup_cons, List.mem_cons] at hnd
                by_cases ha : a.1 = k'
                · exact ⟨b, by simp, by rintro rfl; exact hnd.1 (.inl ha)⟩
                · exact ⟨a, by simp, ha⟩
            obtain ⟨e, he1, he2⟩ := this
            exact ⟨e.1, he2, (hsome e.1).2 ⟨e.2, VTree.mem_sub he1⟩, VTree.mem_entries_prefix hw1 (k := e.1) (x := e.2) he1⟩
      | node v' m' ch =>
        have hw1 := hws
        rw [hsub] at h3 hw1
        simp only [VTree.toNode] at h3
        subst h3
        have hlen : 2 ≤ (t.sub q).entries.length := by rw [hsub]; exact hw1.2
        have hnd := VTree.entries_nodup hws
        match hl : (t.sub q).entries, hlen with
        | a :: b :: l, _ =>
          rw [hl] at hnd hbelow
          simp only [List.map_cons, List.nodup_cons, List.mem_cons] at hnd
          exact ⟨a.1, b.1, fun hab => hnd.1 (.inl hab), hbelow a (by simp), hbelow b (by simp)⟩

/-- **C25**, nothing is missing: every key present in a readable version has its leaf in the tree, below a path of which the key's nibbles
are an extension. -/
theorem C25_every_key_has_leaf (H : Hasher D) (v0 next : Version) (ops : List Op) (s : Store D) (h : Reached H v0 ops s next) (v : Version)
    (hv : Readable v0 ops v) (k : Key) (x : Value) (hk : contentsAt v0 ops v k = some x) :
    ∃ nk, InTree s.nodes.get v nk ∧ s.nodes.get nk = some (.leaf ⟨k, H.value x⟩) ∧ nk.path <+: k.nibbles := by
  have hf := h.facts hv
  have hm := (hf.hold.2 k (H.value x)).2 (by rw [hk]; rfl)
  obtain ⟨q, w, h1, h2⟩ := VTree.exists_leaf hf.hold.1 hm
  have hne : treeAt H v0 (commitsOf ops) v ≠ .empty := by
    intro he; rw [he] at h1; simp at h1
  have hat : VTree.stored H v (treeAt H v0 (commitsOf ops) v) w q = some (.leaf ⟨k, H.value x⟩) := by
    rw [stored_of_ne H hne, VTree.at?_sub, h1]
    exact ⟨by simp, rfl, rfl⟩
  refine ⟨⟨w, q⟩, ?_, h.nodes hv w q _ hat, by simpa using h2⟩
  rw [h.inTree hv, hat]; rfl

/-- **C25**, one node per path: a readable version has at most one node key with a given path. -/
theorem C25_path_unique (H : Hasher D) (v0 next : Version) (ops : List Op) (s : Store D) (h : Reached H v0 ops s next) (v : Version)
    (hv : Readable v0 ops v) (w w' : Version) (q : List Nibble) (h1 : InTree s.nodes.get v ⟨w, q⟩) (h2 : InTree s.nodes.get v ⟨w', q⟩) :
    w = w' := by
  rw [h.inTree hv] at h1 h2
  by_cases he : treeAt H v0 (commitsOf ops) v = .empty
  · rw [he] at h1 h2
    simp only [VTree.stored] at h1 h2
    split at h1
    · split at h2
      · rename_i a b; rw [a.1, b.1]
      · cases h2
    · cases h1
  · rw [stored_of_ne H he] at h1 h2
    obtain ⟨n, h1⟩ := Option.isSome_iff_exists.1 h1
    obtain ⟨n', h2⟩ := Option.isSome_iff_exists.1 h2
    rw [VTree.at?_sub] at h1 h2
    rw [← h1.2.1, ← h2.2.1]

example : ∃ s nk, Reached termHasher 0 exOps s 3 ∧ InTree s.nodes.get 1 nk ∧
    s.nodes.get nk = some (.leaf ⟨key 1 2, .value [7]⟩) := by
  obtain ⟨s, h⟩ := exOps_reached
  obtain ⟨nk, h1, h2, _⟩ := C25_every_key_has_leaf _ _ _ _ _ h 1 exOps_readable1 (key 1 2) [7] (by decide +kernel)
  exact ⟨s, nk, h, h1, h2⟩

end Verif.Props
