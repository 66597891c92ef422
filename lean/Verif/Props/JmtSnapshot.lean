import Verif.Proofs.Snapshot
import Verif.Props.JmtStore
import Verif.Props.JmtIter
/-! Property C79: a version is read the same while updates are written and nodes are pruned. -/

set_option autoImplicit false

namespace Verif.Props
open Verif Verif.Jmt Verif.Spec
variable {D : Type}

/-- What a reader of version `v` may find, at some time after the operations `ops`, while `v` has not been given up: the store after these and
further operations, with one more update partly written, or with one more pruning partly done. -/
def Moment (H : Hasher D) (v0 : Version) (ops : List Op) (v : Version) (r : Reader D) : Prop :=
  ∃ ops' s next s', ops <+: ops' ∧ Reached H v0 ops' s next ∧ r = s'.reader ∧
    ((Readable v0 ops' v ∧ ∃ (c : Call) (roots : List D) (b : TreeUpdateBatch D), Startable v0 (commitsOf ops' ++ c.op.commits) ∧
        c.compute H s next = .ok (roots, b) ∧ PartWritten s b s') ∨
     ∃ m, Readable v0 (ops' ++ [.purge m]) v ∧ PartPurged s m s')

/-- What one call may find that runs while the store is changed: every single lookup is answered as at some moment, different lookups perhaps at
different ones. -/
def View (H : Hasher D) (v0 : Version) (ops : List Op) (v : Version) (r : Reader D) : Prop :=
  (∀ nk, ∃ r', Moment H v0 ops v r' ∧ r.getNodeOption nk = r'.getNodeOption nk) ∧
  (∀ w k, ∃ r', Moment H v0 ops v r' ∧ r.getValueOption w k = r'.getValueOption w k)

theorem Moment.view {H : Hasher D} {v0 : Version} {ops : List Op} {v : Version} {r : Reader D} (h : Moment H v0 ops v r) : View H v0 ops v r :=
  ⟨fun _ => ⟨r, h, rfl⟩, fun _ _ => ⟨r, h, rfl⟩⟩

/-! #### Every moment holds the version -/

theorem holdsAt_reached {H : Hasher D} {v0 next : Version} {ops : List Op} {s : Store D} (h : Reached H v0 ops s next) {v : Version}
    (hv : Readable v0 ops v) : HoldsAt H s.reader v (contentsAt v0 ops v) (treeAt H v0 (commitsOf ops) v) :=
  ⟨(h.facts hv).root, (h.facts hv).value, reached_good h hv⟩

theorem sound_reached {H : Hasher D} {v0 next : Version} {ops : List Op} {s : Store D} (h : Reached H v0 ops s next) {v : Version}
    (hv : Readable v0 ops v) : Sound H v (contentsAt v0 ops v) (treeAt H v0 (commitsOf ops) v) := ⟨(h.facts hv).hold, (h.facts hv).ver⟩

theorem HoldsAt.sameBelow {H : Hasher D} {s s' : Store D} {v next : Version} {f : Key → Option Value} {t : VTree D}
    (h : HoldsAt H s.reader v f t) (hs : SameBelow next s s') (hv : v < next) (hle : VTree.VerLe v t) : HoldsAt H s'.reader v f t := by
  refine ⟨?_, ?_, h.good.wf, ?_, ?_⟩
  · exact (hs.nodes ⟨v, []⟩ hv).trans h.root
  · intro k
    exact (hs.values v k hv).trans (h.value k)
  · intro w q n hn
    have := VTree.at?_version_le hle hn
    exact (hs.nodes ⟨w, [] ++ q⟩ (by simp only; omega)).trans (h.good.has w q n hn)
  · intro w q l hl
    have := VTree.at?_version_le hle hl
    obtain ⟨h1, h2⟩ := h.good.value w q l hl
    exact ⟨(hs.values w _ (by omega)).trans h1, h2⟩

theorem HoldsAt.more {H : Hasher D} {r r' : Reader D} {v : Version} {f : Key → Option Value} {t : VTree D} (h : HoldsAt H r v f t)
    (hn : ∀ nk n, r.getNodeOption nk = some n → r'.getNodeOption nk = some n) (hv : r'.getValueOption = r.getValueOption) :
    HoldsAt H r' v f t :=
  ⟨hn _ _ h.root, fun k => by rw [hv]; exact h.value k, h.good.wf, fun w q n hh => hn _ _ (h.good.has w q n hh),
    fun w q l hl => by rw [hv]; exact h.good.value w q l hl⟩

theorem partPurged_below {H : Hasher D} {v0 next : Version} {ops : List Op} {s s' : Store D} (h : Reached H v0 ops s next) {m : Version}
    (hp : PartPurged s m s') : ∃ s2, Reached H v0 (ops ++ [.purge m]) s2 next ∧
      (∀ nk n, s2.nodes.get nk = some n → s'.nodes.get nk = some n) ∧ s'.valueHistory = s2.valueHistory := by
  obtain ⟨l, l', hl, he⟩ := hp
  obtain ⟨s2, e1, e2⟩ := h.purge m
  refine ⟨s2, e2, ?_⟩
  obtain ⟨rfl, hi⟩ := h.inv
  obtain ⟨s3, f1, f2, f3, f4, f5⟩ := hi.purge m
  rw [e1] at f1
  cases f1
  obtain ⟨s4, g1, hmem, g2⟩ := hi.purgeLoop_ok hl
  rw [he] at g1
  cases g1
  have hp2 : s.purgeStaleNodes m = .ok s2 := e1
  refine ⟨?_, ?_⟩
  · intro nk n hn
    rw [f3] at hn
    rw [g2, if_neg, ← hn]
    · split at hn
      · cases hn
      · rename_i hc; rw [if_neg hc]
    · intro hm
      obtain ⟨i, hi1, rfl⟩ := List.mem_map.1 hm
      obtain ⟨a, b⟩ := hmem i hi1
      rw [if_pos ⟨i, a, rfl, b⟩] at hn
      cases hn
  · have hv : ∀ (l : List StaleNodeIndex) (a b : Store D), Store.purgeLoop l a = .ok b → b.valueHistory = a.valueHistory := by
      intro l
      induction l with
      | nil => intro a b hab; cases hab; rfl
      | cons i l ih =>
        intro a b hab
        simp only [Store.purgeLoop] at hab
        cases hc : ensure ((a.nodes.get i.nodeKey).isSome) "Stale node index refers to non-existent node." with
        | error e => rw [hc] at hab; cases hab
        | ok u =>
          rw [hc] at hab
          exact (ih { a with nodes := a.nodes.erase i.nodeKey, staleNodes := a.staleNodes.erase i } b hab).trans rfl
    exact (hv _ _ _ he).trans (hv _ _ _ hp2).symm

theorem treeAt_prefix {H : Hasher D} {v0 v : Version} {ops ops' : List Op} (hp : ops <+: ops') (hv : v < v0 + (commitsOf ops).length) :
    treeAt H v0 (commitsOf ops') v = treeAt H v0 (commitsOf ops) v ∧ contentsAt v0 ops' v = contentsAt v0 ops v := by
  obtain ⟨x, rfl⟩ := hp
  have e : commitsOf (ops ++ x) = commitsOf ops ++ commitsOf x := by simp [commitsOf]
  constructor
  · unfold treeAt
    rw [e, List.take_append_of_le_length (by omega)]
  · unfold contentsAt
    rw [e, List.map_append, List.take_append_of_le_length (by simp; omega)]

theorem moment_holdsAt {H : Hasher D} {v0 : Version} {ops : List Op} {v : Version} (hv : v < v0 + (commitsOf ops).length) {r : Reader D}
    (h : Moment H v0 ops v r) : HoldsAt H r v (contentsAt v0 ops v) (treeAt H v0 (commitsOf ops) v) := by
  obtain ⟨ops', s, next, s', hp, hr, rfl, h⟩ := h
  obtain ⟨et, ec⟩ := treeAt_prefix (H := H) hp hv
  rw [← et, ← ec]
  rcases h with ⟨hv', c, roots, b, hs, hc, ws, ws', hw, ha⟩ | ⟨m, hv', hpp⟩
  · have hh := holdsAt_reached hr hv'
    obtain ⟨rfl, hi⟩ := hr.inv
    obtain ⟨roots', b', e1, e2⟩ := c.spec hi hs
    rw [hc] at e1
    cases e1
    have hfrom := hw.from e2
    refine HoldsAt.sameBelow hh (applyAll_below (fun w hm => hfrom w (List.mem_append_left _ hm)) ha) hv'.lt ?_
    exact (hi.inv.tree v hv'.ge hv'.lt).2.1
  · obtain ⟨s2, h2, h3, h4⟩ := partPurged_below hr hpp
    have hh := holdsAt_reached h2 hv'
    obtain ⟨et, ec⟩ := treeAt_prefix (H := H) (v0 := v0) (v := v) (ops := ops') (ops' := ops' ++ [.purge m]) ⟨_, rfl⟩
      (by have := hv'.lt; simpa [commitsOf, Op.commits] using this)
    rw [et, ec] at hh
    refine HoldsAt.more hh h3 ?_
    funext w k
    show s'.getValueOption w k = s2.getValueOption w k
    rw [getValueOption_eq, getValueOption_eq, h4]

theorem withValues_drop (f : Key → Option Value) (E : List (Key × D)) (i : Nat) (hE : ∀ e ∈ E, (f e.1).isSome = true) :
    withValues f (E.drop i) = (withValues f E).drop i := by
  induction E generalizing i with
  | nil => simp [withValues]
  | cons e E ih =>
    obtain ⟨x, hx⟩ := Option.isSome_iff_exists.1 (hE e (by simp))
    have hc : withValues f (e :: E) = (e.1, x) :: withValues f E := by
      unfold withValues
      rw [List.filterMap_cons_some (by rw [hx]; rfl)]
    cases i with
    | zero => rfl
    | succ i => rw [hc, List.drop_succ_cons, List.drop_succ_cons, ih i (fun e he => hE e (by simp [he]))]

theorem view_holdsAt {H : Hasher D} {v0 : Version} {ops : List Op} {v : Version} (hv : v < v0 + (commitsOf ops).length) {r : Reader D}
    (h : View H v0 ops v r) : HoldsAt H r v (contentsAt v0 ops v) (treeAt H v0 (commitsOf ops) v) := by
  obtain ⟨h1, h2⟩ := h
  have hwf : VTree.WF [] (treeAt H v0 (commitsOf ops) v) := by
    obtain ⟨r', m, _⟩ := h1 ⟨v, []⟩
    exact (moment_holdsAt hv m).good.wf
  refine ⟨?_, ?_, hwf, ?_, ?_⟩
  · obtain ⟨r', m, e⟩ := h1 ⟨v, []⟩
    exact e.trans (moment_holdsAt hv m).root
  · intro k
    obtain ⟨r', m, e⟩ := h2 v k
    exact e.trans ((moment_holdsAt hv m).value k)
  · intro w q n hn
    obtain ⟨r', m, e⟩ := h1 ⟨w, [] ++ q⟩
    exact e.trans ((moment_holdsAt hv m).good.has w q n hn)
  · intro w q l hl
    obtain ⟨r', m, e⟩ := h2 w l.keyHash
    obtain ⟨g1, g2⟩ := (moment_holdsAt hv m).good.value w q l hl
    exact ⟨e.trans g1, g2⟩

/-! ### C79 -/

/-- **C79.** While `v` has not been given up, `get_with_proof` at `v` gives the same value and the same proof whenever it is called, be it while an
update is being written or while other versions are pruned; and the value is the right one. -/
theorem C79_get_with_proof (H : Hasher D) (v0 next : Version) (ops : List Op) (s : Store D) (h : Reached H v0 ops s next) (v : Version)
    (hv : Readable v0 ops v) (k : Key) :
    ∃ p, (∀ L, Lists H (contentsAt v0 ops v) L → ∀ [DecidableEq D], p.verify H (smtRoot H L) k (contentsAt v0 ops v k) = .ok ()) ∧
      ∀ r, View H v0 ops v r → Tree.getWithProof H r k v = .ok (contentsAt v0 ops v k, p) := by
  refine ⟨_, ?_, fun r hr => (sound_reached h hv).getWithProof (view_holdsAt hv.lt hr) k⟩
  intro L hL _
  rw [← (h.facts hv).hash hL]
  exact proofOf_verify H (h.facts hv).hold k

/-- **C79** for `get_root_hash` and `get_leaf_count`. -/
theorem C79_root_hash (H : Hasher D) (v0 next : Version) (ops : List Op) (s : Store D) (h : Reached H v0 ops s next) (v : Version)
    (hv : Readable v0 ops v) (L : List (Key × D)) (hL : Lists H (contentsAt v0 ops v) L) (r : Reader D) (hr : View H v0 ops v r) :
    Tree.getRootHash H r v = .ok (smtRoot H L) ∧ Tree.getLeafCount true r v = .ok (some L.length) := by
  have hh := view_holdsAt hv.lt hr
  constructor
  · rw [Sound.getRootHash hh, (h.facts hv).hash hL]
  · unfold Tree.getLeafCount Tree.getRootNode NodeKey.newEmptyPath
    rw [hh.root, ← (lists_perm (h.facts hv).hold.lists hL).length_eq, ← toNode_leafCount H]
    rfl

/-- **C79** for `get_range_proof`. -/
theorem C79_range_proof (H : Hasher D) (v0 next : Version) (ops : List Op) (s : Store D) (h : Reached H v0 ops s next) (v : Version)
    (hv : Readable v0 ops v) (k : Key) (r : Reader D) (hr : View H v0 ops v r) :
    Tree.getRangeProof H r k v = Tree.getRangeProof H s.reader k v := by
  unfold Tree.getRangeProof
  rw [(sound_reached h hv).getWithProof (view_holdsAt hv.lt hr) k, (sound_reached h hv).getWithProof (holdsAt_reached h hv) k]

/-- **C79** for iterators. An iterator made at `v` yields the pairs of `v` from the given key on, in order, and then ends, however the store is
changed between the calls of `next`, as long as `v` is not given up. -/
theorem C79_iterate (H : Hasher D) (v0 next : Version) (ops : List Op) (s : Store D) (h : Reached H v0 ops s next) (v : Version)
    (hv : Readable v0 ops v) (k : Key) :
    ∃ it l, (∀ r, View H v0 ops v r → Iter.new r v k = .ok it) ∧ YieldsAll (View H v0 ops v) it l ∧
      Listing (fun k' => if k ≤ k' then contentsAt v0 ops v k' else none) l := by
  obtain ⟨it, e1, e2⟩ := (sound_reached h hv).newIter k
  refine ⟨it, _, fun r hr => e1 r (view_holdsAt hv.lt hr), e2.mono (fun r hr => view_holdsAt hv.lt hr), ?_, ?_⟩
  · exact withValues_sorted _ ((VTree.entries_sorted (h.facts hv).hold.1).filter _)
  · intro k' x
    have := mem_withValues (f := contentsAt v0 ops v) (E := geq k (treeAt H v0 (commitsOf ops) v).entries) (k := k') (x := x)
    unfold withValues at this
    rw [this]
    simp only [geq, List.mem_filter, decide_eq_true_eq]
    constructor
    · rintro ⟨h1, d, _, h2⟩; rw [if_pos h2]; exact h1
    · intro h1
      split at h1
      · rename_i h2
        exact ⟨h1, H.value x, ((h.facts hv).hold.2 k' _).2 (by rw [h1]; rfl), h2⟩
      · cases h1

/-- **C79** for iterators that start at an index. -/
theorem C79_iterate_index (H : Hasher D) (v0 next : Version) (ops : List Op) (s : Store D) (h : Reached H v0 ops s next) (v : Version)
    (hv : Readable v0 ops v) :
    ∃ l, Listing (contentsAt v0 ops v) l ∧ ∀ i, ∃ it, (∀ r, View H v0 ops v r → Iter.newByIndex r v i = .ok it) ∧
      YieldsAll (View H v0 ops v) it (l.drop i) := by
  refine ⟨withValues (contentsAt v0 ops v) (treeAt H v0 (commitsOf ops) v).entries, ⟨?_, ?_⟩, ?_⟩
  · exact withValues_sorted _ (VTree.entries_sorted (h.facts hv).hold.1)
  · intro k x
    rw [mem_withValues]
    constructor
    · rintro ⟨h1, _⟩; exact h1
    · intro h1; exact ⟨h1, H.value x, ((h.facts hv).hold.2 k _).2 (by rw [h1]; rfl)⟩
  · intro i
    obtain ⟨it, e1, e2⟩ := (sound_reached h hv).newByIndex i
    refine ⟨it, fun r hr => e1 r (view_holdsAt hv.lt hr), ?_⟩
    have := e2.mono (Q := View H v0 ops v) (fun r hr => view_holdsAt hv.lt hr)
    rw [← withValues_drop _ _ i]
    · exact this
    · exact fun e he => (sound_reached h hv).some he

/-- **C79**, the moments: the writing of an update goes through all its steps, in whatever order nodes and marks are written, and so does pruning; at
each step the versions that are not given up can be read. -/
theorem C79_moments (H : Hasher D) (v0 next : Version) (ops : List Op) (s : Store D) (h : Reached H v0 ops s next) (v : Version) :
    (Readable v0 ops v → ∀ c : Call, Startable v0 (commitsOf ops ++ c.op.commits) → ∃ roots b, c.compute H s next = .ok (roots, b) ∧
      ∀ ws ws', WritesOf b (ws ++ ws') → ∃ s', s.applyAll ws = .ok s' ∧ Moment H v0 ops v s'.reader) ∧
    (∀ m, Readable v0 (ops ++ [.purge m]) v → ∀ l l' : List StaleNodeIndex,
      (l ++ l').Perm (s.staleNodes.elems.filter (fun i => decide (i.staleSinceVersion ≤ m))) →
        ∃ s', Store.purgeLoop l s = .ok s' ∧ Moment H v0 ops v s'.reader) := by
  constructor
  · intro hv c hs
    obtain ⟨rfl, hi⟩ := h.inv
    obtain ⟨roots, b, e1, e2⟩ := c.spec hi hs
    refine ⟨roots, b, e1, ?_⟩
    intro ws ws' hw
    obtain ⟨s2, g⟩ := hi.applyAll_perm e2 hw
    rw [Store.applyAll_append] at g
    cases g1 : s.applyAll ws with
    | error e => rw [g1] at g; cases g
    | ok s' => exact ⟨s', rfl, ops, s, _, s', List.prefix_refl _, h, rfl, .inl ⟨hv, c, roots, b, hs, e1, ws, ws', hw, g1⟩⟩
  · intro m hv l l' hl
    obtain ⟨rfl, hi⟩ := h.inv
    obtain ⟨s', g1, _⟩ := hi.purgeLoop_ok hl
    exact ⟨s', g1, ops, s, _, s', List.prefix_refl _, h, rfl, .inr ⟨m, hv, l, l', hl, g1⟩⟩

/-- In the example, an iterator over version 2 that is continued in the middle of a write, and then in the middle of a pruning. -/
example : ∃ (s : Store Term) (roots : List Term) (b : TreeUpdateBatch Term), Reached termHasher 0 exOps s 3 ∧
    exCall.compute termHasher s 3 = .ok (roots, b) ∧ ∀ n j, ∃ s1 s2 it it' e, s.applyAll ((writesOf b).take n) = .ok s1 ∧
      Store.purgeLoop ((s.staleNodes.elems.filter (fun i => decide (i.staleSinceVersion ≤ 2))).take j) s = .ok s2 ∧
      Iter.new s1.reader 2 (key 2 0) = .ok it ∧ it.next s2.reader = .ok (some (.ok e), it') ∧ contentsAt 0 exOps 2 e.1 = some e.2 := by
  obtain ⟨s, h⟩ := exOps_reached
  obtain ⟨roots, b, e1, e2⟩ := (C79_moments _ _ _ _ _ h 2).1 exOps_readable2 exCall exCall_startable
  refine ⟨s, roots, b, h, e1, ?_⟩
  intro n j
  obtain ⟨s1, g1, g2⟩ := e2 _ ((writesOf b).drop n) (by rw [List.take_append_drop]; exact writesOf_writes b)
  obtain ⟨s2, g3, g4⟩ := (C79_moments _ _ _ _ _ h 2).2 2 ⟨by decide, by decide, .inr rfl⟩ _ (List.drop j _)
    (by rw [List.take_append_drop])
  obtain ⟨it, l, a1, a2, a3⟩ := C79_iterate _ _ _ _ _ h 2 exOps_readable2 (key 2 0)
  have m1 : (key 0x80 0, [5]) ∈ l := (a3.2 _ _).2 (by decide +kernel)
  cases a2 with
  | stop _ => cases m1
  | @step _ it' e l hs hl =>
    refine ⟨s1, s2, it, it', e, g1, g3, a1 _ g2.view, hs _ g4.view, ?_⟩
    have := (a3.2 e.1 e.2).1 (by simp)
    split at this
    · exact this
    · cases this

end Verif.Props
