import Verif.Proofs.Failing
import Verif.Proofs.Merge
import Verif.Proofs.Redo
/-! Updates and restorations with failing lookups. -/

set_option autoImplicit false

namespace Verif.Jmt
variable {D : Type} {α β : Type}
open Spec OrFail

namespace FReader
variable {r : FReader D} {P : String → Prop} (hP : ∀ m, Fails r m → P m)
include hP

theorem newCache_fail (v : Version) : OrFail P (r.newCache v) (.ok (TreeCache.new r.held v)) := by
  unfold FReader.newCache TreeCache.new
  dsimp only
  split_ifs
  · rcases option_fail hP (.newEmptyPath preGenesisVersion) with e | ⟨m, hm, e⟩
    · rw [e]
      cases r.held.getNodeOption (.newEmptyPath preGenesisVersion) <;> exact same
    · rw [e]; exact fail hm
  · exact same

theorem cachedOption_fail {c : TreeCache D} (hc : c.reader = r.held) (nk : NodeKey) : OrFail P (r.cachedOption c nk) (.ok (c.getNodeOption nk)) := by
  unfold FReader.cachedOption TreeCache.getNodeOption
  cases c.nodeCache.get nk with
  | some n => exact same
  | none =>
    simp only
    cases c.frozen.nodeCache.nodes.get nk with
    | some n => exact same
    | none => rw [hc]; exact option_fail hP nk

theorem cached_fail {c : TreeCache D} (hc : c.reader = r.held) (nk : NodeKey) : OrFail P (r.cached c nk) (c.getNode nk) := by
  unfold FReader.cached TreeCache.getNode
  cases c.nodeCache.get nk with
  | some n => exact same
  | none =>
    simp only
    cases c.frozen.nodeCache.nodes.get nk with
    | some n => exact same
    | none => rw [hc]; exact node_fail hP nk

theorem freeze_fail (H : Hasher D) {c : TreeCache D} (hc : c.reader = r.held) : OrFail P (r.freeze H c) (c.freeze H) := by
  unfold FReader.freeze TreeCache.freeze
  have h1 : OrFail P (r.freezeRoot c) c.freezeRoot := by
    unfold FReader.freezeRoot TreeCache.freezeRoot
    rcases cachedOption_fail hP hc c.rootNodeKey with e | ⟨m, hm, e⟩
    · rw [e]
      cases c.getNodeOption c.rootNodeKey <;> exact same
    · rw [e]; exact fail hm
  refine h1.bind (fun a ha => ?_)
  obtain ⟨c1, n⟩ := a
  refine OrFail.bind' ?_
  have hc1 : (c1.pushRoot (n.hash H)).reader = r.held := by
    have : c1.reader = c.reader := by
      unfold TreeCache.freezeRoot at ha
      split at ha
      · cases ha; rfl
      · obtain ⟨c2, h2, h3⟩ := Res.bind_ok ha
        cases h3
        exact putNode_reader h2
    exact this.trans hc
  unfold FReader.freezeCopy TreeCache.freezeCopy
  split_ifs
  · exact (cached_fail hP hc1 _).bind'
  · exact same

theorem finishInternal_fail (H : Hasher D) (nk : NodeKey) (n : InternalNode D) (ver : Version) (i : Nibble)
    (res : PutResult (NodeKey × Node D)) {c : TreeCache D} (hc : c.reader = r.held) :
    OrFail P (r.finishInternal H nk n ver i res c) (Tree.finishInternal H nk n ver i res c) := by
  have hrest : ∀ ch, OrFail P (FReader.finishInternal.rest r nk ver ch c) (Tree.finishInternal.rest nk ver ch c) := by
    intro ch
    unfold FReader.finishInternal.rest Tree.finishInternal.rest
    refine OrFail.bind same (fun c1 h1 => ?_)
    have hc1 : c1.reader = r.held := (deleteNode_reader h1).trans hc
    dsimp only
    cases ch.iterSorted with
    | nil => exact same
    | cons e l =>
      obtain ⟨j, child⟩ := e
      cases l with
      | cons => exact same
      | nil =>
        simp only
        split_ifs
        · exact OrFail.bind same (fun k _ => (cached_fail hP hc1 k).bind')
        · exact same
  unfold FReader.finishInternal Tree.finishInternal
  cases res with
  | notChanged => exact same
  | removed => exact hrest _
  | updated a => exact OrFail.bind same (fun _ _ => hrest _)

omit hP in
theorem insertAt_reader {H : Hasher D} {m : Bool} {ver : Version} {key : Key} {x : Option D} {rest visited : List Nibble} {nk : NodeKey}
    {c : TreeCache D} (hp : nk.path ≠ []) {a : TreeCache D × PutResult (NodeKey × Node D)} (h : Tree.insertAt H m ver key x rest visited nk c = .ok a) :
    a.1.reader = c.reader := by
  have h2 : Tree.insertAt H m ver key x rest visited nk c = .ok (onCache c.reader a) :=
    (insertAt_over (L := fun _ => False) H m ver key x rest visited nk c c.reader (fun _ _ h => h) (Within.self c) (.inl hp)).strict h
  rw [h] at h2
  rw [Except.ok.inj h2]; rfl

theorem insertAt_fail (H : Hasher D) (m : Bool) (ver : Version) (key : Key) (x : Option D) (rest visited : List Nibble) (nk : NodeKey)
    {c : TreeCache D} (hc : c.reader = r.held) :
    OrFail P (r.insertAt H m ver key x rest visited nk c) (Tree.insertAt H m ver key x rest visited nk c) := by
  induction rest generalizing visited nk c with
  | nil =>
    unfold FReader.insertAt Tree.insertAt
    rcases cachedOption_fail hP hc nk with e | ⟨m, hm, e⟩
    · rw [e]
      cases c.getNodeOption nk with
      | none => exact same
      | some n => cases n <;> exact same
    · rw [e]; exact fail hm
  | cons i rest ih =>
    unfold FReader.insertAt Tree.insertAt
    rcases cachedOption_fail hP hc nk with e | ⟨m, hm, e⟩
    · rw [e]
      cases c.getNodeOption nk with
      | none => exact same
      | some n =>
        cases n with
        | leaf l => exact same
        | null => exact same
        | internal n =>
          simp only
          cases n.child i with
          | some ch =>
            simp only
            refine OrFail.bind same (fun k hk => ?_)
            refine (ih _ k hc).bind (fun a ha => ?_)
            exact finishInternal_fail hP H nk n ver i a.2 ((insertAt_reader (genChild_path hk) ha).trans hc)
          | none =>
            simp only
            cases x with
            | none => exact finishInternal_fail hP H nk n ver i .notChanged hc
            | some vh =>
              simp only
              refine OrFail.bind same (fun k hk => OrFail.bind same (fun a ha => ?_))
              refine finishInternal_fail hP H nk n ver i (.updated a.2) (Eq.trans ?_ hc)
              obtain ⟨c2, h2, h3⟩ := Res.bind_ok ha
              cases h3
              exact putNode_reader h2
    · rw [e]; exact fail hm

theorem put_fail (H : Hasher D) (m : Bool) (key : Key) (x : Option D) (ver : Version) {c : TreeCache D} (hc : c.reader = r.held) :
    OrFail P (r.put H m key x ver c) (Tree.put H m key x ver c) := by
  unfold FReader.put Tree.put
  refine (insertAt_fail hP H m ver key x _ _ _ hc).bind (fun a _ => ?_)
  obtain ⟨c1, res⟩ := a
  cases res <;> exact same

theorem putSet_fail (H : Hasher D) (m : Bool) (ver : Version) (s : Tree.ValueSet) {c : TreeCache D} (hc : c.reader = r.held) :
    OrFail P (r.putSet H m ver s c) (Tree.putSet H m ver s c) := by
  induction s generalizing c with
  | nil => exact same
  | cons e s ih =>
    obtain ⟨k, x⟩ := e
    unfold FReader.putSet Tree.putSet
    have hc' : (c.putValue ver k x).reader = r.held := hc
    exact (put_fail hP H m k _ ver hc').bind (fun c1 h1 => ih ((put_reader h1).trans hc'))

theorem putSets_fail (H : Hasher D) (m : Bool) (ver : Version) (sets : List Tree.ValueSet) {c : TreeCache D} (hc : c.reader = r.held) :
    OrFail P (r.putSets H m ver sets c) (Tree.putSets H m ver sets c) := by
  induction sets generalizing c ver with
  | nil => exact same
  | cons s sets ih =>
    unfold FReader.putSets Tree.putSets
    refine (putSet_fail hP H m ver s hc).bind (fun c1 h1 => ?_)
    have hc1 : c1.reader = r.held := ((putSet_same s (r := c.reader) (fun _ => rfl) h1).2).trans hc
    exact (freeze_fail hP H hc1).bind (fun c2 h2 => ih _ ((freeze_reader' h2).trans hc1))

theorem putValueSets_fail (H : Hasher D) (m : Bool) (sets : List Tree.ValueSet) (ver : Version) :
    OrFail P (r.putValueSets H m sets ver) (Tree.putValueSets H m r.held sets ver) := by
  unfold FReader.putValueSets Tree.putValueSets
  rcases newCache_fail hP ver with e | ⟨m, hm, e⟩
  · rw [e]
    exact (putSets_fail hP H m ver sets (new_reader' _ _)).bind'
  · rw [e]; exact fail hm

theorem putValueSet_fail (H : Hasher D) (m : Bool) (set : Tree.ValueSet) (ver : Version) :
    OrFail P (r.putValueSet H m set ver) (Tree.putValueSet H m r.held set ver) := by
  unfold FReader.putValueSet Tree.putValueSet
  refine (putValueSets_fail hP H m [set] ver).bind (fun a _ => ?_)
  obtain ⟨l, b⟩ := a
  cases l with
  | nil => exact same
  | cons x l => cases l <;> exact same

/-! the batch path -/

omit hP in
theorem batchChildren_fail (H : Hasher D) (hh : Option (Tree.HashCache D)) (ver : Version)
    (f g : Nibble → List (Key × D) → TreeCache D → Res (TreeCache D × (NodeKey × Node D)))
    (hf : ∀ i l c, c.reader = r.held → OrFail P (f i l c) (g i l c)) (hg : ∀ i l c a, g i l c = .ok a → a.1.reader = c.reader)
    (l : List (Nibble × List (Key × D))) (ch : Children D) {c : TreeCache D} (hc : c.reader = r.held) :
    OrFail P (Tree.batchChildren H hh ver f l ch c) (Tree.batchChildren H hh ver g l ch c) := by
  induction l generalizing ch c with
  | nil => exact same
  | cons e l ih =>
    obtain ⟨i, k⟩ := e
    unfold Tree.batchChildren
    refine (hf i k c hc).bind (fun a ha => ?_)
    obtain ⟨c1, nk, n⟩ := a
    exact OrFail.bind same (fun _ _ => OrFail.bind same (fun _ _ => ih _ ((hg i k c _ ha).trans hc)))

theorem batchInsertAt_fail (H : Hasher D) (m : Bool) (hh : Option (Tree.HashCache D)) (ver : Version) (h : Nat) (nk : NodeKey)
    (kvs : List (Key × D)) {c : TreeCache D} (hc : c.reader = r.held) :
    OrFail P (r.batchInsertAt H m hh ver h nk kvs c) (Tree.batchInsertAt H m hh ver h nk kvs c) := by
  induction h generalizing nk kvs c with
  | zero =>
    unfold FReader.batchInsertAt Tree.batchInsertAt
    refine OrFail.bind same (fun _ _ => (cached_fail hP hc nk).bind (fun n _ => ?_))
    cases n <;> exact same
  | succ h ih =>
    unfold FReader.batchInsertAt Tree.batchInsertAt
    refine OrFail.bind same (fun _ _ => (cached_fail hP hc nk).bind (fun n _ => ?_))
    cases n with
    | leaf l => exact same
    | null => exact same
    | internal n =>
      refine OrFail.bind same (fun c1 h1 => ?_)
      have hc1 : c1.reader = r.held := (deleteNode_reader h1).trans hc
      refine OrFail.bind' (batchChildren_fail H hh ver _ _ ?_ ?_ _ _ hc1)
      · intro i l c hc
        cases n.child i with
        | none => exact same
        | some child => exact OrFail.bind same (fun k _ => ih k l hc)
      · intro i l c a ha
        cases hch : n.child i with
        | none =>
          rw [hch] at ha
          obtain ⟨k, _, ha⟩ := Res.bind_ok ha
          exact (batchCreateSubtree_moves H m hh ver h k l).reader ha
        | some child =>
          rw [hch] at ha
          obtain ⟨k, _, ha⟩ := Res.bind_ok ha
          exact (batchInsertAt_moves H m hh ver h k l).reader ha

theorem batchPutSet_fail (H : Hasher D) (m : Bool) (hh : Option (Tree.HashCache D)) (ver : Version) (s : List (Key × Value)) {c : TreeCache D}
    (hc : c.reader = r.held) : OrFail P (r.batchPutSet H m hh ver s c) (Tree.batchPutSet H m hh ver s c) := by
  unfold FReader.batchPutSet Tree.batchPutSet
  refine OrFail.bind same (fun _ _ => ?_)
  have e2 := (foldl_putValue_over (r := c.reader) ver (Tree.sortDedup s) c).2
  dsimp only
  generalize (Tree.sortDedup s).foldl (fun c e => c.putValue ver e.1 (some e.2)) c = c0 at e2 ⊢
  refine (batchInsertAt_fail hP H m hh ver _ _ _ (e2.trans hc)).bind (fun a ha => ?_)
  obtain ⟨c1, nk, n⟩ := a
  exact freeze_fail hP H (((batchInsertAt_moves H m hh ver _ _ _).reader ha).trans (e2.trans hc))

theorem batchPutSets_fail (H : Hasher D) (m : Bool) (ver : Version) (l : List (List (Key × Value) × Option (Tree.HashCache D))) {c : TreeCache D}
    (hc : c.reader = r.held) : OrFail P (r.batchPutSets H m ver l c) (Tree.batchPutSets H m ver l c) := by
  induction l generalizing c ver with
  | nil => exact same
  | cons e l ih =>
    obtain ⟨s, hh⟩ := e
    unfold FReader.batchPutSets Tree.batchPutSets
    exact (batchPutSet_fail hP H m hh ver s hc).bind (fun c1 h1 => ih _ ((batchPutSet_reader h1).trans hc))

theorem batchPutValueSets_fail (H : Hasher D) (m : Bool) (sets : List (List (Key × Value))) (hashes : Option (List (Tree.HashCache D)))
    (ver : Version) : OrFail P (r.batchPutValueSets H m sets hashes ver) (Tree.batchPutValueSets H m r.held sets hashes ver) := by
  unfold FReader.batchPutValueSets Tree.batchPutValueSets
  dsimp only
  rcases newCache_fail hP ver with e | ⟨m, hm, e⟩
  · rw [e]
    exact (batchPutSets_fail hP H m ver _ (new_reader' _ _)).bind'
  · rw [e]; exact fail hm

/-! restore -/

theorem newRestore_fail (H : Hasher D) {s : Store D} (hs : r.held = s.reader) (ver : Version) (root : D) (m : Bool) :
    OrFail P (r.newRestore H s ver root m) (Restore.new H s ver root m) := by
  have hr : ∀ n nk, OrFail P (r.recoverStart n nk) (Restore.recoverStart r.held n nk) := by
    intro n
    induction n with
    | zero => intro nk; exact same
    | succ n ih =>
      intro nk
      unfold FReader.recoverStart Restore.recoverStart
      rcases option_fail hP nk with e | ⟨m, hm, e⟩
      · rw [e]
        cases r.held.getNodeOption nk with
        | none => exact same
        | some _ => exact OrFail.bind same (fun _ _ => ih _)
      · rw [e]; exact fail hm
  have hch : ∀ l info, OrFail P (r.recoverChildren H ver l info) (Restore.recoverChildren H r.held ver l info) := by
    intro l
    induction l with
    | nil => intro info; exact same
    | cons i l ih =>
      intro info
      unfold FReader.recoverChildren Restore.recoverChildren
      refine OrFail.bind same (fun ck _ => ?_)
      rcases option_fail hP ck with e | ⟨m, hm, e⟩
      · rw [e]
        cases r.held.getNodeOption ck with
        | none => exact ih _
        | some n =>
          cases n with
          | null => exact same
          | internal n => exact ih _
          | leaf l => exact ih _
      · rw [e]; exact fail hm
  have hl : ∀ n nk p acc, OrFail P (r.recoverLoop H ver n nk p acc) (Restore.recoverLoop H r.held ver n nk p acc) := by
    intro n
    induction n with
    | zero => intros; exact same
    | succ n ih =>
      intro nk p acc
      unfold FReader.recoverLoop Restore.recoverLoop
      cases p with
      | none =>
        refine (hch _ _).bind (fun info _ => ?_)
        dsimp only
        cases nk.path.getLast? with
        | none => exact same
        | some i => exact ih _ _ _
      | some p =>
        refine (hch _ _).bind (fun info _ => ?_)
        dsimp only
        cases nk.path.getLast? with
        | none => exact same
        | some i => exact ih _ _ _
  unfold FReader.newRestore Restore.new answer
  cases h : r.rightmostError with
  | some m => exact fail (hP m (.inr (.inr (.inr h))))
  | none =>
    cases s.getRightmostLeaf with
    | none => exact same
    | some a =>
      obtain ⟨nk, leaf⟩ := a
      refine OrFail.bind' (x := r.recoverPartialNodes H ver nk) (y := Restore.recoverPartialNodes H s.reader ver nk)
        (f := fun ps => Except.ok (Restore.mk s ver ps .empty (some leaf) 0 root m)) ?_
      unfold FReader.recoverPartialNodes Restore.recoverPartialNodes
      rw [← hs]
      exact OrFail.bind same (fun _ _ => OrFail.bind same (fun _ _ => (hr _ _).bind (fun _ _ => hl _ _ _ _)))

end FReader
end Verif.Jmt
