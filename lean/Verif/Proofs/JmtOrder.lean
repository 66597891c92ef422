import Verif.Proofs.JmtCacheOrder
import Verif.Proofs.PmtOrder
import Verif.Proofs.Run
import Verif.Proofs.Reads
import Verif.Proofs.RestoreContinue
/-! The order of the entries of the maps of a store does not matter. -/

set_option autoImplicit false

namespace Verif.Jmt
variable {D : Type}

/-- Two stores that cannot be told apart by asking for keys. -/
structure Store.Alike (s t : Store D) : Prop where
  nodes : ∀ nk, s.nodes.get nk = t.nodes.get nk
  history : ∀ k, s.valueHistory.get k = t.valueHistory.get k
  stale : ∀ i, i ∈ s.staleNodes ↔ i ∈ t.staleNodes
  flag : s.allowOverwrite = t.allowOverwrite
  nodup : s.nodes.NodupKeys
  hnodup : s.valueHistory.NodupKeys
  snodup : s.staleNodes.elems.Nodup

theorem get_of_perm {A B : Type} [DecidableEq A] {l l' : List (A × B)} (hp : l'.Perm l) (h : (⟨l⟩ : FMap A B).NodupKeys) :
    (⟨l'⟩ : FMap A B).NodupKeys ∧ ∀ k, (⟨l'⟩ : FMap A B).get k = (⟨l⟩ : FMap A B).get k := by
  have hn : (⟨l'⟩ : FMap A B).NodupKeys := (hp.map Prod.fst).nodup_iff.2 h
  refine ⟨hn, ?_⟩
  intro k
  apply Option.ext
  intro y
  rw [← FMap.mem_iff_get hn, ← FMap.mem_iff_get h]
  exact hp.mem_iff

theorem Store.Alike.shuffle {s t : Store D} (h : Store.Alike s t) {f : Shuffle D} (hf : f.Ok) : Store.Alike (f.store s) t := by
  obtain ⟨a1, a2⟩ := get_of_perm (hf.nodes s.nodes.entries) h.nodup
  obtain ⟨b1, b2⟩ := get_of_perm (hf.history s.valueHistory.entries) h.hnodup
  exact ⟨fun nk => (a2 nk).trans (h.nodes nk), fun k => (b2 k).trans (h.history k), fun i => (hf.stale s.staleNodes.elems).mem_iff.trans (h.stale i),
    h.flag, a1, b1, (hf.stale _).nodup_iff.2 h.snodup⟩

theorem Store.Alike.reader {s t : Store D} (h : Store.Alike s t) : s.reader = t.reader := by
  unfold Store.reader
  have h1 : s.nodes.get = t.nodes.get := funext h.nodes
  have h2 : s.getValueOption = t.getValueOption := by
    funext v k; unfold Store.getValueOption; rw [h.history]
  rw [h1, h2]

theorem Store.Alike.inv {s t : Store D} (h : Store.Alike s t) {H : Hasher D} {v0 lo : Version} {hist : List Commit} (ht : StoreInv H v0 hist lo t) :
    StoreInv H v0 hist lo s :=
  ⟨ht.inv.congrN h.nodes (fun _ _ => h.stale _), h.nodup, h.snodup, fun k => by unfold vhGet; rw [h.history]; exact ht.values k, h.hnodup⟩

theorem putValueHistory_alike {a b b' : FMap Key (List (Version × Option Value))} (h : ∀ k, a.get k = b.get k) {v : Version} {k : Key}
    {x : Option Value} (hb : Store.putValueHistory b v k x = .ok b') : ∃ a', Store.putValueHistory a v k x = .ok a' ∧ ∀ k, a'.get k = b'.get k := by
  unfold Store.putValueHistory at hb ⊢
  rw [h]
  have hset : ∀ l k', (a.set k l).get k' = (b.set k l).get k' := by intro l k'; rw [FMap.get_set, FMap.get_set, h]
  split at hb
  · split at hb
    · split at hb
      · cases hb
      · split at hb
        · cases hb; rename_i h1 h2; rw [if_neg h1, if_pos h2]; exact ⟨_, rfl, hset _⟩
        · cases hb; rename_i h1 h2; rw [if_neg h1, if_neg h2]; exact ⟨_, rfl, hset _⟩
    · cases hb; exact ⟨_, rfl, hset _⟩
  · cases hb; exact ⟨_, rfl, hset _⟩

theorem writeValues_alike (l : List ((Version × Key) × Option Value)) {a b b' : FMap Key (List (Version × Option Value))} (h : ∀ k, a.get k = b.get k)
    (hb : Store.writeValues l b = .ok b') : ∃ a', Store.writeValues l a = .ok a' ∧ ∀ k, a'.get k = b'.get k := by
  induction l generalizing a b with
  | nil => cases hb; exact ⟨a, rfl, h⟩
  | cons e t ih =>
    obtain ⟨⟨v, k⟩, x⟩ := e
    unfold Store.writeValues at hb
    obtain ⟨b1, h1, hb⟩ := Res.bind_ok hb
    obtain ⟨a1, f1, f2⟩ := putValueHistory_alike h h1
    obtain ⟨a2, g1, g2⟩ := ih f2 hb
    exact ⟨a2, by unfold Store.writeValues; rw [f1]; exact g1, g2⟩

/-- What a successful write does to the value history. -/
theorem writeTree_history {s s' : Store D} {b : TreeUpdateBatch D} (h : s.writeTreeUpdateBatch b = .ok s') :
    Store.writeValues b.nodeBatch.values.entries s.valueHistory = .ok s'.valueHistory := by
  unfold Store.writeTreeUpdateBatch at h
  obtain ⟨s1, h1, h⟩ := Res.bind_ok h
  obtain ⟨st, h2, h⟩ := Res.bind_ok h
  cases h
  unfold Store.writeNodeBatch at h1
  obtain ⟨n, h3, h1⟩ := Res.bind_ok h1
  obtain ⟨vh, h4, h1⟩ := Res.bind_ok h1
  cases h1
  exact h4

theorem purge_history {l : List StaleNodeIndex} {s s' : Store D} (h : Store.purgeLoop l s = .ok s') : s'.valueHistory = s.valueHistory := by
  induction l generalizing s with
  | nil => cases h; rfl
  | cons i t ih =>
    unfold Store.purgeLoop at h
    obtain ⟨_, _, h⟩ := Res.bind_ok h
    have := ih h
    exact this

theorem TreeUpdateBatch.Same.shuffle {b b' : TreeUpdateBatch D} (h : TreeUpdateBatch.Same b b') {f : Shuffle D} (hf : f.Ok) :
    TreeUpdateBatch.Same b (f.batch b') :=
  ⟨h.nodup, (hf.newNodes _).trans h.nodes, h.values, h.snodup, (hf.newStale _).trans h.stale, h.stats⟩

theorem BatchSpec.same {H : Hasher D} {v0 lo : Version} {hist new : List Commit} {s : Store D} {roots : List D} {b b' : TreeUpdateBatch D}
    (hb : BatchSpec H v0 hist new lo s roots b) (hf : TreeUpdateBatch.Same b b') :
    BatchSpec H v0 hist new lo s roots b' ∧ (∀ nk, b'.nodeBatch.nodes.get nk = b.nodeBatch.nodes.get nk) ∧
      ∀ i, i ∈ b'.staleNodeIndexBatch ↔ i ∈ b.staleNodeIndexBatch := by
  obtain ⟨a1, a2⟩ := get_of_perm hf.nodes hb.nodup
  have a2 : ∀ nk, b'.nodeBatch.nodes.get nk = b.nodeBatch.nodes.get nk := a2
  have a3 : ∀ i, i ∈ b'.staleNodeIndexBatch ↔ i ∈ b.staleNodeIndexBatch := fun i => hf.stale.mem_iff
  refine ⟨⟨?_, a1, ?_, hf.stale.nodup_iff.2 hb.snodup, ?_, by rw [hf.values]; exact hb.vsorted, by rw [hf.values]; exact hb.vget, hb.roots, by rw [hf.stats]; exact hb.leaf, ?_⟩, a2, a3⟩
  · exact hb.inv.congrN (fun nk => by rw [a2]) (fun v nk => by rw [a3])
  · intro nk hnk; exact hb.fresh nk (by rw [← a2]; exact hnk)
  · intro i hi; exact hb.since i ((a3 i).1 hi)
  · rw [hf.stats, hb.stats]
    apply List.map_congr_left
    intro i _
    simp only [NodeStats.mk.injEq]
    refine ⟨?_, ?_, ?_, ?_⟩
    · exact (hf.nodes.countP_eq _).symm
    · exact (hf.nodes.countP_eq _).symm
    · exact (hf.stale.countP_eq _).symm
    · simp only [a2]
      exact (hf.stale.countP_eq _).symm

/-- Writing a batch in any order. -/
theorem Store.Alike.write {s t : Store D} (h : Store.Alike s t) {H : Hasher D} {v0 lo : Version} {hist new : List Commit} (ht : StoreInv H v0 hist lo t)
    {roots : List D} {b b' : TreeUpdateBatch D} (hb : BatchSpec H v0 hist new lo t roots b) (hf : TreeUpdateBatch.Same b b') {t' : Store D}
    (hw : t.writeTreeUpdateBatch b = .ok t') : ∃ s', s.writeTreeUpdateBatch b' = .ok s' ∧ Store.Alike s' t' := by
  obtain ⟨t1, e1, e2, e3, e4, e5⟩ := ht.write hb
  rw [hw] at e1
  obtain rfl := Except.ok.inj e1
  obtain ⟨g1, g2, g3⟩ := hb.same hf
  have hs := h.inv ht
  have hb' : BatchSpec H v0 hist new lo s roots b' := by
    refine ⟨g1.inv.congrN (fun nk => by rw [h.nodes]) (fun v nk => by rw [h.stale]), g1.nodup, g1.fresh, g1.snodup, g1.since, g1.vsorted, g1.vget,
      g1.roots, g1.leaf, ?_⟩
    rw [g1.stats]
    simp only [h.nodes]
  obtain ⟨s', f1, f2, f3, f4, f5⟩ := hs.write hb'
  refine ⟨s', f1, ?_, ?_, ?_, by rw [f5, e5, h.flag], f2.nodup, f2.vnodup, f2.snodup⟩
  · intro nk; rw [f3, e3, g2, h.nodes]
  · obtain ⟨vh, k1, k2⟩ := writeValues_alike _ h.history (writeTree_history hw)
    have := writeTree_history f1
    have hk : Store.writeValues b.nodeBatch.values.entries s.valueHistory = .ok s'.valueHistory := by rw [← hf.values]; exact this
    rw [k1] at hk
    obtain rfl := Except.ok.inj hk
    exact k2
  · intro i; rw [f4, e4, g3, h.stale]

theorem Store.Alike.purge {s t : Store D} (h : Store.Alike s t) {H : Hasher D} {v0 lo : Version} {hist : List Commit} (ht : StoreInv H v0 hist lo t)
    (m : Version) {t' : Store D} (hw : t.purgeStaleNodes m = .ok t') : ∃ s', s.purgeStaleNodes m = .ok s' ∧ Store.Alike s' t' := by
  obtain ⟨t1, e1, e2, e3, e4, e5⟩ := ht.purge m
  rw [hw] at e1
  obtain rfl := Except.ok.inj e1
  obtain ⟨s', f1, f2, f3, f4, f5⟩ := (h.inv ht).purge m
  refine ⟨s', f1, ?_, ?_, ?_, by rw [f5, e5, h.flag], f2.nodup, f2.vnodup, f2.snodup⟩
  · intro nk; rw [f3, e3]; simp only [h.nodes, h.stale]
  · intro k; rw [purge_history f1, purge_history hw, h.history]
  · intro i; rw [f4, e4, h.stale]

/-- Every list of operations, in any orders. -/
theorem runOpsIn_alike {H : Hasher D} {v0 : Version} (ops : List (Shuffle D × Op)) (hf : ∀ x ∈ ops, x.1.Ok) {lo : Version} {hist : List Commit}
    {s t : Store D} (h : Store.Alike s t) (ht : StoreInv H v0 hist lo t) (hs : Resumable v0 hist (commitsOf (ops.map Prod.snd))) :
    ∃ s' t', runOpsIn H ops (s, v0 + hist.length) = .ok (s', v0 + (hist ++ commitsOf (ops.map Prod.snd)).length) ∧
      runOps H (ops.map Prod.snd) (t, v0 + hist.length) = .ok (t', v0 + (hist ++ commitsOf (ops.map Prod.snd)).length) ∧ Store.Alike s' t' := by
  induction ops generalizing hist lo s t with
  | nil => exact ⟨s, t, by simp [runOpsIn, commitsOf], by simp [runOps, commitsOf], h⟩
  | cons x ops ih =>
    obtain ⟨f, op⟩ := x
    have hfo : f.Ok := hf (f, op) (by simp)
    have hf' : ∀ x ∈ ops, x.1.Ok := fun x hx => hf x (by simp [hx])
    have hco : commitsOf (((f, op) :: ops).map Prod.snd) = op.commits ++ commitsOf (ops.map Prod.snd) := by simp [commitsOf]
    rw [hco] at hs
    rw [hco, ← List.append_assoc]
    have hsh := h.shuffle hfo
    cases op with
    | update m sets =>
      obtain ⟨roots, b, e1, e2⟩ := putValueSets_resume ht m sets hs.left
      obtain ⟨b', e1', e3⟩ : ∃ b', Tree.putValueSetsIn H m f.cache t.reader sets (v0 + hist.length) = .ok (roots, b') ∧ TreeUpdateBatch.Same b b' := by
        have := putValueSetsIn_same H m f.cache hfo.cache t.reader sets (v0 + hist.length)
        rw [e1] at this
        exact this.of_ok
      obtain ⟨t1, f1, f2, _⟩ := ht.write e2
      obtain ⟨s1, k1, k2⟩ := hsh.write ht e2 (e3.shuffle hfo) f1
      obtain ⟨s2, t2, g1, g2, g3⟩ := ih hf' k2 f2 hs.right
      have hl : v0 + (hist ++ sets.map (Commit.seq m)).length = v0 + hist.length + sets.length := by simp; omega
      rw [hl] at g1 g2
      refine ⟨s2, t2, ?_, ?_, g3⟩
      · simp only [runOpsIn, Op.runIn, hsh.reader, e1', Res.ok_bind, k1]
        exact g1
      · simp only [List.map_cons, runOps, Op.run, e1, Res.ok_bind, f1]
        exact g2
    | batch m sets =>
      obtain ⟨roots, b, e1, e2, _⟩ := batchPutValueSets_resume ht m sets hs.left
      obtain ⟨b', e1', e3⟩ : ∃ b', Tree.batchPutValueSetsIn H m f.cache t.reader sets none (v0 + hist.length) = .ok (roots, b') ∧ TreeUpdateBatch.Same b b' := by
        have := batchPutValueSetsIn_same H m f.cache hfo.cache t.reader sets none (v0 + hist.length)
        rw [e1] at this
        exact this.of_ok
      obtain ⟨t1, f1, f2, _⟩ := ht.write e2
      obtain ⟨s1, k1, k2⟩ := hsh.write ht e2 (e3.shuffle hfo) f1
      obtain ⟨s2, t2, g1, g2, g3⟩ := ih hf' k2 f2 hs.right
      have hl : v0 + (hist ++ sets.map (Commit.batch m)).length = v0 + hist.length + sets.length := by simp; omega
      rw [hl] at g1 g2
      refine ⟨s2, t2, ?_, ?_, g3⟩
      · simp only [runOpsIn, Op.runIn, hsh.reader, e1', Res.ok_bind, k1]
        exact g1
      · simp only [List.map_cons, runOps, Op.run, e1, Res.ok_bind, f1]
        exact g2
    | purge m =>
      obtain ⟨t1, f1, f2, _⟩ := ht.purge m
      obtain ⟨s1, k1, k2⟩ := hsh.purge ht m f1
      obtain ⟨s2, t2, g1, g2, g3⟩ := ih hf' k2 f2 (by simpa [Op.commits] using hs)
      simp only [Op.commits, List.append_nil]
      refine ⟨s2, t2, ?_, ?_, g3⟩
      · simp only [runOpsIn, Op.runIn, k1, Res.ok_bind]
        exact g1
      · simp only [List.map_cons, runOps, Op.run, Res.ok_bind, f1]
        exact g2

theorem latest_foldl (l : List (Version × Option Value)) (a : Version) :
    l.foldl (fun latest x => if latest < x.1 then x.1 else latest) a = max a (l.foldl (fun latest x => if latest < x.1 then x.1 else latest) 0) := by
  induction l generalizing a with
  | nil => simp
  | cons x t ih =>
    rw [List.foldl_cons, List.foldl_cons, ih, ih (if 0 < x.1 then x.1 else 0)]
    split <;> split <;> omega

theorem Store.Alike.len_version {s t : Store D} (h : Store.Alike s t) (ht : t.valueHistory.NodupKeys) : s.len = t.len ∧ s.version = t.version := by
  have hp := Pmt.FMap.perm_of_get h.hnodup ht h.history
  constructor
  · exact (hp.filter _).length_eq
  · unfold Store.version
    refine hp.foldl_eq' ?_ 0
    intro x _ y _ z
    rw [latest_foldl x.2, latest_foldl y.2 z, latest_foldl y.2, latest_foldl x.2 (max _ _)]
    omega

/-! ### Freezing -/

/-- Moving the caches in any order: the batch has the same nodes and stale node indices, and the same values in the same order. -/
theorem freezeMove_any (c : TreeCache D) (nodes : List (NodeKey × Node D)) (values : List ((Version × Key) × Option Value)) (stale : List NodeKey)
    (hn : nodes.Perm c.nodeCache.entries) (hv : values.Perm c.valueCache.entries) (hs : stale.Perm c.staleNodeIndexCache.elems)
    (h1 : c.nodeCache.NodupKeys) (h2 : c.valueCache.NodupKeys) (h3 : OMap.Sorted valueKeyLt c.frozen.nodeCache.values.entries) :
    let f := c.freezeMove.frozen
    let g := ({ c with nodeCache := ⟨nodes⟩, valueCache := ⟨values⟩, staleNodeIndexCache := ⟨stale⟩ } : TreeCache D).freezeMove.frozen
    (∀ nk, g.nodeCache.nodes.get nk = f.nodeCache.nodes.get nk) ∧ g.nodeCache.values = f.nodeCache.values ∧
      (∀ i, i ∈ g.staleNodeIndexCache ↔ i ∈ f.staleNodeIndexCache) ∧ g.nodeStats = f.nodeStats ∧ g.rootHashes = f.rootHashes := by
  intro f g
  obtain ⟨a1, a2⟩ := get_of_perm hn h1
  obtain ⟨b1, b2⟩ := get_of_perm hv h2
  refine ⟨?_, ?_, ?_, ?_, rfl⟩
  · intro nk
    show (c.frozen.nodeCache.nodes.extend nodes).get nk = (c.frozen.nodeCache.nodes.extend c.nodeCache.entries).get nk
    rw [FMap.get_extend _ _ a1, FMap.get_extend _ _ h1, a2]
  · show (c.frozen.nodeCache.values.extend valueKeyLt values) = (c.frozen.nodeCache.values.extend valueKeyLt c.valueCache.entries)
    have s1 := OMap.sorted_extend valueKeyLt_strict values _ h3
    have s2 := OMap.sorted_extend valueKeyLt_strict c.valueCache.entries _ h3
    have hm : ∀ e, e ∈ (c.frozen.nodeCache.values.extend valueKeyLt values).entries ↔ e ∈ (c.frozen.nodeCache.values.extend valueKeyLt c.valueCache.entries).entries := by
      rintro ⟨k, x⟩
      rw [OMap.mem_iff_lookup valueKeyLt_strict s1, OMap.mem_iff_lookup valueKeyLt_strict s2]
      have e1 := OMap.get_extend valueKeyLt_strict values _ h3 b1 k
      have e2 := OMap.get_extend valueKeyLt_strict c.valueCache.entries _ h3 h2 k
      have e3 : FMap.lookupL values k = FMap.lookupL c.valueCache.entries k := b2 k
      unfold OMap.get at e1 e2
      rw [e1, e2, e3]
    have he : (c.frozen.nodeCache.values.extend valueKeyLt values).entries = (c.frozen.nodeCache.values.extend valueKeyLt c.valueCache.entries).entries := by
      refine ((List.perm_ext_iff_of_nodup (Pmt.nodup_of_keys (OMap.sorted_nodup valueKeyLt_strict s1))
        (Pmt.nodup_of_keys (OMap.sorted_nodup valueKeyLt_strict s2))).2 hm).eq_of_pairwise ?_ s1 s2
      intro a b _ _ h h'
      have := valueKeyLt_strict.trans _ _ _ h h'
      rw [valueKeyLt_strict.irrefl] at this
      cases this
    exact congrArg OMap.mk he
  · intro i
    show i ∈ (stale.map (fun nk => (⟨c.nextVersion, nk⟩ : StaleNodeIndex))).foldl FSet.insert c.frozen.staleNodeIndexCache ↔
      i ∈ (c.staleNodeIndexCache.elems.map (fun nk => (⟨c.nextVersion, nk⟩ : StaleNodeIndex))).foldl FSet.insert c.frozen.staleNodeIndexCache
    rw [foldl_insert_mem, foldl_insert_mem, (hs.map _).mem_iff]
  · show c.frozen.nodeStats ++ [_] = c.frozen.nodeStats ++ [_]
    rw [show (⟨nodes⟩ : FMap NodeKey (Node D)).size = c.nodeCache.size from hn.length_eq, show (⟨stale⟩ : FSet NodeKey).size = c.staleNodeIndexCache.size from hs.length_eq]

end Verif.Jmt
