import Verif.Proofs.StoreWrite
/-! Every sequence of updates and prunings succeeds and keeps the store invariant. -/

namespace Verif.Jmt
variable {D : Type}
open VTree Verif.Spec

theorem Startable.prefix {v0 : Version} {l l' : List Commit} (h : Startable v0 (l ++ l')) : Startable v0 l := by
  refine ⟨?_, fun m s hm => h.batches m s (List.mem_append_left _ hm)⟩
  rcases h.first with h | h
  · exact .inl h
  · right
    intro c hc
    apply h
    rw [List.head?_append, hc]; rfl

/-- The commits `new` can follow the commits `hist`: the condition on the first commit matters only if there was none yet. -/
structure Resumable (v0 : Version) (hist new : List Commit) : Prop where
  first : hist = [] → Startable v0 new
  batches : ∀ m s, Commit.batch m s ∈ new → s ≠ []

theorem Startable.resumable {v0 : Version} {hist new : List Commit} (h : Startable v0 (hist ++ new)) : Resumable v0 hist new :=
  ⟨fun e => by subst e; exact h, fun m s hm => h.batches m s (List.mem_append_right _ hm)⟩

theorem Resumable.left {v0 : Version} {hist a b : List Commit} (h : Resumable v0 hist (a ++ b)) : Resumable v0 hist a :=
  ⟨fun e => (h.first e).prefix, fun m s hm => h.batches m s (List.mem_append_left _ hm)⟩

theorem Resumable.right {v0 : Version} {hist a b : List Commit} (h : Resumable v0 hist (a ++ b)) : Resumable v0 (hist ++ a) b := by
  refine ⟨fun e => ?_, fun m s hm => h.batches m s (List.mem_append_right _ hm)⟩
  obtain ⟨h1, h2⟩ := List.append_eq_nil_iff.1 e
  have := h.first h1
  rwa [h2] at this

/-- The store after the commits `hist` (first version `v0`), pruned up to `lo`. -/
structure StoreInv (H : Hasher D) (v0 : Version) (hist : List Commit) (lo : Version) (s : Store D) : Prop where
  inv : Inv H s.nodes.get (fun v nk => (⟨v, nk⟩ : StaleNodeIndex) ∈ s.staleNodes) (treeAt H v0 hist) v0 (v0 + hist.length) lo
  nodup : s.nodes.NodupKeys
  snodup : s.staleNodes.elems.Nodup
  values : ∀ k, vhGet s.valueHistory k = histOf v0 hist k
  vnodup : s.valueHistory.NodupKeys

theorem StoreInv.init (H : Hasher D) (v0 : Version) : StoreInv H v0 [] v0 (Store.empty : Store D) := by
  refine ⟨⟨by simp, .inr rfl, Nat.le_refl _, ?_, ?_, ?_, ?_, ?_, ?_, ?_, ?_, ?_⟩, FMap.nodupKeys_empty, by simp [Store.empty, FSet.empty], ?_,
    FMap.nodupKeys_empty⟩
  · intro w h0 h1; simp only [List.length_nil] at h1; omega
  · intro w h0 h1; simp only [List.length_nil] at h1; omega
  · intro w h0 h1; simp only [List.length_nil] at h1; omega
  · intro v q n h; simp [Store.empty] at h
  · intro s v q h; simp [Store.empty] at h
  · intro s s' nk h; simp [Store.empty] at h
  · intro w h0 h1; simp only [List.length_nil] at h1; omega
  · intro s v i q h; simp [Store.empty] at h
  · intro v i q n h; simp [Store.empty] at h
  · intro k; simp [vhGet, Store.empty, histOf]

theorem StoreInv.getValueOption {H : Hasher D} {v0 lo : Version} {hist : List Commit} {s : Store D} (h : StoreInv H v0 hist lo s)
    (w : Version) (k : Key) : s.getValueOption w k = contents ((hist.take (w + 1 - v0)).map Commit.updates) k := by
  rw [getValueOption_eq, h.values, histOf_find]

/-- A fresh cache over a store. -/
theorem StoreInv.start {H : Hasher D} {v0 lo : Version} {hist : List Commit} {s : Store D} (h : StoreInv H v0 hist lo s) :
    ∃ t, CacheInv H (fun v nk => (⟨v, nk⟩ : StaleNodeIndex) ∈ s.staleNodes) v0 (v0 + hist.length) lo hist
      (TreeCache.new s.reader (v0 + hist.length)) t ∧ (TreeCache.new s.reader (v0 + hist.length)).reader = s.reader ∧
      (hist ≠ [] ∨ v0 = 0 → RootThere (TreeCache.new s.reader (v0 + hist.length)) t) ∧ (hist = [] → t = .empty) ∧
      (TreeCache.new s.reader (v0 + hist.length)).frozen = .new := by
  generalize hc : TreeCache.new s.reader (v0 + hist.length) = c
  -- shape of the new cache
  have hf : c.frozen = .new := by
    subst hc; unfold TreeCache.new
    dsimp only
    split
    · cases s.reader.getNodeOption _ <;> rfl
    · rfl
  have hrd : c.reader = s.reader := by
    subst hc; unfold TreeCache.new
    dsimp only
    split
    · cases s.reader.getNodeOption _ <;> rfl
    · rfl
  have hnv : c.nextVersion = v0 + hist.length := by
    subst hc; unfold TreeCache.new
    dsimp only
    split
    · cases s.reader.getNodeOption _ <;> rfl
    · rfl
  have hvc : c.valueCache = .empty := by
    subst hc; unfold TreeCache.new
    dsimp only
    split
    · cases s.reader.getNodeOption _ <;> rfl
    · rfl
  have hsc : c.staleNodeIndexCache = .empty := by
    subst hc; unfold TreeCache.new
    dsimp only
    split
    · cases s.reader.getNodeOption _ <;> rfl
    · rfl
  have hns : c.numStaleLeaves = 0 := by
    subst hc; unfold TreeCache.new
    dsimp only
    split
    · cases s.reader.getNodeOption _ <;> rfl
    · rfl
  have hnl : c.numNewLeaves = 0 := by
    subst hc; unfold TreeCache.new
    dsimp only
    split
    · cases s.reader.getNodeOption _ <;> rfl
    · rfl
  have hbase : c.base = s.nodes.get := by
    funext nk
    simp only [TreeCache.base, hf, hrd]
    rfl
  -- the root key and the node cache
  have hshape : (v0 + hist.length = 0 ∧ c.rootNodeKey = ⟨0, []⟩ ∧ c.nodeCache = FMap.empty.set ⟨0, []⟩ .null) ∨
      (v0 + hist.length ≠ 0 ∧ c.rootNodeKey = ⟨v0 + hist.length - 1, []⟩ ∧ c.nodeCache = .empty) := by
    by_cases h0 : v0 + hist.length = 0
    · left
      have hno : s.reader.getNodeOption (.newEmptyPath preGenesisVersion) = none := by
        cases hh : s.reader.getNodeOption (.newEmptyPath preGenesisVersion) with
        | none => rfl
        | some n =>
          have := h.inv.dom _ _ _ hh
          omega
      subst hc
      unfold TreeCache.new
      simp only [h0, if_true, hno]
      refine ⟨?_, ?_, ?_⟩ <;> first | trivial | rfl
    · right
      subst hc
      unfold TreeCache.new
      simp only [h0, if_false]
      refine ⟨h0, ?_, ?_⟩ <;> first | trivial | rfl
  have hnd : c.nodeCache.NodupKeys ∧ c.nodeCache.entries.countP (fun e => e.2.isLeaf) = 0 := by
    rcases hshape with ⟨_, _, h1⟩ | ⟨_, _, h1⟩
    · rw [h1]; exact ⟨FMap.nodupKeys_empty.set _ _, rfl⟩
    · rw [h1]; exact ⟨FMap.nodupKeys_empty, rfl⟩
  have hstats : TreeCache.StatsOk c := by
    refine ⟨hnd.1, by rw [hnl, hnd.2], by rw [hsc]; simp [FSet.empty], by rw [hns, hsc]; rfl⟩
  have hStale : ∀ s' nk, ((⟨s', nk⟩ : StaleNodeIndex) ∈ s.staleNodes ∨ ⟨s', nk⟩ ∈ c.frozen.staleNodeIndexCache) ↔
      (⟨s', nk⟩ : StaleNodeIndex) ∈ s.staleNodes := by
    intro s' nk; rw [hf]; simp [FrozenTreeCache.new]
  have hinv : Inv H c.base (fun s' nk => (⟨s', nk⟩ : StaleNodeIndex) ∈ s.staleNodes ∨ ⟨s', nk⟩ ∈ c.frozen.staleNodeIndexCache)
      (treeAt H v0 hist) v0 (v0 + hist.length) lo := h.inv.congrN (by intro nk; rw [hbase]) hStale
  have mk : ∀ t, Running H c.base (fun s' nk => (⟨s', nk⟩ : StaleNodeIndex) ∈ s.staleNodes ∨ ⟨s', nk⟩ ∈ c.frozen.staleNodeIndexCache)
      (treeAt H v0 hist) v0 (v0 + hist.length) t → WF [] t → VerLe (v0 + hist.length) t → RootRep H (v0 + hist.length) c t t →
      CacheInv H (fun v nk => (⟨v, nk⟩ : StaleNodeIndex) ∈ s.staleNodes) v0 (v0 + hist.length) lo hist c t := by
    intro t hrun hwf hle hroot
    have hpres : ∀ v q n, t.at? H v q = some n → c.base ⟨v, q⟩ = some n ∧ v < v0 + hist.length := by
      intro v q n hn
      have := Running.present hinv hrun hn
      exact ⟨this.1, this.2.1⟩
    refine ⟨hinv, hrun, ⟨hroot, hnv, ?_, fun _ _ _ _ h => h, fun v q n _ hn => (hpres v q n hn).1, ?_,
      fun v q n hn => (hpres v q n hn).2, hwf, hle, hstats⟩, by omega, Nat.le_refl _, ?_, ?_, ?_, ?_, ?_, ?_, hvc, ?_, ?_, ?_⟩
    · intro v q
      simp only [TreeCache.S, hsc, FSet.not_mem_empty, false_iff]
      rintro ⟨_, h1, h2⟩
      simp [h2] at h1
    · rintro ⟨v, q⟩ hs
      rw [hbase, Option.isSome_iff_exists] at hs
      obtain ⟨n, hn⟩ := hs
      exact (h.inv.dom v q n hn).2.1
    · rw [hf]; exact FMap.nodupKeys_empty
    · intro nk hn; rw [hf] at hn; cases hn
    · rw [hf]; simp [FrozenTreeCache.new, FSet.empty]
    · intro i hi; rw [hf] at hi; simp [FrozenTreeCache.new] at hi
    · rw [hf]; exact List.Pairwise.nil
    · intro v k
      rw [hf]
      show none = _
      split
      · rw [List.getElem?_eq_none_iff.2 (by omega)]; rfl
      · rfl
    · rw [hf]; simp [FrozenTreeCache.new]
    · rw [hf]; simp [FrozenTreeCache.new]
    · intro w cm hw hcm
      rw [List.getElem?_eq_none_iff.2 (by omega)] at hcm; cases hcm
  by_cases hh : hist = []
  · refine ⟨.empty, mk .empty ⟨fun _ => rfl, ?_, fun h => absurd rfl h⟩ trivial trivial ?_, hrd, ?_, fun _ => rfl, hf⟩
    · intro hlt; simp [hh] at hlt
    · rcases hshape with ⟨z, h1, h2⟩ | ⟨z, h1, h2⟩
      · refine .newNull (by rw [h1, z]) ?_ ?_
        · intro nk hnk; simp only [TreeCache.M, h2, FMap.get_set]; rw [z] at hnk; simp [hnk]
        · right; simp only [TreeCache.M, h2, FMap.get_set, z]; simp
      · refine .oldNull (v0 + hist.length - 1) (by omega) h1 (by intro nk; simp [TreeCache.M, h2]) (.inr ?_) rfl
        cases hb : c.base ⟨v0 + hist.length - 1, []⟩ with
        | none => rfl
        | some n =>
          rw [hbase] at hb
          have := h.inv.dom _ _ _ hb
          simp [hh] at this
          omega
    · rintro (h1 | h1)
      · exact absurd hh h1
      · rcases hshape with ⟨z, h2, h3⟩ | ⟨z, _⟩
        · exact .inr (by rw [TreeCache.getNodeOption_eq, TreeCache.M, h2, h3]; rfl)
        · simp [hh, h1] at z
  · have hlen : hist.length ≠ 0 := by simpa using hh
    have hrun := Running.ofLast hinv (by omega)
    obtain ⟨z, h1, h2⟩ : v0 + hist.length ≠ 0 ∧ c.rootNodeKey = ⟨v0 + hist.length - 1, []⟩ ∧ c.nodeCache = .empty := by
      rcases hshape with ⟨z, _⟩ | h; · omega
      · exact h
    have htr := h.inv.tree (v0 + hist.length - 1) (by omega) (by omega)
    have hM : ∀ nk, c.M nk = none := by intro nk; simp [TreeCache.M, h2]
    have hnull : treeAt H v0 hist (v0 + hist.length - 1) = .empty → c.base ⟨v0 + hist.length - 1, []⟩ = some .null := by
      intro he
      have hlo := h.inv.loLt
      apply hinv.nodes (v0 + hist.length - 1) (by omega) (by omega)
      rw [he]; simp [stored]
    refine ⟨treeAt H v0 hist (v0 + hist.length - 1), mk _ hrun htr.1 (verLe_mono (by omega) htr.2.1) ?_, hrd, ?_, fun h => absurd h hh, hf⟩
    · by_cases he : treeAt H v0 hist (v0 + hist.length - 1) = .empty
      · have := hnull he
        rw [he]
        exact .oldNull _ (by omega) h1 hM (.inl this) rfl
      · refine .tree _ he (by rw [h1, htr.2.2 he]) ?_ (.inr rfl)
        intro v q
        rw [hM]
        split
        · rename_i hv
          cases ha : at? H (treeAt H v0 hist (v0 + hist.length - 1)) v q with
          | none => rfl
          | some n =>
            have := at?_version_le htr.2.1 ha
            omega
        · rfl
    · intro _
      by_cases he : treeAt H v0 hist (v0 + hist.length - 1) = .empty
      · exact .inr (by rw [TreeCache.getNodeOption_eq, h1, hM]; exact hnull he)
      · exact .inl he

theorem CacheInv.wf0 {H : Hasher D} {St0 : Version → NodeKey → Prop} {v0 first lo : Version} {hist : List Commit} {c : TreeCache D}
    {t : VTree D} (h : CacheInv H St0 v0 first lo hist c t) : WF [] t := h.cur.wf

theorem quiet_seq (H : Hasher D) (m : Bool) (s : Tree.ValueSet) {ver : Version} {t : VTree D} (hw : WF [] t) :
    ((Commit.seq m s).Quiet t ∧ (Commit.seq m s).tree H ver t = t) ∨ (¬ (Commit.seq m s).Quiet t ∧
      (((Commit.seq m s).tree H ver t).version = ver ∨ (Commit.seq m s).tree H ver t = .empty)) := by
  have hq : QuietSet (hashSet H s) t ↔ (Commit.seq m s).Quiet t := by
    unfold QuietSet Commit.Quiet hashSet Commit.updates
    simp only [List.forall_mem_map, Option.map_eq_none_iff]
  rw [← hq]
  exact applySet_touched (hashSet H s) hw

theorem quiet_batch (H : Hasher D) (m : Bool) {s : List (Key × Value)} {ver : Version} {t : VTree D} (hne : s ≠ []) (hw : WF [] t) :
    ((Commit.batch m s).Quiet t ∧ (Commit.batch m s).tree H ver t = t) ∨ (¬ (Commit.batch m s).Quiet t ∧
      (((Commit.batch m s).tree H ver t).version = ver ∨ (Commit.batch m s).tree H ver t = .empty)) := by
  right
  constructor
  · intro hq
    obtain ⟨e, he⟩ := List.exists_mem_of_ne_nil _ hne
    have := (hq (e.1, some e.2) (by simp only [Commit.updates, List.mem_map]; exact ⟨e, he, rfl⟩)).1
    cases this
  · left
    refine (binsert_version ver m (under_hashKvs H s) (by simp) hw ?_).2
    unfold hashKvs
    simpa using sortDedup_ne_nil hne

/-- The loop of `put_value_sets`. -/
theorem putSets_spec {H : Hasher D} {St0 : Version → NodeKey → Prop} {v0 first lo : Version} (m : Bool) (sets : List Tree.ValueSet)
    (hist : List Commit) (c : TreeCache D) (t : VTree D) (h : CacheInv H St0 v0 first lo hist c t)
    (hk : RootThere c t ∨ (t = .empty ∧ ∀ s, sets.head? = some s → ∃ k v, applyUpdates (fun _ => none) s k = some v)) :
    ∃ c' t', Tree.putSets H m (v0 + hist.length) sets c = .ok c' ∧
      CacheInv H St0 v0 first lo (hist ++ sets.map (.seq m)) c' t' ∧ c'.reader = c.reader := by
  induction sets generalizing hist c t with
  | nil => exact ⟨c, t, rfl, by simpa using h, rfl⟩
  | cons s sets ih =>
    obtain ⟨c1, e1, e2, e3, e4, e5, e6, e7⟩ := putSet_spec H m (v0 + hist.length) s c t t h.cur
    have hkn : RootKnown c1 (applySet (v0 + hist.length) m (hashSet H s) t) := by
      rcases hk with hk | ⟨rfl, hk⟩
      · exact e7 (hk.known h.cur)
      · left
        rw [((holding_empty H).applySet (v0 + hist.length) m s).ne_empty]
        exact hk s rfl
    obtain ⟨c2, f1, f2, f3, f4⟩ := h.step (.seq m s) e2 hkn (quiet_seq H m s h.wf0) e3 e4 (e5 (by rw [h.vempty]; exact FMap.nodupKeys_empty)) (by
      intro v k
      rw [e6, h.vempty]
      simp [Commit.updates])
    obtain ⟨c3, t3, g1, g2, g3⟩ := ih (hist ++ [.seq m s]) c2 _ f2 (.inl f3)
    refine ⟨c3, t3, ?_, ?_, g3.trans f4⟩
    · simp only [Tree.putSets, e1, Res.ok_bind, f1]
      rw [← g1]
      congr 1
      simp; omega
    · simpa using g2

/-- What a call of `put_value_sets` produces. -/
structure BatchSpec (H : Hasher D) (v0 : Version) (hist new : List Commit) (lo : Version) (s : Store D) (roots : List D)
    (b : TreeUpdateBatch D) : Prop where
  inv : Inv H (fun nk => (b.nodeBatch.nodes.get nk).or (s.nodes.get nk))
    (fun v nk => (⟨v, nk⟩ : StaleNodeIndex) ∈ s.staleNodes ∨ ⟨v, nk⟩ ∈ b.staleNodeIndexBatch) (treeAt H v0 (hist ++ new)) v0
    (v0 + (hist ++ new).length) lo
  nodup : b.nodeBatch.nodes.NodupKeys
  fresh : ∀ nk, (b.nodeBatch.nodes.get nk).isSome = true → v0 + hist.length ≤ nk.version
  snodup : b.staleNodeIndexBatch.elems.Nodup
  since : ∀ i, i ∈ b.staleNodeIndexBatch → v0 + hist.length ≤ i.staleSinceVersion
  vsorted : OMap.Sorted valueKeyLt b.nodeBatch.values.entries
  vget : ∀ v k, b.nodeBatch.values.get (v, k) =
    if v0 + hist.length ≤ v then (new[v - (v0 + hist.length)]?).bind (fun cm => lastOf cm.updates k) else none
  roots : roots = (List.range new.length).map (fun i => (treeAt H v0 (hist ++ new) (v0 + hist.length + i)).hash H)
  leaf : ∀ w cm, v0 + hist.length ≤ w → (hist ++ new)[w - v0]? = some cm → ∃ st, b.nodeStats[w - (v0 + hist.length)]? = some st ∧
    LeafDiff st cm (treeFold H v0 .empty ((hist ++ new).take (w - v0))) (treeAt H v0 (hist ++ new) w)
  stats : b.nodeStats = (List.range new.length).map (fun i =>
    { newNodes := b.nodeBatch.nodes.entries.countP (fun e => decide (e.1.version = v0 + hist.length + i))
      newLeaves := b.nodeBatch.nodes.entries.countP (fun e => decide (e.1.version = v0 + hist.length + i) && e.2.isLeaf)
      staleNodes := b.staleNodeIndexBatch.elems.countP (fun j => decide (j.staleSinceVersion = v0 + hist.length + i))
      staleLeaves := b.staleNodeIndexBatch.elems.countP (fun j => decide (j.staleSinceVersion = v0 + hist.length + i) &&
        (match (b.nodeBatch.nodes.get j.nodeKey).or (s.nodes.get j.nodeKey) with | some n => n.isLeaf | none => false)) })

theorem CacheInv.batch {H : Hasher D} {v0 lo : Version} {hist new : List Commit} {s : Store D} {c : TreeCache D} {t : VTree D}
    (h : CacheInv H (fun v nk => (⟨v, nk⟩ : StaleNodeIndex) ∈ s.staleNodes) v0 (v0 + hist.length) lo (hist ++ new) c t)
    (hr : c.reader = s.reader) : BatchSpec H v0 hist new lo s c.into.1 c.into.2 := by
  have hbase : ∀ nk, c.base nk = (c.frozen.nodeCache.nodes.get nk).or (s.nodes.get nk) := by
    intro nk
    simp only [TreeCache.base, hr]
    cases c.frozen.nodeCache.nodes.get nk <;> rfl
  have hl : v0 + (hist ++ new).length - (v0 + hist.length) = new.length := by simp; omega
  refine ⟨h.inv.congrN (fun nk => (hbase nk).symm) (fun _ _ => Iff.rfl), h.fnodup, h.fdom, h.snodup, h.sdom, h.vsorted, ?_, ?_, ?_, ?_⟩
  · intro v k
    show c.frozen.nodeCache.values.get (v, k) = _
    rw [h.vget]
    split
    · rename_i hv
      rw [List.getElem?_append_right (by omega)]
      congr 2; omega
    · rfl
  · show c.frozen.rootHashes = _
    rw [h.roots, hl]
  · intro w cm hw hcm
    refine ⟨statsAt c w, ?_, h.leaf w cm hw hcm⟩
    show c.frozen.nodeStats[_]? = _
    have hlt := (List.getElem?_eq_some_iff.1 hcm).1
    rw [h.stats, hl, List.getElem?_map, List.getElem?_range (by simp only [List.length_append] at hlt; omega)]
    simp only [Option.map_some, Option.some.injEq]
    congr 1; omega
  · show c.frozen.nodeStats = _
    rw [h.stats, hl]
    apply List.map_congr_left
    intro i _
    unfold statsAt
    simp only [hbase]
    rfl

/-- `put_value_sets` on a store satisfying the invariant. -/
theorem putValueSets_resume {H : Hasher D} {v0 lo : Version} {hist : List Commit} {s : Store D} (h : StoreInv H v0 hist lo s)
    (m : Bool) (sets : List Tree.ValueSet) (hs : Resumable v0 hist (sets.map (.seq m))) :
    ∃ roots b, Tree.putValueSets H m s.reader sets (v0 + hist.length) = .ok (roots, b) ∧
      BatchSpec H v0 hist (sets.map (.seq m)) lo s roots b := by
  obtain ⟨t, h1, h2, h3, h4, h5⟩ := h.start
  obtain ⟨c', t', e1, e2, e3⟩ := putSets_spec m sets hist _ t h1 (by
    by_cases hh : hist = []
    · rcases (hs.first hh).first with hs | hs
      · exact .inl (h3 (.inr hs))
      · right
        refine ⟨h4 hh, ?_⟩
        intro x hx
        refine (hs (.seq m x) ?_).2
        rw [List.head?_map, hx]; rfl
    · exact .inl (h3 (.inl hh)))
  refine ⟨c'.into.1, c'.into.2, ?_, e2.batch (e3.trans h2)⟩
  simp only [Tree.putValueSets, e1, Res.ok_bind]
  rfl

theorem putValueSets_spec {H : Hasher D} {v0 lo : Version} {hist : List Commit} {s : Store D} (h : StoreInv H v0 hist lo s)
    (m : Bool) (sets : List Tree.ValueSet) (hs : Startable v0 (hist ++ sets.map (.seq m))) :
    ∃ roots b, Tree.putValueSets H m s.reader sets (v0 + hist.length) = .ok (roots, b) ∧
      BatchSpec H v0 hist (sets.map (.seq m)) lo s roots b := putValueSets_resume h m sets hs.resumable

/-- The loop of `batch_put_value_sets`; `hcs` are supplied node hashes that are right for the new nodes. -/
theorem batchPutSets_spec {H : Hasher D} {St0 : Version → NodeKey → Prop} {v0 first lo : Version} (m : Bool)
    (sets : List (List (Key × Value))) (hist : List Commit) (c : TreeCache D) (t : VTree D) (h : CacheInv H St0 v0 first lo hist c t)
    (hk : RootThere c t) (hne : ∀ s ∈ sets, s ≠ []) :
    ∃ c' t', (∀ hcs : List (Option (Tree.HashCache D)), hcs.length = sets.length →
        (∀ i hc, hcs[i]? = some hc → HcOk H hc (v0 + hist.length + i) [] (treeAt H v0 (hist ++ sets.map (.batch m)) (v0 + hist.length + i))) →
        Tree.batchPutSets H m (v0 + hist.length) (sets.zip hcs) c = .ok c') ∧
      CacheInv H St0 v0 first lo (hist ++ sets.map (.batch m)) c' t' ∧ c'.reader = c.reader := by
  induction sets generalizing hist c t with
  | nil => exact ⟨c, t, fun _ _ _ => rfl, by simpa using h, rfl⟩
  | cons s sets ih =>
    obtain ⟨c1, e1, e2, e3, e4, e5, e6, e7⟩ := batchPutSet_spec H m (v0 + hist.length) s c t t h.cur hk (hne s (by simp))
    obtain ⟨c2, f1, f2, f3, f4⟩ := h.step (.batch m s) e2 e3 (quiet_batch H m (hne s (by simp)) h.wf0) e4 e5 (e6 (by rw [h.vempty]; exact FMap.nodupKeys_empty)) (by
      intro v k
      rw [e7, h.vempty]
      simp [Commit.updates])
    obtain ⟨c3, t3, g1, g2, g3⟩ := ih (hist ++ [.batch m s]) c2 _ f2 f3 (fun s' hs => hne s' (by simp [hs]))
    refine ⟨c3, t3, ?_, by simpa using g2, g3.trans f4⟩
    intro hcs hlen hok
    match hcs, hlen with
    | hc :: hcs, hlen =>
      have happ : hist ++ (s :: sets).map (Commit.batch m) = hist ++ [.batch m s] ++ sets.map (.batch m) := by simp
      simp only [List.zip_cons_cons, Tree.batchPutSets]
      have h0 := hok 0 hc rfl
      rw [e1 hc ?_, f1]
      · simp only [Res.ok_bind]
        have := g1 hcs (by simpa using hlen) (by
          intro i hc' hi
          have := hok (i + 1) hc' (by simpa using hi)
          rw [happ] at this
          have e : v0 + (hist ++ [Commit.batch m s]).length + i = v0 + hist.length + (i + 1) := by simp; omega
          rw [e]; exact this)
        rw [← this]
        congr 1
        simp; omega
      · rw [happ, Nat.add_zero, treeAt_append (by omega) (by simp)] at h0
        have hl := f2.run.last (by simp)
        have e : v0 + (hist ++ [Commit.batch m s]).length - 1 = v0 + hist.length := by simp
        rw [e] at hl
        intro i q n hn
        exact h0 i q n (by rw [← at?_congr_cons hl]; exact hn)

/-- The supplied node hashes `hashes` are those of the new nodes of the batch `b` (first new version `first`), roots excepted. -/
def HashesRight (H : Hasher D) (b : TreeUpdateBatch D) (first : Version) (hashes : List (Tree.HashCache D)) : Prop :=
  ∀ i hc, hashes[i]? = some hc → ∀ nk n, b.nodeBatch.nodes.get nk = some n → nk.version = first + i → nk.path ≠ [] →
    hc.get nk.path = some (n.hash H)

/-- `batch_put_value_sets` on a store satisfying the invariant. -/
theorem batchPutValueSets_resume {H : Hasher D} {v0 lo : Version} {hist : List Commit} {s : Store D} (h : StoreInv H v0 hist lo s)
    (m : Bool) (sets : List (List (Key × Value))) (hs : Resumable v0 hist (sets.map (.batch m))) :
    ∃ roots b, Tree.batchPutValueSets H m s.reader sets none (v0 + hist.length) = .ok (roots, b) ∧
      BatchSpec H v0 hist (sets.map (.batch m)) lo s roots b ∧
      ∀ hashes, hashes.length = sets.length → HashesRight H b (v0 + hist.length) hashes →
        Tree.batchPutValueSets H m s.reader sets (some hashes) (v0 + hist.length) = .ok (roots, b) := by
  by_cases hsets : sets = []
  · subst hsets
    obtain ⟨t, h1, h2, h3, h4, h5⟩ := h.start
    refine ⟨_, _, rfl, CacheInv.batch (new := []) (t := t) (by simpa using h1) h2, ?_⟩
    intro hashes hl _
    match hashes, hl with
    | [], _ => rfl
  obtain ⟨t, h1, h2, h3, h4, h5⟩ := h.start
  obtain ⟨c', t', e1, e2, e3⟩ := batchPutSets_spec m sets hist _ t h1 (h3 (by
    by_cases hh : hist = []
    · rcases (hs.first hh).first with hs | hs
      · exact .inr hs
      · match sets, hsets with
        | x :: l, _ => exact absurd rfl ((hs (.batch m x) (by simp)).1 m x)
    · exact .inl hh)) (fun x hx => hs.batches m x (by simp [hx]))
  have hb := e2.batch (e3.trans h2)
  refine ⟨c'.into.1, c'.into.2, ?_, hb, ?_⟩
  · have := e1 (sets.map (fun _ => none)) (by simp) (by
      intro i hc hi
      rw [List.getElem?_map, Option.map_eq_some_iff] at hi
      obtain ⟨_, _, rfl⟩ := hi
      exact HcOk.none _ _ _ _)
    simp only [Tree.batchPutValueSets, this, Res.ok_bind, List.length_map, decide_true, assert_true]
    rfl
  · intro hashes hl hr
    have := e1 (hashes.map some) (by simpa using hl) (by
      intro i hc hi
      rw [List.getElem?_map, Option.map_eq_some_iff] at hi
      obtain ⟨hc, hi, rfl⟩ := hi
      intro j q n hn
      have hlt : i < sets.length := by
        rw [← hl]; exact (List.getElem?_eq_some_iff.1 hi).1
      have hlo := h.inv.loLt
      have hle := h.inv.le
      have hlo' := hb.inv.loLt
      have hst := hb.inv.nodes (v0 + hist.length + i) (by omega) (by simp; omega) (v0 + hist.length + i) (j :: q) n (by
        rw [stored_of_ne H (by rintro h0; rw [h0] at hn; simp at hn)]; exact hn)
      have hsn : s.nodes.get ⟨v0 + hist.length + i, j :: q⟩ = none := by
        cases hh : s.nodes.get ⟨v0 + hist.length + i, j :: q⟩ with
        | none => rfl
        | some n' => have := h.inv.dom _ _ _ hh; omega
      rw [hsn, Option.or_none] at hst
      have := hr i hc hi _ n hst rfl (by simp)
      simp only [Tree.getHash, List.nil_append] at this ⊢
      rw [this])
    simp only [Tree.batchPutValueSets, this, Res.ok_bind, List.length_map, hl, decide_true, assert_true]
    rfl

theorem batchPutValueSets_spec {H : Hasher D} {v0 lo : Version} {hist : List Commit} {s : Store D} (h : StoreInv H v0 hist lo s)
    (m : Bool) (sets : List (List (Key × Value))) (hs : Startable v0 (hist ++ sets.map (.batch m))) :
    ∃ roots b, Tree.batchPutValueSets H m s.reader sets none (v0 + hist.length) = .ok (roots, b) ∧
      BatchSpec H v0 hist (sets.map (.batch m)) lo s roots b ∧
      ∀ hashes, hashes.length = sets.length → HashesRight H b (v0 + hist.length) hashes →
        Tree.batchPutValueSets H m s.reader sets (some hashes) (v0 + hist.length) = .ok (roots, b) :=
  batchPutValueSets_resume h m sets hs.resumable

/-- Writing the batch. -/
theorem StoreInv.write {H : Hasher D} {v0 lo : Version} {hist new : List Commit} {s : Store D} (h : StoreInv H v0 hist lo s)
    {roots : List D} {b : TreeUpdateBatch D} (hb : BatchSpec H v0 hist new lo s roots b) :
    ∃ s', s.writeTreeUpdateBatch b = .ok s' ∧ StoreInv H v0 (hist ++ new) lo s' ∧
      (∀ nk, s'.nodes.get nk = (b.nodeBatch.nodes.get nk).or (s.nodes.get nk)) ∧
      (∀ i, i ∈ s'.staleNodes ↔ i ∈ s.staleNodes ∨ i ∈ b.staleNodeIndexBatch) ∧ s'.allowOverwrite = s.allowOverwrite := by
  have e1 := writeNodes_spec s.allowOverwrite b.nodeBatch.nodes.entries s.nodes hb.nodup (by
    rintro ⟨⟨v, q⟩, n⟩ he
    have hg := FMap.get_of_mem hb.nodup he
    have h1 := hb.fresh ⟨v, q⟩ (by rw [hg]; rfl)
    cases hh : s.nodes.get ⟨v, q⟩ with
    | none => rfl
    | some n' =>
      have := h.inv.dom _ _ _ hh
      simp only at h1
      omega)
  obtain ⟨vh', e2, e3⟩ := writeValues_spec b.nodeBatch.values.entries s.valueHistory hb.vsorted (by
    rintro ⟨⟨v, k⟩, x⟩ he y hy
    rw [h.values] at hy
    have h1 := histOf_bounds hy
    have h2 := (OMap.mem_iff_lookup valueKeyLt_strict hb.vsorted).1 he
    have h3 := hb.vget v k
    unfold OMap.get at h3
    rw [h2] at h3
    split at h3
    · simp only; omega
    · cases h3)
  have e4 := putStale_spec b.staleNodeIndexBatch.elems s.staleNodes hb.snodup (by
    rintro ⟨sv, ⟨v, q⟩⟩ hi hm
    have h1 := hb.since _ hi
    have h2 := h.inv.stale _ _ _ hm
    simp only at h1
    omega)
  have hn : ∀ nk, (s.nodes.extend b.nodeBatch.nodes.entries).get nk = (b.nodeBatch.nodes.get nk).or (s.nodes.get nk) :=
    fun nk => FMap.get_extend _ _ hb.nodup nk
  have hst : ∀ i, i ∈ b.staleNodeIndexBatch.elems.foldl FSet.insert s.staleNodes ↔ i ∈ s.staleNodes ∨ i ∈ b.staleNodeIndexBatch := by
    intro i; rw [foldl_insert_mem]; rfl
  refine ⟨Store.mk (s.nodes.extend b.nodeBatch.nodes.entries) (b.staleNodeIndexBatch.elems.foldl FSet.insert s.staleNodes) vh'
    s.allowOverwrite, ?_, ⟨?_, h.nodup.extend _, foldl_insert_nodup _ _ h.snodup, ?_, writeValues_nodup e2 h.vnodup⟩, hn, hst, rfl⟩
  · simp only [Store.writeTreeUpdateBatch, Store.writeNodeBatch, e1, e2, Res.ok_bind, Res.pure_eq, e4]
  · exact hb.inv.congrN hn (fun v nk => hst _)
  · intro k
    show vhGet vh' k = _
    rw [e3, h.values, values_histOf hb.vsorted hb.vget, histOf_append]

/-- The least readable version after pruning to `m` a store whose next version is `next`. -/
def pruneFloor (next lo m : Version) : Version := max lo (min m (next - 1))

theorem StoreInv.purge {H : Hasher D} {v0 lo : Version} {hist : List Commit} {s : Store D} (h : StoreInv H v0 hist lo s) (m : Version) :
    ∃ s', s.purgeStaleNodes m = .ok s' ∧ StoreInv H v0 hist (pruneFloor (v0 + hist.length) lo m) s' ∧
      (∀ nk, s'.nodes.get nk = if ∃ i ∈ s.staleNodes, i.nodeKey = nk ∧ i.staleSinceVersion ≤ m then none else s.nodes.get nk) ∧
      (∀ i, i ∈ s'.staleNodes ↔ i ∈ s.staleNodes ∧ m < i.staleSinceVersion) ∧ s'.allowOverwrite = s.allowOverwrite := by
  obtain ⟨s', e1, e2, e3, e4, e5, e6, e7⟩ := purgeLoop_spec
    (s.staleNodes.elems.filter (fun l => decide (l.staleSinceVersion ≤ m))) s (by
      rw [List.Nodup, List.pairwise_map]
      refine List.Pairwise.imp_of_mem ?_ (List.Pairwise.filter _ h.snodup)
      rintro ⟨sa, ka⟩ ⟨sb, kb⟩ ha hb hab he
      simp only at he
      subst he
      have := h.inv.uniq sa sb ka (List.mem_filter.1 ha).1 (List.mem_filter.1 hb).1
      subst this
      exact hab rfl) (by
      rintro ⟨sv, ⟨v, q⟩⟩ hi
      exact (h.inv.stale sv v q (List.mem_filter.1 hi).1).2.2.2.1)
  have hmem : ∀ i, i ∈ s.staleNodes.elems.filter (fun l => decide (l.staleSinceVersion ≤ m)) ↔
      i ∈ s.staleNodes ∧ i.staleSinceVersion ≤ m := by
    intro i; rw [List.mem_filter, decide_eq_true_eq]; rfl
  have hnk : ∀ nk, nk ∈ (s.staleNodes.elems.filter (fun l => decide (l.staleSinceVersion ≤ m))).map StaleNodeIndex.nodeKey ↔
      ∃ i ∈ s.staleNodes, i.nodeKey = nk ∧ i.staleSinceVersion ≤ m := by
    intro nk
    rw [List.mem_map]
    constructor
    · rintro ⟨i, hi, rfl⟩
      exact ⟨i, ((hmem i).1 hi).1, rfl, ((hmem i).1 hi).2⟩
    · rintro ⟨i, h1, rfl, h2⟩
      exact ⟨i, (hmem i).2 ⟨h1, h2⟩, rfl⟩
  have hn : ∀ nk, s'.nodes.get nk = if ∃ i ∈ s.staleNodes, i.nodeKey = nk ∧ i.staleSinceVersion ≤ m then none else s.nodes.get nk := by
    intro nk
    rw [e2]
    simp only [hnk]
  have hst : ∀ i, i ∈ s'.staleNodes ↔ i ∈ s.staleNodes ∧ m < i.staleSinceVersion := by
    intro i
    rw [e3, hmem]
    constructor
    · rintro ⟨h1, h2⟩; refine ⟨h1, ?_⟩; by_contra hc; exact h2 ⟨h1, by omega⟩
    · rintro ⟨h1, h2⟩; exact ⟨h1, by rintro ⟨_, h3⟩; omega⟩
  have hi := h.inv
  have hlo := hi.loLt
  have hlg := hi.loge
  have hle := hi.le
  refine ⟨s', e1, ⟨⟨hi.le, ?_, ?_, hi.tree, hi.chain, ?_, ?_, ?_, ?_, ?_, ?_, ?_⟩, e6 h.nodup, e7 h.snodup, ?_, by rw [e4]; exact h.vnodup⟩, hn, hst, e5⟩
  · unfold pruneFloor; omega
  · unfold pruneFloor; omega
  · intro w h0 h1 v q n hs
    rw [hn, if_neg]
    · exact hi.nodes w (by unfold pruneFloor at h0; omega) h1 v q n hs
    · rintro ⟨⟨sv, nk⟩, h2, h3, h4⟩
      simp only at h3 h4
      subst h3
      obtain ⟨g1, g2, g3, g4, g5⟩ := hi.stale sv v q h2
      have := g5 w (by unfold pruneFloor at h0; omega) h1
      rw [hs] at this; cases this
  · intro v q n hs
    rw [hn] at hs
    split at hs
    · cases hs
    · exact hi.dom v q n hs
  · intro sv v q hs
    rw [hst] at hs
    obtain ⟨g1, g2, g3, g4, g5⟩ := hi.stale sv v q hs.1
    refine ⟨g1, g2, ?_, ?_, g5⟩
    · have := hs.2; unfold pruneFloor; simp only at this; omega
    · rw [hn, if_neg, g4]
      rintro ⟨⟨sv', nk⟩, h2, h3, h4⟩
      simp only at h3 h4
      subst h3
      have := hi.uniq sv sv' _ hs.1 h2
      have := hs.2
      simp only at this
      omega
  · intro sv sv' nk h1 h2
    exact hi.uniq sv sv' nk ((hst _).1 h1).1 ((hst _).1 h2).1
  · intro w h0 h1 v i q h2 h3
    rw [hst]
    exact ⟨hi.complete w (by unfold pruneFloor at h0; omega) h1 v i q h2 h3, by unfold pruneFloor at h0; simp only; omega⟩
  · intro sv v i q hs
    exact hi.wasIn sv v i q ((hst _).1 hs).1
  · intro v i q n hs
    rw [hn] at hs
    split at hs
    · cases hs
    · rename_i hnot
      obtain ⟨w, h1, h2, h3⟩ := hi.live v i q n hs
      have hvle := at?_version_le (hi.tree w (by omega) h2).2.1 h3
      have key : ∀ d, w + d < v0 + hist.length → w + d ≤ pruneFloor (v0 + hist.length) lo m →
          (treeAt H v0 hist (w + d)).at? H v (i :: q) = some n := by
        intro d
        induction d with
        | zero => intro _ _; exact h3
        | succ d ih =>
          intro h4 h5
          have hd := ih (by omega) (by omega)
          cases hh : (treeAt H v0 hist (w + d + 1)).at? H v (i :: q) with
          | some n' =>
            have := hi.chain (w + d) (by omega) (by omega) v _ n' (by omega) hh
            rw [hd] at this
            exact this.symm
          | none =>
            have := hi.complete (w + d) (by omega) (by omega) v i q (by rw [hd]; rfl) hh
            refine absurd ⟨_, this, rfl, ?_⟩ hnot
            unfold pruneFloor at h5
            have := hi.loLt
            simp only
            omega
      by_cases hw : pruneFloor (v0 + hist.length) lo m ≤ w
      · exact ⟨w, hw, h2, h3⟩
      · have hfl : pruneFloor (v0 + hist.length) lo m < v0 + hist.length := by unfold pruneFloor; omega
        refine ⟨pruneFloor (v0 + hist.length) lo m, Nat.le_refl _, hfl, ?_⟩
        have := key (pruneFloor (v0 + hist.length) lo m - w) (by omega) (by omega)
        rwa [show w + (pruneFloor (v0 + hist.length) lo m - w) = pruneFloor (v0 + hist.length) lo m by omega] at this
  · intro k; rw [e4]; exact h.values k

/-- The least version that stays readable after the operations, given the one before and the next version. -/
def floorOf : List Op → (lo next : Version) → Version
  | [], lo, _ => lo
  | .purge m :: ops, lo, next => floorOf ops (pruneFloor next lo m) next
  | op :: ops, lo, next => floorOf ops lo (next + op.commits.length)

/-- Every list of operations succeeds and yields a store satisfying the invariant. -/
theorem runOps_resume {H : Hasher D} {v0 : Version} (ops : List Op) {lo : Version} {hist : List Commit} {s : Store D}
    (h : StoreInv H v0 hist lo s) (hs : Resumable v0 hist (commitsOf ops)) :
    ∃ s', runOps H ops (s, v0 + hist.length) = .ok (s', v0 + (hist ++ commitsOf ops).length) ∧
      StoreInv H v0 (hist ++ commitsOf ops) (floorOf ops lo (v0 + hist.length)) s' := by
  induction ops generalizing hist lo s with
  | nil => exact ⟨s, by simp [runOps, commitsOf], by simpa [commitsOf, floorOf] using h⟩
  | cons op ops ih =>
    have hco : commitsOf (op :: ops) = op.commits ++ commitsOf ops := by simp [commitsOf]
    rw [hco] at hs
    rw [hco, ← List.append_assoc]
    cases op with
    | update m sets =>
      obtain ⟨roots, b, e1, e2⟩ := putValueSets_resume h m sets hs.left
      obtain ⟨s1, f1, f2, _⟩ := h.write e2
      obtain ⟨s2, g1, g2⟩ := ih f2 hs.right
      have hl : v0 + (hist ++ sets.map (Commit.seq m)).length = v0 + hist.length + sets.length := by simp; omega
      refine ⟨s2, ?_, ?_⟩
      · simp only [runOps, Op.run, e1, Res.ok_bind, f1]
        rw [hl] at g1
        exact g1
      · simp only [floorOf, Op.commits, List.length_map]
        rw [hl] at g2
        exact g2
    | batch m sets =>
      obtain ⟨roots, b, e1, e2, _⟩ := batchPutValueSets_resume h m sets hs.left
      obtain ⟨s1, f1, f2, _⟩ := h.write e2
      obtain ⟨s2, g1, g2⟩ := ih f2 hs.right
      have hl : v0 + (hist ++ sets.map (Commit.batch m)).length = v0 + hist.length + sets.length := by simp; omega
      refine ⟨s2, ?_, ?_⟩
      · simp only [runOps, Op.run, e1, Res.ok_bind, f1]
        rw [hl] at g1
        exact g1
      · simp only [floorOf, Op.commits, List.length_map]
        rw [hl] at g2
        exact g2
    | purge m =>
      obtain ⟨s1, f1, f2, _⟩ := h.purge m
      obtain ⟨s2, g1, g2⟩ := ih f2 (by simpa [Op.commits] using hs)
      simp only [Op.commits, List.append_nil]
      refine ⟨s2, ?_, g2⟩
      simp only [runOps, Op.run, Res.ok_bind, f1]
      exact g1

theorem runOps_spec {H : Hasher D} {v0 : Version} (ops : List Op) {lo : Version} {hist : List Commit} {s : Store D}
    (h : StoreInv H v0 hist lo s) (hs : Startable v0 (hist ++ commitsOf ops)) :
    ∃ s', runOps H ops (s, v0 + hist.length) = .ok (s', v0 + (hist ++ commitsOf ops).length) ∧
      StoreInv H v0 (hist ++ commitsOf ops) (floorOf ops lo (v0 + hist.length)) s' := runOps_resume ops h hs.resumable

end Verif.Jmt
