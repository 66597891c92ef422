import Verif.Proofs.Inv
import Verif.Proofs.BatchSet
import Verif.Proofs.OMap
import Verif.Proofs.Counting
import Verif.Proofs.Leaves
import Verif.Jmt.History
/-! `put_value_sets`: many versions in one cache. -/

namespace Verif.Jmt
variable {D : Type}
open VTree

/-- The tree after one commit, before its root is tagged. -/
def Commit.tree (H : Hasher D) (ver : Version) (t : VTree D) : Commit → VTree D
  | .seq m s => applySet ver m (hashSet H s) t
  | .batch m s => binsert ver m 64 (hashKvs H s) t

def treeFold (H : Hasher D) : Version → VTree D → List Commit → VTree D
  | _, t, [] => t
  | v, t, c :: l => treeFold H (v + 1) ((c.tree H v t).setVersion v) l

/-- The tree committed at version `w` of a history that began at version `v0`. -/
def treeAt (H : Hasher D) (v0 : Version) (hist : List Commit) (w : Version) : VTree D :=
  treeFold H v0 .empty (hist.take (w + 1 - v0))

theorem treeFold_append (H : Hasher D) (v : Version) (t : VTree D) (l l' : List Commit) :
    treeFold H v t (l ++ l') = treeFold H (v + l.length) (treeFold H v t l) l' := by
  induction l generalizing v t with
  | nil => rfl
  | cons c l ih =>
    simp only [List.cons_append, treeFold, ih, List.length_cons]
    congr 1; omega

theorem treeAt_append {H : Hasher D} {v0 : Version} {hist l : List Commit} {w : Version} (h0 : v0 ≤ w) (h : w < v0 + hist.length) :
    treeAt H v0 (hist ++ l) w = treeAt H v0 hist w := by
  unfold treeAt
  rw [List.take_append_of_le_length (by omega)]

theorem treeAt_snoc {H : Hasher D} {v0 : Version} {hist : List Commit} {c : Commit} :
    treeAt H v0 (hist ++ [c]) (v0 + hist.length) =
      (c.tree H (v0 + hist.length) (treeFold H v0 .empty hist)).setVersion (v0 + hist.length) := by
  unfold treeAt
  rw [List.take_of_length_le (by simp; omega), treeFold_append]
  rfl

theorem treeAt_last {H : Hasher D} {v0 : Version} {hist : List Commit} (h : hist ≠ []) :
    treeAt H v0 hist (v0 + hist.length - 1) = treeFold H v0 .empty hist := by
  unfold treeAt
  have : hist.length ≠ 0 := by simpa using h
  rw [List.take_of_length_le (by omega)]

theorem commit_setVersion (H : Hasher D) (c : Commit) (ver : Version) {t t' : VTree D}
    (h : t.setVersion ver = t'.setVersion ver) :
    (c.tree H ver t).setVersion ver = (c.tree H ver t').setVersion ver := by
  cases c with
  | seq m s => exact applySet_setVersion ver m _ t t' h
  | batch m s =>
    simp only [Commit.tree]
    congr 1
    cases t <;> cases t' <;> simp only [setVersion] at h <;> first | rfl | cases h
    · rw [binsert_leaf, binsert_leaf]
    · rfl

theorem Inv.congrT {H : Hasher D} {N : NodeKey → Option (Node D)} {St : Version → NodeKey → Prop} {T T' : Version → VTree D}
    {v0 next lo : Version} (h : Inv H N St T v0 next lo) (hT : ∀ w, v0 ≤ w → w < next → T' w = T w) : Inv H N St T' v0 next lo := by
  have hlo := h.loge
  refine ⟨h.le, h.loLt, h.loge, ?_, ?_, ?_, ?_, ?_, h.uniq, ?_, ?_, ?_⟩
  · intro w h0 h1; rw [hT w h0 h1]; exact h.tree w h0 h1
  · intro w h0 h1; rw [hT w h0 (by omega), hT (w + 1) (by omega) h1]; exact h.chain w h0 h1
  · intro w h0 h1; rw [hT w (by omega) h1]; exact h.nodes w h0 h1
  · intro v q n hn
    have := h.dom v q n hn
    rw [hT v this.1 this.2.1]; exact this
  · intro s v q hs
    obtain ⟨h1, h2, h3, h4, h5⟩ := h.stale s v q hs
    refine ⟨h1, h2, h3, h4, ?_⟩
    intro w hw hw'
    rw [hT w (by omega) hw']; exact h5 w hw hw'
  · intro w h0 h1; rw [hT w (by omega) (by omega), hT (w + 1) (by omega) h1]; exact h.complete w h0 h1
  · intro s v i q hs
    have h1 := h.stale s v _ hs
    rw [hT (s - 1) (by omega) (by omega)]; exact h.wasIn s v i q hs
  · intro v i q n hn
    obtain ⟨w, h1, h2, h3⟩ := h.live v i q n hn
    exact ⟨w, h1, h2, by rw [hT w (by omega) h2]; exact h3⟩

theorem Inv.congrN {H : Hasher D} {N N' : NodeKey → Option (Node D)} {St St' : Version → NodeKey → Prop} {T : Version → VTree D}
    {v0 next lo : Version} (h : Inv H N St T v0 next lo) (hN : ∀ nk, N' nk = N nk) (hS : ∀ s nk, St' s nk ↔ St s nk) :
    Inv H N' St' T v0 next lo := by
  have e1 : N' = N := funext hN
  have e2 : St' = St := by funext s nk; exact propext (hS s nk)
  rw [e1, e2]; exact h

theorem Running.congrT {H : Hasher D} {N : NodeKey → Option (Node D)} {St : Version → NodeKey → Prop} {T T' : Version → VTree D}
    {v0 next : Version} {t : VTree D} (h : Running H N St T v0 next t) (hT : ∀ w, v0 ≤ w → w < next → T' w = T w) :
    Running H N St T' v0 next t := by
  refine ⟨h.first, ?_, h.root⟩
  intro hlt
  rw [hT _ (by omega) (by omega)]; exact h.last hlt

/-- Node statistics of one version, recomputed from the accumulated batch. -/
def statsAt (c : TreeCache D) (v : Version) : NodeStats :=
  { newNodes := c.frozen.nodeCache.nodes.entries.countP (fun e => decide (e.1.version = v))
    newLeaves := c.frozen.nodeCache.nodes.entries.countP (fun e => decide (e.1.version = v) && e.2.isLeaf)
    staleNodes := c.frozen.staleNodeIndexCache.elems.countP (fun i => decide (i.staleSinceVersion = v))
    staleLeaves := c.frozen.staleNodeIndexCache.elems.countP (fun i => decide (i.staleSinceVersion = v) &&
      (match c.base i.nodeKey with | some n => n.isLeaf | none => false)) }

/-- The commit only deletes absent keys. -/
def Commit.Quiet (c : Commit) (t : VTree D) : Prop := ∀ e ∈ c.updates, e.2 = none ∧ ∀ h, (e.1, h) ∉ t.entries

theorem Commit.Quiet.congr {c : Commit} {t t' : VTree D} (h : t.entries = t'.entries) : c.Quiet t ↔ c.Quiet t' := by
  unfold Commit.Quiet; rw [h]

/-- Leaf counters of one version against the trees before and after: off by one exactly when an effect-free version copies a root leaf. -/
structure LeafDiff (st : NodeStats) (cm : Commit) (tp tn : VTree D) : Prop where
  copied : cm.Quiet tp → tp.isLeaf = true → st.newLeaves = 1 ∧ st.staleLeaves = 0
  diff : ¬ (cm.Quiet tp ∧ tp.isLeaf = true) → st.newLeaves + tp.entries.length = st.staleLeaves + tn.entries.length

/-- The cache between two versions of one `put_value_sets` call that began at version `first`. -/
structure CacheInv (H : Hasher D) (St0 : Version → NodeKey → Prop) (v0 first lo : Version) (hist : List Commit)
    (c : TreeCache D) (t : VTree D) : Prop where
  inv : Inv H c.base (fun s nk => St0 s nk ∨ (⟨s, nk⟩ : StaleNodeIndex) ∈ c.frozen.staleNodeIndexCache) (treeAt H v0 hist) v0
    (v0 + hist.length) lo
  run : Running H c.base (fun s nk => St0 s nk ∨ (⟨s, nk⟩ : StaleNodeIndex) ∈ c.frozen.staleNodeIndexCache) (treeAt H v0 hist) v0
    (v0 + hist.length) t
  cur : Cur H (v0 + hist.length) c t t
  first0 : v0 ≤ first
  first1 : first ≤ v0 + hist.length
  fnodup : c.frozen.nodeCache.nodes.NodupKeys
  fdom : ∀ nk, (c.frozen.nodeCache.nodes.get nk).isSome = true → first ≤ nk.version
  snodup : c.frozen.staleNodeIndexCache.elems.Nodup
  sdom : ∀ i, i ∈ c.frozen.staleNodeIndexCache → first ≤ i.staleSinceVersion
  vsorted : OMap.Sorted valueKeyLt c.frozen.nodeCache.values.entries
  vget : ∀ v k, c.frozen.nodeCache.values.get (v, k) =
    if first ≤ v then (hist[v - v0]?).bind (fun cm => lastOf cm.updates k) else none
  vempty : c.valueCache = .empty
  roots : c.frozen.rootHashes = (List.range (v0 + hist.length - first)).map (fun i => (treeAt H v0 hist (first + i)).hash H)
  stats : c.frozen.nodeStats = (List.range (v0 + hist.length - first)).map (fun i => statsAt c (first + i))
  leaf : ∀ w cm, first ≤ w → hist[w - v0]? = some cm →
    LeafDiff (statsAt c w) cm (treeFold H v0 .empty (hist.take (w - v0))) (treeAt H v0 hist w)

/-- The step from one version to the next, for any way `cm` of building the new tree in the cache. -/
theorem CacheInv.step {H : Hasher D} {St0 : Version → NodeKey → Prop} {v0 first lo : Version} {hist : List Commit}
    {c c1 : TreeCache D} {t : VTree D} (h : CacheInv H St0 v0 first lo hist c t) (cm : Commit)
    (hcur : Cur H (v0 + hist.length) c1 t (cm.tree H (v0 + hist.length) t)) (hkn : RootKnown c1 (cm.tree H (v0 + hist.length) t))
    (hq : (cm.Quiet t ∧ cm.tree H (v0 + hist.length) t = t) ∨
      (¬ cm.Quiet t ∧ ((cm.tree H (v0 + hist.length) t).version = v0 + hist.length ∨ cm.tree H (v0 + hist.length) t = .empty)))
    (hfz : c1.frozen = c.frozen) (hrd : c1.reader = c.reader) (hvn : c1.valueCache.NodupKeys)
    (hvc : ∀ v k, c1.valueCache.get (v, k) = if v = v0 + hist.length then lastOf cm.updates k else none) :
    ∃ c', c1.freeze H = .ok c' ∧ CacheInv H St0 v0 first lo (hist ++ [cm]) c' (cm.tree H (v0 + hist.length) t) ∧
      RootThere c' (cm.tree H (v0 + hist.length) t) ∧ c'.reader = c.reader := by
  obtain ⟨c', e1, fs⟩ := freeze_spec H (v0 + hist.length) c1 t _ hcur hkn
  obtain ⟨N, n1, n2, n3, L, l1, l2, l3, l4⟩ := fs.nodes
  have hbase1 : c1.base = c.base := by funext nk; simp [TreeCache.base, hfz, hrd]
  have hlen : v0 + (hist ++ [cm]).length = v0 + hist.length + 1 := by simp; omega
  have h00 := h.first0
  have h01 := h.first1
  have hfn : ∀ v q, c'.frozen.nodeCache.nodes.get ⟨v, q⟩ =
      (N.get ⟨v, q⟩).or (c.frozen.nodeCache.nodes.get ⟨v, q⟩) := by
    intro v q
    rw [n2, hfz, FMap.get_extend _ _ n1]
  have hbase : ∀ v q, c'.base ⟨v, q⟩ = (if v = v0 + hist.length then
      stored H (v0 + hist.length) ((cm.tree H (v0 + hist.length) t).setVersion (v0 + hist.length)) v q else none).or (c.base ⟨v, q⟩) := by
    intro v q
    rw [← n3]
    simp only [TreeCache.base, hfn, fs.reader, hrd]
    cases N.get ⟨v, q⟩ with
    | some n => simp
    | none => simp
  have hbl : ∀ nk : NodeKey, nk.version < v0 + hist.length → c'.base nk = c.base nk := by
    rintro ⟨v, q⟩ hv
    simp only at hv
    rw [hbase, if_neg (by omega)]; rfl
  have hst : ∀ s v q, (⟨s, ⟨v, q⟩⟩ : StaleNodeIndex) ∈ c'.frozen.staleNodeIndexCache ↔
      ⟨s, ⟨v, q⟩⟩ ∈ c.frozen.staleNodeIndexCache ∨ (s = v0 + hist.length ∧ v < v0 + hist.length ∧ (t.at? H v q).isSome = true ∧
        (cm.tree H (v0 + hist.length) t).at? H v q = none) := by
    intro s v q
    rw [l3, foldl_insert_mem, hfz]
    apply or_congr_right
    simp only [List.mem_map, StaleNodeIndex.mk.injEq]
    constructor
    · rintro ⟨nk, h1, rfl, rfl⟩
      exact ⟨rfl, (l2 v q).1 h1⟩
    · rintro ⟨rfl, h1⟩
      exact ⟨⟨v, q⟩, (l2 v q).2 h1, rfl, rfl⟩
  have hsame : cm.tree H (v0 + hist.length) t = t ∨ (cm.tree H (v0 + hist.length) t).version = v0 + hist.length ∨
      cm.tree H (v0 + hist.length) t = .empty := by
    have hr := hcur.root
    generalize cm.tree H (v0 + hist.length) t = t' at hr
    cases hr with
    | tree _ _ rk hM hsame =>
      rcases hsame with h | h
      · exact .inr (.inl h)
      · exact .inl h
    | newNull => exact .inr (.inr rfl)
    | oldNull => exact .inr (.inr rfl)
  obtain ⟨s1, s2⟩ := h.inv.step h.run hcur.wf hcur.le hcur.old hsame hbase
    (St' := fun s nk => St0 s nk ∨ (⟨s, nk⟩ : StaleNodeIndex) ∈ c'.frozen.staleNodeIndexCache) (by
      intro s v q
      simp only [hst, or_assoc])
  -- the committed trees
  have hT : ∀ w, v0 ≤ w → w < v0 + hist.length + 1 → treeAt H v0 (hist ++ [cm]) w =
      if w = v0 + hist.length then (cm.tree H (v0 + hist.length) t).setVersion (v0 + hist.length) else treeAt H v0 hist w := by
    intro w hw0 hw
    split
    · rename_i hw1
      rw [hw1, treeAt_snoc]
      apply commit_setVersion
      by_cases hh : hist = []
      · rw [h.run.first (by simp [hh]), hh]; rfl
      · have hl : hist.length ≠ 0 := by simpa using hh
        have := h.run.last (by omega)
        rw [treeAt_last hh] at this
        exact (setVersion_congr this _).symm
    · rw [treeAt_append hw0 (by omega)]
  -- counting
  have hdisj : ∀ e ∈ N.entries, c.frozen.nodeCache.nodes.get e.1 = none := by
    rintro ⟨⟨v, q⟩, n⟩ he
    have hg := FMap.get_of_mem n1 he
    rw [n3] at hg
    split at hg
    · rename_i hv
      cases hh : c.frozen.nodeCache.nodes.get ⟨v, q⟩ with
      | none => rfl
      | some n' =>
        have : c.base ⟨v, q⟩ = some n' := by simp only [TreeCache.base, hh]
        have := h.inv.dom v q n' this
        omega
    · cases hg
  have hNv : ∀ e ∈ N.entries, e.1.version = v0 + hist.length := by
    rintro ⟨⟨v, q⟩, n⟩ he
    have hg := FMap.get_of_mem n1 he
    rw [n3] at hg
    split at hg
    · assumption
    · cases hg
  have hperm : c'.frozen.nodeCache.nodes.entries.Perm (N.entries ++ c.frozen.nodeCache.nodes.entries) := by
    rw [n2, hfz]; exact FMap.extend_perm _ _ n1 hdisj
  have hsold : ∀ i, i ∈ c.frozen.staleNodeIndexCache → i.staleSinceVersion < v0 + hist.length ∧ i.nodeKey.version < v0 + hist.length := by
    rintro ⟨s, ⟨v, q⟩⟩ hi
    have := h.inv.stale s v q (.inr hi)
    simp only; omega
  have hsperm : c'.frozen.staleNodeIndexCache.elems.Perm
      (L.map (fun nk => (⟨v0 + hist.length, nk⟩ : StaleNodeIndex)) ++ c.frozen.staleNodeIndexCache.elems) := by
    rw [l3, hfz]
    apply FSet.foldl_insert_perm
    · rw [List.Nodup, List.pairwise_map]
      refine List.Pairwise.imp ?_ l1
      intro a b hab he
      exact hab (by simpa using he)
    · intro e he hm
      rw [List.mem_map] at he
      obtain ⟨nk, _, rfl⟩ := he
      have := hsold _ hm
      simp at this
  have hLv : ∀ nk ∈ L, nk.version < v0 + hist.length := by
    rintro ⟨v, q⟩ hm; exact ((l2 v q).1 hm).1
  have hfold : ∀ e ∈ c.frozen.nodeCache.nodes.entries, e.1.version < v0 + hist.length := by
    rintro ⟨⟨v, q⟩, n⟩ he
    have hg := FMap.get_of_mem h.fnodup he
    have : c.base ⟨v, q⟩ = some n := by simp only [TreeCache.base, hg]
    have := h.inv.dom v q n this
    exact this.2.1
  have hcountlt : ∀ v, v < v0 + hist.length → statsAt c' v = statsAt c v := by
    intro v hv
    unfold statsAt
    rw [hperm.countP_eq, hperm.countP_eq, hsperm.countP_eq, hsperm.countP_eq]
    simp only [List.countP_append]
    have z1 : N.entries.countP (fun e => decide (e.1.version = v)) = 0 := by
      rw [List.countP_eq_zero]; intro e he; have := hNv e he; simp; omega
    have z2 : N.entries.countP (fun e => decide (e.1.version = v) && e.2.isLeaf) = 0 := by
      rw [List.countP_eq_zero]; intro e he; have := hNv e he; simp; omega
    have z3 : (L.map (fun nk => (⟨v0 + hist.length, nk⟩ : StaleNodeIndex))).countP (fun i => decide (i.staleSinceVersion = v)) = 0 := by
      rw [List.countP_eq_zero]; intro e he
      rw [List.mem_map] at he
      obtain ⟨nk, _, rfl⟩ := he
      simp; omega
    have z4 : (L.map (fun nk => (⟨v0 + hist.length, nk⟩ : StaleNodeIndex))).countP (fun i => decide (i.staleSinceVersion = v) &&
        (match c'.base i.nodeKey with | some n => n.isLeaf | none => false)) = 0 := by
      rw [List.countP_eq_zero]; intro e he
      rw [List.mem_map] at he
      obtain ⟨nk, _, rfl⟩ := he
      simp; omega
    rw [z1, z2, z3, z4]
    simp only [Nat.zero_add]
    congr 1
    apply List.countP_congr
    intro i hi
    rw [hbl i.nodeKey (hsold i hi).2]
  have hcountnew : statsAt c' (v0 + hist.length) = ⟨N.size, N.entries.countP (fun e => e.2.isLeaf), L.length,
      L.countP (fun nk => match c1.base nk with | some n => n.isLeaf | none => false)⟩ := by
    unfold statsAt
    rw [hperm.countP_eq, hperm.countP_eq, hsperm.countP_eq, hsperm.countP_eq]
    simp only [List.countP_append]
    have z1 : c.frozen.nodeCache.nodes.entries.countP (fun e => decide (e.1.version = v0 + hist.length)) = 0 := by
      rw [List.countP_eq_zero]; intro e he; have := hfold e he; simp; omega
    have z2 : c.frozen.nodeCache.nodes.entries.countP (fun e => decide (e.1.version = v0 + hist.length) && e.2.isLeaf) = 0 := by
      rw [List.countP_eq_zero]; intro e he; have := hfold e he; simp; omega
    have z3 : c.frozen.staleNodeIndexCache.elems.countP (fun i => decide (i.staleSinceVersion = v0 + hist.length)) = 0 := by
      rw [List.countP_eq_zero]; intro e he; have := hsold e he; simp; omega
    have z4 : c.frozen.staleNodeIndexCache.elems.countP (fun i => decide (i.staleSinceVersion = v0 + hist.length) &&
        (match c'.base i.nodeKey with | some n => n.isLeaf | none => false)) = 0 := by
      rw [List.countP_eq_zero]; intro e he; have := hsold e he; simp; omega
    rw [z1, z2, z3, z4]
    simp only [Nat.add_zero, List.countP_map, Function.comp_def, decide_true, Bool.true_and, List.countP_true]
    have y1 : N.entries.countP (fun e => decide (e.1.version = v0 + hist.length)) = N.size := by
      rw [List.countP_eq_length.2 (by intro e he; simpa using hNv e he)]; rfl
    have y2 : N.entries.countP (fun e => decide (e.1.version = v0 + hist.length) && e.2.isLeaf) = N.entries.countP (fun e => e.2.isLeaf) := by
      apply List.countP_congr; intro e he; simp [hNv e he]
    rw [y1, y2]
    congr 1
    apply List.countP_congr
    intro nk hnk
    rw [hbl nk (hLv nk hnk), hbase1]
  have hrange : v0 + (hist ++ [cm]).length - first = (v0 + hist.length - first) + 1 := by rw [hlen]; omega
  have hlast : first + (v0 + hist.length - first) = v0 + hist.length := by omega
  refine ⟨c', e1, ⟨?_, ?_, ?_, h00, by rw [hlen]; omega, ?_, ?_, ?_, ?_, ?_, ?_, fs.valueCache, ?_, ?_, ?_⟩, fs.known, fs.reader.trans hrd⟩
  · rw [hlen]; exact s1.congrT hT
  · rw [hlen]; exact s2.congrT hT
  · rw [hlen]; exact fs.cur
  · rw [n2, hfz]; exact h.fnodup.extend _
  · rintro ⟨v, q⟩ hs
    rw [hfn, n3] at hs
    by_cases hv : v = v0 + hist.length
    · simp only; omega
    · simp only [hv, if_false, Option.none_or] at hs
      exact h.fdom _ hs
  · refine hsperm.nodup_iff.2 ?_
    rw [List.nodup_append]
    refine ⟨?_, h.snodup, ?_⟩
    · rw [List.Nodup, List.pairwise_map]
      refine List.Pairwise.imp ?_ l1
      intro a b hab he
      exact hab (by simpa using he)
    · intro a ha b hb hab
      subst hab
      rw [List.mem_map] at ha
      obtain ⟨nk, _, rfl⟩ := ha
      have := hsold _ hb
      simp at this
  · rintro ⟨s, ⟨v, q⟩⟩ hi
    rw [hst] at hi
    rcases hi with hi | hi
    · exact h.sdom _ hi
    · simp only; omega
  · rw [fs.values, hfz]
    exact OMap.sorted_extend valueKeyLt_strict _ _ h.vsorted
  · intro v k
    rw [fs.values, hfz, OMap.get_extend valueKeyLt_strict _ _ h.vsorted hvn, h.vget]
    have := hvc v k
    unfold FMap.get at this
    rw [this]
    by_cases hv : v = v0 + hist.length
    · subst hv
      have e2 : v0 + hist.length - v0 = hist.length := by omega
      simp [h01, e2]
    · simp only [hv, if_false, Option.none_or]
      by_cases hf : first ≤ v
      · simp only [hf, if_true]
        by_cases hlt : v - v0 < hist.length
        · rw [List.getElem?_append_left hlt]
        · have e1 : hist[v - v0]? = none := by rw [List.getElem?_eq_none_iff]; omega
          have e2 : (hist ++ [cm])[v - v0]? = none := by rw [List.getElem?_eq_none_iff]; simp; omega
          rw [e1, e2]
      · simp [hf]
  · rw [fs.roots, hfz, h.roots, hrange, List.range_succ, List.map_append]
    congr 1
    · apply List.map_congr_left
      intro i hi
      rw [List.mem_range] at hi
      rw [treeAt_append (by omega) (by omega)]
    · rw [List.map_singleton, hlast, hT _ (by omega) (by omega), if_pos rfl, hash_setVersion]
  · rw [l4, hfz, h.stats, hrange, List.range_succ, List.map_append]
    congr 1
    · apply List.map_congr_left
      intro i hi
      rw [List.mem_range] at hi
      rw [hcountlt _ (by omega)]
    · rw [List.map_singleton, hlast, hcountnew]; rfl
  · intro w cm' hw hcm
    by_cases hwn : w - v0 < hist.length
    · rw [List.getElem?_append_left hwn] at hcm
      rw [hcountlt w (by omega), List.take_append_of_le_length (by omega), treeAt_append (by omega) (by omega)]
      exact h.leaf w cm' hw hcm
    · have hwe : w = v0 + hist.length := by
        have := (List.getElem?_eq_some_iff.1 hcm).1
        simp only [List.length_append, List.length_cons, List.length_nil] at this
        omega
      subst hwe
      have e2 : v0 + hist.length - v0 = hist.length := by omega
      rw [e2] at hcm ⊢
      rw [List.getElem?_append_right (Nat.le_refl _)] at hcm
      simp only [Nat.sub_self, List.getElem?_cons_zero, Option.some.injEq] at hcm
      subst hcm
      rw [List.take_append_of_le_length (Nat.le_refl _), List.take_length, hcountnew, hT _ (by omega) (by omega), if_pos rfl]
      -- the running tree and the last committed tree
      have hrun : t.setVersion 0 = (treeFold H v0 .empty hist).setVersion 0 := by
        by_cases hh : hist = []
        · rw [h.run.first (by simp [hh]), hh]; rfl
        · have hl : hist.length ≠ 0 := by simpa using hh
          have := h.run.last (by omega)
          rwa [treeAt_last hh] at this
      have hent : t.entries = (treeFold H v0 .empty hist).entries := by
        rw [← entries_setVersion 0, hrun, entries_setVersion]
      have hlf : t.isLeaf = (treeFold H v0 .empty hist).isLeaf := by
        have := congrArg VTree.isLeaf hrun
        rwa [isLeaf_setVersion, isLeaf_setVersion] at this
      have hnew := new_leaves n1 n3
      have hdiff := leaf_diff hcur.lt0 hcur.le hcur.old l1 l2 (base := c1.base) (by
        intro v q n hn
        exact hcur.base v q n (hcur.lt0 v q n hn) hn)
      constructor
      · intro hqt hl
        rw [← Commit.Quiet.congr hent] at hqt
        rw [← hlf] at hl
        rcases hq with ⟨_, hq⟩ | ⟨hq, _⟩
        · rw [hq] at hnew l2 hdiff
          simp only
          have hL : L = [] := by
            rw [List.eq_nil_iff_forall_not_mem]
            rintro ⟨v, q⟩ hm
            have := (l2 v q).1 hm
            rw [this.2.2] at this
            simp at this
          rw [hnew, hL]
          refine ⟨?_, rfl⟩
          cases t with
          | leaf v k x => simp [VTree.setVersion, leaves]
          | empty => simp [VTree.isLeaf] at hl
          | node => simp [VTree.isLeaf] at hl
        · exact absurd hqt hq
      · intro hn
        rw [← Commit.Quiet.congr hent, ← hlf] at hn
        simp only
        rw [hnew, ← hent, entries_setVersion]
        refine Eq.trans ?_ hdiff
        congr 1
        -- retagging the root does not matter
        rcases hq with ⟨hq1, hq⟩ | ⟨hq1, hq⟩
        · rw [hq]
          rw [leaves_setVersion_of_node]
          by_contra hc
          exact hn ⟨hq1, by simpa using hc⟩
        · rcases hq with hq | hq
          · have := setVersion_self (t := cm.tree H (v0 + hist.length) t)
            rw [hq] at this
            rw [this]
          · rw [hq]; rfl

end Verif.Jmt
