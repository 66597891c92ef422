import Verif.Proofs.Root
/-! Refinement of one value set and of `freeze`. -/

namespace Verif.Jmt
variable {D : Type}
open VTree

/-- The last entry for a key in a value set. -/
def lastOf {K V : Type} [DecidableEq K] (s : List (K × V)) (k : K) : Option V :=
  match s with
  | [] => none
  | e :: t => (lastOf t k).or (if e.1 = k then some e.2 else none)

theorem Cur.putValue {H : Hasher D} {ver : Version} {c : TreeCache D} {t0 t : VTree D} (h : Cur H ver c t0 t)
    (v : Version) (k : Key) (x : Option Value) : Cur H ver (c.putValue v k x) t0 t := by
  refine ⟨?_, h.next, h.S, h.old, h.base, h.fresh, h.lt0, h.wf, h.le, ⟨h.stats.1, h.stats.2, h.stats.3, h.stats.4⟩⟩
  rcases h.root with ⟨t, ht, rk, hM, hsame⟩ | ⟨rk, hM, hr⟩ | ⟨rv, hv, rk, hM, hb, h0⟩
  · exact .tree t ht rk hM hsame
  · exact .newNull rk hM hr
  · exact .oldNull rv hv rk hM hb h0

def hashSet (H : Hasher D) (s : Tree.ValueSet) : List (Key × Option D) := s.map (fun e => (e.1, e.2.map H.value))

theorem putSet_spec (H : Hasher D) (m : Bool) (ver : Version) (s : Tree.ValueSet) (c : TreeCache D) (t0 t : VTree D)
    (hc : Cur H ver c t0 t) :
    ∃ c', Tree.putSet H m ver s c = .ok c' ∧ Cur H ver c' t0 (applySet ver m (hashSet H s) t) ∧
      c'.frozen = c.frozen ∧ c'.reader = c.reader ∧
      (c.valueCache.NodupKeys → c'.valueCache.NodupKeys) ∧
      (∀ v k, c'.valueCache.get (v, k) = if v = ver then (lastOf s k).or (c.valueCache.get (v, k)) else c.valueCache.get (v, k)) ∧
      (RootKnown c t → RootKnown c' (applySet ver m (hashSet H s) t)) := by
  induction s generalizing c t with
  | nil => exact ⟨c, rfl, hc, rfl, rfl, id, by intro v k; simp [lastOf], id⟩
  | cons e s ih =>
    obtain ⟨k0, x0⟩ := e
    obtain ⟨c1, e1, e2, e3, e4⟩ := put_root_spec H m ver k0 (x0.map H.value) (c.putValue ver k0 x0) t0 t (hc.putValue ver k0 x0)
    obtain ⟨c2, f1, f2, f3, f4, f5, f6, f7⟩ := ih c1 _ e3
    refine ⟨c2, ?_, f2, f3.trans e2.frozen, f4.trans e2.reader, ?_, ?_, fun h => f7 (e4 h)⟩
    · simp only [Tree.putSet, e1, Res.ok_bind, f1]
    · intro hn
      apply f5
      rw [e2.valueCache]
      exact hn.set _ _
    · intro v k
      rw [f6, e2.valueCache]
      simp only [TreeCache.putValue, FMap.get_set, Prod.mk.injEq, lastOf]
      by_cases hv : v = ver
      · subst hv
        simp only [true_and, if_true]
        by_cases hk : k = k0
        · subst hk; cases lastOf s k <;> simp
        · have : ¬ k0 = k := fun h => hk h.symm
          simp [hk, this]
      · simp [hv]

theorem setVersion_at? (H : Hasher D) {ver : Version} {t : VTree D} (hle : VerLe ver t) (hne : t ≠ .empty)
    (q : List Nibble) (hlt : t.version < ver) (hno : ∀ q, t.at? H ver q = none) :
    (t.setVersion ver).at? H ver q = if q = [] then some (t.toNode H) else none := by
  cases t with
  | empty => exact absurd rfl hne
  | leaf v k h =>
    simp only [setVersion, at?_leaf, toNode]
    by_cases hq : q = [] <;> simp [hq]
  | node v m ch =>
    simp only [setVersion]
    cases q with
    | nil => simp [at?_node_nil, toNode]
    | cons j q =>
      have := hno (j :: q)
      rw [at?_node_cons] at this
      rw [at?_node_cons, this]; simp

theorem foldl_insert_mem {K : Type} [DecidableEq K] (l : List K) (s : FSet K) (x : K) :
    x ∈ l.foldl FSet.insert s ↔ x ∈ s ∨ x ∈ l := by
  induction l generalizing s with
  | nil => simp
  | cons a t ih =>
    rw [List.foldl_cons, ih, FSet.mem_insert]
    simp only [List.mem_cons]
    constructor
    · rintro ((h | h) | h)
      · exact .inr (.inl h)
      · exact .inl h
      · exact .inr (.inr h)
    · rintro (h | h | h)
      · exact .inl (.inr h)
      · exact .inl (.inl h)
      · exact .inr h

theorem verLe_mono {w w' : Version} (h : w ≤ w') {t : VTree D} (ht : VerLe w t) : VerLe w' t := by
  induction t with
  | empty => trivial
  | leaf => exact Nat.le_trans ht h
  | node v m ch ih => exact ⟨Nat.le_trans ht.1 h, fun i => ih i (ht.2 i)⟩

theorem toNode_hash (H : Hasher D) (t : VTree D) : (t.toNode H).hash H = t.hash H := by
  cases t <;> rfl

/-- `freeze` adds exactly the nodes of the new version. -/
structure FreezeSpec (H : Hasher D) (ver : Version) (c : TreeCache D) (t0 t : VTree D) (c' : TreeCache D) : Prop where
  cur : Cur H (ver + 1) c' t t
  known : RootThere c' t
  roots : c'.frozen.rootHashes = c.frozen.rootHashes ++ [t.hash H]
  nodes : ∃ N : FMap NodeKey (Node D), N.NodupKeys ∧ c'.frozen.nodeCache.nodes = c.frozen.nodeCache.nodes.extend N.entries ∧
    (∀ v q, N.get ⟨v, q⟩ = if v = ver then stored H ver (t.setVersion ver) v q else none) ∧
    ∃ L : List NodeKey, L.Nodup ∧ (∀ v q, ⟨v, q⟩ ∈ L ↔ v < ver ∧ (t0.at? H v q).isSome = true ∧ t.at? H v q = none) ∧
    c'.frozen.staleNodeIndexCache = (L.map (fun nk => (⟨ver, nk⟩ : StaleNodeIndex))).foldl FSet.insert c.frozen.staleNodeIndexCache ∧
    c'.frozen.nodeStats = c.frozen.nodeStats ++ [⟨N.size, N.entries.countP (fun e => e.2.isLeaf), L.length,
      L.countP (fun nk => match c.base nk with | some n => n.isLeaf | none => false)⟩]
  values : c'.frozen.nodeCache.values = c.frozen.nodeCache.values.extend valueKeyLt c.valueCache.entries
  valueCache : c'.valueCache = .empty
  reader : c'.reader = c.reader

theorem freeze_spec (H : Hasher D) (ver : Version) (c : TreeCache D) (t0 t : VTree D)
    (hc : Cur H ver c t0 t) (hk : RootKnown c t) :
    ∃ c', c.freeze H = .ok c' ∧ FreezeSpec H ver c t0 t c' := by
  -- the state in which the new nodes are exactly those of the new version
  have key : ∃ c1 n c2, c.freezeRoot = .ok (c1, n) ∧ n.hash H = t.hash H ∧
      (c1.pushRoot (n.hash H)).freezeCopy = .ok c2 ∧
      c2.frozen = { c.frozen with rootHashes := c.frozen.rootHashes ++ [t.hash H] } ∧
      c2.reader = c.reader ∧ c2.valueCache = c.valueCache ∧ c2.nextVersion = ver ∧ c2.rootNodeKey = c.rootNodeKey ∧
      c2.staleNodeIndexCache = c.staleNodeIndexCache ∧ TreeCache.StatsOk c2 ∧
      (∀ v q, c2.M ⟨v, q⟩ = if v = ver then stored H ver (t.setVersion ver) v q else none) ∧
      (t = .empty → c.rootNodeKey = ⟨ver, []⟩ ∨ (c.base c.rootNodeKey = some .null ∧ c.rootNodeKey.version < ver ∧ c.rootNodeKey.path = [])) := by
    rcases hc.root with ⟨t, ht, rk, hM, hsame⟩ | ⟨rk, hM, hr⟩ | ⟨rv, hv, rk, hM, hb, h0⟩
    · have hg := (hc.holds hM).getNodeOption ht
      rw [← rk] at hg
      refine ⟨c, t.toNode H, ?_⟩
      unfold TreeCache.freezeRoot
      rw [hg]
      -- abbreviate the state with the root hash recorded
      have hM' : ∀ nk, TreeCache.M (c.pushRoot ((t.toNode H).hash H)) nk =
          c.M nk := fun _ => rfl
      by_cases hver : t.version = ver
      · refine ⟨_, rfl, toNode_hash H t, if_neg ?_, ?_⟩
        · rintro ⟨_, h, _⟩
          rw [FMap.isEmpty_iff] at h
          have h1 := h ⟨ver, []⟩
          have h2 := hM ver []
          rw [at?_nil H ht] at h2
          simp only [TreeCache.M, hver, if_true] at h2
          change c.nodeCache.get _ = none at h1
          rw [h1] at h2; cases h2
        · refine ⟨by rw [toNode_hash]; rfl, rfl, rfl, hc.next, rfl, rfl, ⟨hc.stats.1, hc.stats.2, hc.stats.3, hc.stats.4⟩, ?_, fun h => absurd h ht⟩
          intro v q
          rw [hM', hM]
          have : t.setVersion ver = t := by cases t <;> simp_all [setVersion]
          rw [this]
          cases t with
          | empty => exact absurd rfl ht
          | leaf => rfl
          | node => rfl
      · have htt : t = t0 := hsame.resolve_left hver
        have hlt : t.version < ver := by
          have := (hc.holds hM).version_le; omega
        have hno : ∀ q, t.at? H ver q = none := by
          intro q
          cases hq : t.at? H ver q with
          | none => rfl
          | some n =>
            have := hc.lt0 ver q n (by rw [← htt]; exact hq)
            omega
        have hMn : ∀ nk, c.M nk = none := by
          rintro ⟨v, q⟩
          rw [hM]
          split
          · rename_i h; subst h; exact hno q
          · rfl
        have hSn : c.staleNodeIndexCache.isEmpty = true := by
          rw [FSet.isEmpty_iff]
          rintro ⟨v, q⟩ h
          obtain ⟨h1, h2, h3⟩ := (hc.S v q).1 h
          rw [← htt, h3] at h2; cases h2
        obtain ⟨c2, f1, f2, f3, f4, f5⟩ := TreeCache.putNode_spec
          (c := c.pushRoot ((t.toNode H).hash H))
          (nk := ⟨ver, []⟩) (t.toNode H) (hMn _)
        refine ⟨c2, rfl, toNode_hash H t, ?_, ?_⟩
        · unfold TreeCache.freezeCopy
          rw [if_pos]
          · have hg' : TreeCache.getNodeOption (c.pushRoot ((t.toNode H).hash H))
                (c.pushRoot ((t.toNode H).hash H)).rootNodeKey = some (t.toNode H) := hg
            rw [TreeCache.getNode_of hg']
            have e : c.rootNodeKey.setVersion c.nextVersion = ⟨ver, []⟩ := by rw [rk, hc.next]; rfl
            show TreeCache.putNode _ (c.rootNodeKey.setVersion c.nextVersion) _ = _
            rw [e]
            exact f1
          · refine ⟨by show c.nextVersion > 0; rw [hc.next]; omega, ?_, hSn⟩
            rw [FMap.isEmpty_iff]; exact hMn
        · refine ⟨by rw [f2.frozen, toNode_hash]; rfl, f2.reader, f2.valueCache, f2.nextVersion.trans hc.next, f2.rootNodeKey, ?_,
            f5 ⟨hc.stats.1, hc.stats.2, hc.stats.3, hc.stats.4⟩, ?_, fun h => absurd h ht⟩
          · simp only [TreeCache.putNode] at f1
            split at f1
            · cases f1
            · injection f1 with f1; rw [← f1]; rfl
          · intro v q
            rw [f3]
            have : ∀ nk, TreeCache.M (c.pushRoot ((t.toNode H).hash H)) nk = none := hMn
            rw [this]
            have hst : stored H ver (t.setVersion ver) v q = (t.setVersion ver).at? H v q := by
              cases t with
              | empty => exact absurd rfl ht
              | leaf => rfl
              | node => rfl
            rw [hst]
            by_cases hv : v = ver
            · subst hv
              rw [setVersion_at? H hc.le ht q hlt hno]
              simp
            · simp [hv]
    · -- null root of this version
      have hbase : c.base ⟨ver, []⟩ = none := by
        cases h : c.base ⟨ver, []⟩ with
        | none => rfl
        | some n =>
          have := hc.fresh ⟨ver, []⟩ (by rw [h]; rfl)
          simp at this
      have hk : ∃ c1, c.freezeRoot = .ok (c1, .null) ∧ TreeCache.Same c c1 ∧ c1.staleNodeIndexCache = c.staleNodeIndexCache ∧
          TreeCache.StatsOk c1 ∧ (∀ nk, c1.M nk = if nk = ⟨ver, []⟩ then some .null else none) := by
        rcases hr with hr | hr
        · have hg : c.getNodeOption c.rootNodeKey = none := by
            rw [TreeCache.getNodeOption_eq, rk, hr]; exact hbase
          obtain ⟨c1, f1, f2, f3, f4, f5⟩ := TreeCache.putNode_spec (c := c) (nk := ⟨ver, []⟩) .null hr
          refine ⟨c1, by unfold TreeCache.freezeRoot; rw [hg, rk]; simp [f1], f2, ?_, f5 hc.stats, ?_⟩
          · simp only [TreeCache.putNode] at f1
            split at f1
            · cases f1
            · injection f1 with f1; rw [← f1]
          · intro nk
            rw [f3]
            split
            · rfl
            · rename_i h; exact hM nk h
        · have hg : c.getNodeOption c.rootNodeKey = some .null := by
            rw [TreeCache.getNodeOption_eq, rk, hr]
          refine ⟨c, by unfold TreeCache.freezeRoot; rw [hg], TreeCache.Same.refl c, rfl, hc.stats, ?_⟩
          intro nk
          split
          · rename_i h; rw [h]; exact hr
          · rename_i h; exact hM nk h
      obtain ⟨c1, f1, f2, f3, f4, f5⟩ := hk
      refine ⟨c1, .null, _, f1, rfl, if_neg ?_, ?_⟩
      · rintro ⟨_, h, _⟩
        rw [FMap.isEmpty_iff] at h
        have h1 := h ⟨ver, []⟩
        have h2 := f5 ⟨ver, []⟩
        change c1.nodeCache.get _ = none at h1
        simp [TreeCache.M, h1] at h2
      · refine ⟨by show (⟨_, _, _, _⟩ : FrozenTreeCache D) = _; rw [f2.frozen]; rfl, f2.reader, f2.valueCache, f2.nextVersion.trans hc.next, f2.rootNodeKey, f3,
          ⟨f4.1, f4.2, f4.3, f4.4⟩, ?_, fun _ => .inl rk⟩
        intro v q
        have : ∀ nk, TreeCache.M (c1.pushRoot ((Node.null : Node D).hash H)) nk =
          c1.M nk := fun _ => rfl
        rw [this, f5]
        simp only [setVersion, stored, NodeKey.mk.injEq]
        by_cases hv : v = ver <;> simp [hv]
    · -- null root of an earlier version
      have hbn : c.base ⟨rv, []⟩ = some .null := by
        rcases hk with h | h | h
        · exact absurd rfl h
        · rw [rk, hc.next] at h; simp only [NodeKey.mk.injEq, and_true] at h; omega
        · rwa [rk] at h
      have hg : c.getNodeOption c.rootNodeKey = some .null := by
        rw [TreeCache.getNodeOption_eq, rk, hM]; exact hbn
      have hSn : c.staleNodeIndexCache.isEmpty = true := by
        rw [FSet.isEmpty_iff]
        rintro ⟨v, q⟩ h
        obtain ⟨h1, h2, h3⟩ := (hc.S v q).1 h
        rw [h0] at h2; simp at h2
      obtain ⟨c2, f1, f2, f3, f4, f5⟩ := TreeCache.putNode_spec
        (c := c.pushRoot ((Node.null : Node D).hash H))
        (nk := ⟨ver, []⟩) .null (hM _)
      refine ⟨c, .null, c2, by unfold TreeCache.freezeRoot; rw [hg], rfl, ?_, ?_⟩
      · unfold TreeCache.freezeCopy
        rw [if_pos]
        · have hg' : TreeCache.getNodeOption (c.pushRoot ((Node.null : Node D).hash H))
              (c.pushRoot ((Node.null : Node D).hash H)).rootNodeKey = some .null := hg
          rw [TreeCache.getNode_of hg']
          have e : c.rootNodeKey.setVersion c.nextVersion = ⟨ver, []⟩ := by rw [rk, hc.next]; rfl
          show TreeCache.putNode _ (c.rootNodeKey.setVersion c.nextVersion) _ = _
          rw [e]
          exact f1
        · refine ⟨by show c.nextVersion > 0; rw [hc.next]; omega, ?_, hSn⟩
          rw [FMap.isEmpty_iff]; exact hM
      · refine ⟨by rw [f2.frozen]; rfl, f2.reader, f2.valueCache, f2.nextVersion.trans hc.next, f2.rootNodeKey, ?_,
          f5 ⟨hc.stats.1, hc.stats.2, hc.stats.3, hc.stats.4⟩, ?_, fun _ => .inr ⟨by rw [rk]; exact hbn, by rw [rk]; exact hv, by rw [rk]⟩⟩
        · simp only [TreeCache.putNode] at f1
          split at f1
          · cases f1
          · injection f1 with f1; rw [← f1]; rfl
        · intro v q
          rw [f3]
          have : ∀ nk, TreeCache.M (c.pushRoot ((Node.null : Node D).hash H)) nk = none := hM
          rw [this]
          simp only [setVersion, stored, NodeKey.mk.injEq]
          by_cases hv : v = ver <;> simp [hv]
  obtain ⟨c1, n, c2, k1, k2, k3, k4, k5, k6, k7, k8, k9, k10, k11, k12⟩ := key
  have hstaleNodup := hc.stats.3
  have hfr : c.freeze H = .ok c2.freezeMove := by
    unfold TreeCache.freeze
    simp only [k1, Res.ok_bind, k3]
  refine ⟨_, hfr, ?_⟩
  have hb2 : c2.base = c.base := by
    funext nk; simp [TreeCache.base, k4, k5]
  have hget : ∀ v q, (c2.frozen.nodeCache.nodes.extend c2.nodeCache.entries).get ⟨v, q⟩ =
      (if v = ver then stored H ver (t.setVersion ver) v q else none).or (c.frozen.nodeCache.nodes.get ⟨v, q⟩) := by
    intro v q
    rw [FMap.get_extend _ _ k10.nodup]
    have := k11 v q
    unfold TreeCache.M at this
    rw [← this, k4]
  -- lookups below the new version are unchanged, lookups at the new version give the new tree
  have hbase : ∀ v q, c2.freezeMove.base ⟨v, q⟩ =
      (if v = ver then stored H ver (t.setVersion ver) v q else none).or (c.base ⟨v, q⟩) := by
    intro v q
    simp only [TreeCache.base, TreeCache.freezeMove, NodeBatch.extend, hget, k5]
    cases (if v = ver then stored H ver (t.setVersion ver) v q else none) with
    | some n => simp
    | none => simp
  have hstr : t ≠ .empty → t.version = ver → ∀ v q, stored H ver (t.setVersion ver) v q = t.at? H v q := by
    intro hne hv v q
    have : t.setVersion ver = t := by cases t <;> simp_all [setVersion]
    rw [this]
    cases t with
    | empty => exact absurd rfl hne
    | leaf => rfl
    | node => rfl
  have hatv : ∀ q n, t.at? H ver q = some n → t.version = ver := by
    intro q n hn
    rcases hc.root with ⟨t, ht, rk, hM, hsame⟩ | ⟨rk, hM, hr⟩ | ⟨rv, hv, rk, hM, hb, h0⟩
    · rcases hsame with h | h
      · exact h
      · rw [h] at hn
        have := hc.lt0 _ _ _ hn
        omega
    · simp at hn
    · simp at hn
  have hbase' : ∀ v q n, v < ver + 1 → t.at? H v q = some n → (if v = ver then stored H ver (t.setVersion ver) v q else none).or (c.base ⟨v, q⟩) = some n := by
    intro v q n hv hn
    by_cases h : v = ver
    · subst h
      rw [if_pos rfl, hstr (by rintro rfl; simp at hn) (hatv q n hn), hn]; rfl
    · simp only [h, if_false, Option.none_or]
      exact hc.base v q n (by omega) (hc.old v q n (by omega) hn)
  have hrootb : t = .empty → (if c.rootNodeKey.version = ver then stored H ver (t.setVersion ver) c.rootNodeKey.version c.rootNodeKey.path else none).or
      (c.base c.rootNodeKey) = some .null ∧ c.rootNodeKey.version < ver + 1 ∧ c.rootNodeKey.path = [] := by
    intro h
    rcases k12 h with h1 | ⟨h1, h2, h3⟩
    · subst h; rw [h1]; simp [setVersion, stored]
    · rw [if_neg (by omega), h1]; exact ⟨rfl, by omega, h3⟩
  refine ⟨⟨?_, ?_, ?_, ?_, ?_, ?_, ?_, hc.wf, ?_, ?_⟩, ?_, ?_, ⟨c2.nodeCache, k10.nodup, ?_, k11, c2.staleNodeIndexCache.elems, ?_, ?_, ?_, ?_⟩, ?_, rfl, k5⟩
  · by_cases hne : t = .empty
    · obtain ⟨h1, h2, h3⟩ := hrootb hne
      subst hne
      refine .oldNull c.rootNodeKey.version h2 ?_ (fun _ => rfl) (.inl ?_) rfl
      · show c2.rootNodeKey = _
        rw [k8, ← h3]
      · rw [hbase, ← h3]; exact h1
    · refine .tree t hne ?_ ?_ (.inr rfl)
      · show c2.rootNodeKey = _
        rw [k8]
        rcases hc.root with ⟨t, ht, rk, hM, hsame⟩ | ⟨rk, hM, hr⟩ | ⟨rv, hv, rk, hM, hb, h0⟩
        · exact rk
        · exact absurd rfl hne
        · exact absurd rfl hne
      · intro v q
        have : ∀ nk, c2.freezeMove.M nk = none := fun _ => rfl
        rw [this]
        split
        · rename_i h
          cases hh : t.at? H v q with
          | none => rfl
          | some n => have := at?_version_le hc.le hh; omega
        · rfl
  · show c2.nextVersion + 1 = _
    rw [k7]
  · intro v q
    constructor
    · intro h; exact absurd h (FSet.not_mem_empty _)
    · rintro ⟨_, h1, h2⟩; rw [h2] at h1; cases h1
  · intro v q n _ h; exact h
  · intro v q n hv hn
    rw [hbase]; exact hbase' v q n hv hn
  · rintro ⟨v, q⟩ h
    rw [hbase] at h
    by_cases hv : v = ver
    · simp [hv]
    · simp only [hv, if_false, Option.none_or] at h
      have := hc.fresh _ h
      simp only at this ⊢; omega
  · intro v q n hn
    have := at?_version_le hc.le hn; omega
  · exact verLe_mono (by omega) hc.le
  · refine ⟨FMap.nodupKeys_empty, rfl, List.nodup_nil, rfl⟩
  · by_cases hne : t = .empty
    · right
      obtain ⟨h1, h2, h3⟩ := hrootb hne
      rw [TreeCache.getNodeOption_eq]
      show c2.freezeMove.base _ = _
      rw [hbase]
      show (if c2.rootNodeKey.version = ver then stored H ver (t.setVersion ver) c2.rootNodeKey.version c2.rootNodeKey.path else none).or (c.base c2.rootNodeKey) = some .null
      rw [k8]
      exact h1
    · exact .inl hne
  · show c2.frozen.rootHashes = _
    rw [k4]
  · show c2.frozen.nodeCache.nodes.extend _ = _
    rw [k4]
  · rw [k9]; exact hstaleNodup
  · intro v q
    rw [k9]; exact hc.S v q
  · show List.foldl _ c2.frozen.staleNodeIndexCache _ = _
    rw [k4, k7]
  · show c2.frozen.nodeStats ++ _ = _
    rw [k4]
    simp only [k10.leaves, k10.staleLeaves, hb2]
    rfl
  · show c2.frozen.nodeCache.values.extend _ _ = _
    rw [k4, k6]
end Verif.Jmt
