import Verif.Proofs.InsertAt
/-! Refinement of `put` (root handling), of one value set and of `freeze`. -/

namespace Verif.Jmt
variable {D : Type}
open VTree

namespace VTree
/-- Pure single-key update of a whole tree. -/
def applyOne (ver : Version) (m : Bool) (k : Key) (x : Option D) (t : VTree D) : VTree D :=
  after t (put ver m k x k.nibbles t)
/-- Pure update by a list of (key, new value hash). -/
def applySet (ver : Version) (m : Bool) (s : List (Key × Option D)) (t : VTree D) : VTree D :=
  s.foldl (fun t e => applyOne ver m e.1 e.2 t) t

/-- What the store holds for a tree whose root is tagged `w`. -/
def stored (H : Hasher D) (w : Version) (t : VTree D) (v : Version) (q : List Nibble) : Option (Node D) :=
  match t with
  | .empty => if v = w ∧ q = [] then some .null else none
  | t => t.at? H v q
end VTree

/-- How the root is represented in the cache. -/
inductive RootRep (H : Hasher D) (ver : Version) (c : TreeCache D) (t0 : VTree D) : VTree D → Prop
  | tree (t : VTree D) (ht : t ≠ .empty) (rk : c.rootNodeKey = ⟨t.version, []⟩)
      (M : ∀ v q, c.M ⟨v, q⟩ = if v = ver then t.at? H v q else none)
      (same : t.version = ver ∨ t = t0) : RootRep H ver c t0 t
  | newNull (rk : c.rootNodeKey = ⟨ver, []⟩) (M : ∀ nk, nk ≠ ⟨ver, []⟩ → c.M nk = none)
      (r : c.M ⟨ver, []⟩ = none ∨ c.M ⟨ver, []⟩ = some .null) : RootRep H ver c t0 .empty
  | oldNull (rv : Version) (hv : rv < ver) (rk : c.rootNodeKey = ⟨rv, []⟩) (M : ∀ nk, c.M nk = none)
      (b : c.base ⟨rv, []⟩ = some .null ∨ c.base ⟨rv, []⟩ = none) (h0 : t0 = .empty) : RootRep H ver c t0 .empty

/-- The cache while version `ver` is being built: it started from `t0` and currently represents `t`. -/
structure Cur (H : Hasher D) (ver : Version) (c : TreeCache D) (t0 t : VTree D) : Prop where
  root : RootRep H ver c t0 t
  next : c.nextVersion = ver
  S : ∀ v q, c.S ⟨v, q⟩ ↔ v < ver ∧ (t0.at? H v q).isSome = true ∧ t.at? H v q = none
  old : ∀ v q n, v < ver → t.at? H v q = some n → t0.at? H v q = some n
  base : ∀ v q n, v < ver → t0.at? H v q = some n → c.base ⟨v, q⟩ = some n
  fresh : ∀ nk, (c.base nk).isSome = true → nk.version < ver
  lt0 : ∀ v q n, t0.at? H v q = some n → v < ver
  wf : WF [] t
  le : VerLe ver t
  stats : TreeCache.StatsOk c

theorem Cur.holds {H : Hasher D} {ver : Version} {c : TreeCache D} {t0 t : VTree D} (h : Cur H ver c t0 t)
    (M : ∀ v q, c.M ⟨v, q⟩ = if v = ver then t.at? H v q else none) : Holds H ver c [] t := by
  refine ⟨fun v q => by simpa using M v q, ?_, h.le, fun _ => h.stats⟩
  intro v q n hv hn
  refine ⟨h.base v _ n hv (h.old v q n hv hn), ?_⟩
  rw [h.S]
  rintro ⟨_, _, h1⟩
  simp only [List.nil_append] at h1
  rw [hn] at h1; cases h1

/-- What a change of cache within a version preserves. -/
structure Ext (c c' : TreeCache D) : Prop where
  nextVersion : c'.nextVersion = c.nextVersion
  valueCache : c'.valueCache = c.valueCache
  frozen : c'.frozen = c.frozen
  reader : c'.reader = c.reader

theorem TreeCache.Same.ext {c c' : TreeCache D} (h : TreeCache.Same c c') : Ext c c' := ⟨h.2, h.3, h.4, h.5⟩
theorem Ext.trans {a b c : TreeCache D} (h : Ext a b) (h' : Ext b c) : Ext a c :=
  ⟨h'.1.trans h.1, h'.2.trans h.2, h'.3.trans h.3, h'.4.trans h.4⟩
theorem Ext.base {c c' : TreeCache D} (h : Ext c c') : c'.base = c.base := by
  funext nk; simp [TreeCache.base, h.frozen, h.reader]
theorem Ext.setRoot (c : TreeCache D) (nk : NodeKey) : Ext c (c.setRootNodeKey nk) := ⟨rfl, rfl, rfl, rfl⟩

theorem statsOk_setRoot {c : TreeCache D} {nk : NodeKey} (h : TreeCache.StatsOk c) : TreeCache.StatsOk (c.setRootNodeKey nk) :=
  ⟨h.1, h.2, h.3, h.4⟩

theorem applyOne_empty_none (ver : Version) (m : Bool) (k : Key) : applyOne ver m k none (.empty : VTree D) = .empty := by
  simp [applyOne, VTree.put, after]
theorem applyOne_empty_some (ver : Version) (m : Bool) (k : Key) (h : D) :
    applyOne ver m k (some h) (.empty : VTree D) = .leaf ver k h := by
  simp [applyOne, VTree.put, after]

/-- Writing the first leaf of an empty tree. -/
theorem createRootLeaf {H : Hasher D} {ver : Version} {c : TreeCache D} {t0 : VTree D}
    (hS : ∀ v q, c.S ⟨v, q⟩ ↔ v < ver ∧ (t0.at? H v q).isSome = true ∧ (.empty : VTree D).at? H v q = none)
    (hb : ∀ v q n, v < ver → t0.at? H v q = some n → c.base ⟨v, q⟩ = some n)
    (hf : ∀ nk, (c.base nk).isSome = true → nk.version < ver) (hl0 : ∀ v q n, t0.at? H v q = some n → v < ver) (hn : c.nextVersion = ver)
    (hst : TreeCache.StatsOk c) (hM : ∀ nk, c.M nk = none) (k : Key) (x : D) :
    ∃ c', (do
        let (c, r) ← Tree.createLeafNode (.newEmptyPath ver) k x c
        pure (c, PutResult.updated r) : Res _) = .ok (c', .updated (⟨ver, []⟩, .leaf ⟨k, x⟩)) ∧ Ext c c' ∧
      Cur H ver (c'.setRootNodeKey ⟨ver, []⟩) t0 (.leaf ver k x) := by
  obtain ⟨c1, e1, e2, e3, e4, e5⟩ := TreeCache.putNode_spec (c := c) (nk := ⟨ver, []⟩) (.leaf ⟨k, x⟩) (hM _)
  refine ⟨c1, by simp [Tree.createLeafNode, NodeKey.newEmptyPath, e1], e2.ext, ?_⟩
  refine ⟨.tree _ (by simp) rfl ?_ (.inl rfl), e2.nextVersion.trans hn, ?_, ?_, ?_, ?_, hl0, ?_, ?_, statsOk_setRoot (e5 hst)⟩
  · intro v q
    have : (c1.setRootNodeKey ⟨ver, []⟩).M ⟨v, q⟩ = c1.M ⟨v, q⟩ := rfl
    rw [this, e3, hM, at?_leaf]
    by_cases hv : v = ver <;> by_cases hq : q = [] <;> simp [hv, hq]
  · intro v q
    have : (c1.setRootNodeKey ⟨ver, []⟩).S ⟨v, q⟩ ↔ c1.S ⟨v, q⟩ := Iff.rfl
    rw [this, e4, hS]
    simp only [at?_empty, at?_leaf]
    constructor
    · rintro ⟨h1, h2, _⟩
      exact ⟨h1, h2, if_neg (by rintro ⟨rfl, _⟩; omega)⟩
    · rintro ⟨h1, h2, _⟩; exact ⟨h1, h2, trivial⟩
  · intro v q n hv hn
    rw [at?_leaf, if_neg (by rintro ⟨rfl, _⟩; omega)] at hn
    cases hn
  · intro v q n hv hn
    have := e2.base
    show c1.base _ = _
    rw [this]; exact hb v q n hv hn
  · intro nk h
    apply hf
    have := e2.base
    change (c1.base nk).isSome = true at h
    rwa [this] at h
  · exact List.nil_prefix
  · exact Nat.le_refl _

/-- The root of version `ver` is known before it is frozen. -/
def RootKnown (c : TreeCache D) (t : VTree D) : Prop :=
  t ≠ .empty ∨ c.rootNodeKey = ⟨c.nextVersion, []⟩ ∨ c.base c.rootNodeKey = some .null

/-- The root node of the current tree can be loaded. -/
def RootThere (c : TreeCache D) (t : VTree D) : Prop := t ≠ .empty ∨ c.getNodeOption c.rootNodeKey = some .null

theorem RootThere.known {H : Hasher D} {ver : Version} {c : TreeCache D} {t0 t : VTree D} (h : RootThere c t) (hc : Cur H ver c t0 t) :
    RootKnown c t := by
  rcases h with h | h
  · exact .inl h
  · rcases hc.root with ⟨t, ht, rk, hM, hsame⟩ | ⟨rk, hM, hr⟩ | ⟨rv, hv, rk, hM, hb, h0⟩
    · exact .inl ht
    · exact .inr (.inl (by rw [rk, hc.next]))
    · rw [TreeCache.getNodeOption_eq, hM] at h
      exact .inr (.inr h)

/-- `put` computes the pure update. -/
theorem put_root_spec (H : Hasher D) (m : Bool) (ver : Version) (key : Key) (x : Option D) (c : TreeCache D) (t0 t : VTree D)
    (hc : Cur H ver c t0 t) :
    ∃ c', Tree.put H m key x ver c = .ok c' ∧ Ext c c' ∧ Cur H ver c' t0 (applyOne ver m key x t) ∧
      (RootKnown c t → RootKnown c' (applyOne ver m key x t)) := by
  rcases hc.root with ⟨t, ht, rk, hM, hsame⟩ | ⟨rk, hM, hr⟩ | ⟨rv, hv, rk, hM, hb, h0⟩
  · have hh := hc.holds hM
    obtain ⟨c1, e1, st⟩ := insertAt_spec H m ver key x t [] key.nibbles (by simp) c hc.wf ht hh
    obtain ⟨hwf, hent, hnone, hupd⟩ := put_spec (ver := ver) (m := m) (k := key) (x := x) t [] key.nibbles (by simp) hc.wf
    have hle := verLe_put (m := m) (k := key) (x := x) t key.nibbles hc.le
    have hold := fun v (hv : v < ver) q n => put_old (H := H) (m := m) (k := key) (x := x) hv t key.nibbles q (n := n)
    unfold Tree.put
    rw [rk, e1]
    simp only [Res.ok_bind]
    have hS : ∀ v q, c1.S ⟨v, q⟩ ↔ v < ver ∧ (t0.at? H v q).isSome = true ∧
        (after t (VTree.put ver m key x key.nibbles t)).at? H v q = none := by
      intro v q
      rw [st.S, hc.S]
      simp only [List.nil_append]
      constructor
      · rintro (⟨h1, h2, h3⟩ | ⟨q', rfl, h1, h2, h3⟩)
        · refine ⟨h1, h2, ?_⟩
          cases hh : (after t (VTree.put ver m key x key.nibbles t)).at? H v q with
          | none => rfl
          | some n => rw [hold v h1 q n hh] at h3; cases h3
        · obtain ⟨n, hn⟩ := Option.isSome_iff_exists.1 h2
          exact ⟨h1, by rw [hc.old v _ n h1 hn]; rfl, h3⟩
      · rintro ⟨h1, h2, h3⟩
        cases hh : t.at? H v q with
        | none => exact .inl ⟨h1, h2, rfl⟩
        | some n => exact .inr ⟨q, rfl, h1, by rw [hh]; rfl, h3⟩
    have hcur : ∀ c2, Ext c1 c2 → (∀ nk, c2.S nk ↔ c1.S nk) → TreeCache.StatsOk c2 →
        RootRep H ver c2 t0 (after t (VTree.put ver m key x key.nibbles t)) →
        Cur H ver c2 t0 (after t (VTree.put ver m key x key.nibbles t)) := by
      intro c2 he hs hst hroot
      refine ⟨hroot, ?_, ?_, ?_, ?_, ?_, hc.lt0, hwf, hle, hst⟩
      · rw [he.nextVersion, st.same.nextVersion, hc.next]
      · intro v q; rw [hs, hS]
      · intro v q n hv hn; exact hc.old v q n hv (hold v hv q n hn)
      · intro v q n hv hn
        rw [he.base, st.same.base]; exact hc.base v q n hv hn
      · intro nk h
        rw [he.base, st.same.base] at h
        exact hc.fresh nk h
    have hM1 : ∀ v q, c1.M ⟨v, q⟩ = if v = ver then (after t (VTree.put ver m key x key.nibbles t)).at? H v q else none := by
      intro v q; simpa using st.M v q
    unfold applyOne
    cases hp : VTree.put ver m key x key.nibbles t with
    | notChanged =>
      rw [hp] at hcur hM1
      simp only [after] at hcur hM1
      simp only [resOf, after]
      refine ⟨c1, rfl, st.same.ext, hcur c1 ⟨rfl, rfl, rfl, rfl⟩ (fun _ => Iff.rfl) (st.stats hc.stats) ?_, fun _ => .inl ht⟩
      exact .tree t ht (st.same.rootNodeKey.trans rk) hM1 hsame
    | removed =>
      rw [hp] at hcur hM1
      simp only [after, at?_empty] at hcur hM1
      simp only [resOf, after]
      have hM2 : (c1.setRootNodeKey (.newEmptyPath ver)).M ⟨ver, []⟩ = none := by
        have := hM1 ver []
        show c1.M _ = none
        simpa using this
      obtain ⟨c2, f1, f2, f3, f4, f5⟩ := TreeCache.putNode_spec (c := c1.setRootNodeKey (.newEmptyPath ver))
        (nk := ⟨ver, []⟩) .null hM2
      have hext : Ext c1 c2 := (Ext.setRoot _ _).trans f2.ext
      refine ⟨c2, f1, st.same.ext.trans hext, hcur c2 hext f4 (f5 (statsOk_setRoot (st.stats hc.stats))) ?_,
        fun _ => .inr (.inl ?_)⟩
      · refine .newNull f2.rootNodeKey ?_ (.inr ?_)
        · intro nk hnk
          rw [f3, if_neg hnk]
          have := hM1 nk.version nk.path
          show c1.M _ = none
          simpa using this
        · rw [f3]; simp
      · rw [f2.rootNodeKey, f2.nextVersion]
        show NodeKey.newEmptyPath ver = ⟨c1.nextVersion, []⟩
        rw [st.same.nextVersion, hc.next]; rfl
    | updated t' =>
      obtain ⟨hne, hver⟩ := hupd t' hp
      rw [hp] at hcur hM1
      simp only [after] at hcur hM1
      simp only [resOf, after]
      refine ⟨_, rfl, st.same.ext.trans (Ext.setRoot _ _), hcur _ (Ext.setRoot _ _) (fun _ => Iff.rfl)
        (statsOk_setRoot (st.stats hc.stats)) ?_, fun _ => .inl hne⟩
      exact .tree t' hne (by rw [hver]; rfl) hM1 (.inl hver)
  · -- null root of the version being built
    unfold Tree.put Tree.insertAt
    rw [rk]
    have hlen : key.nibbles.length = 64 := by simp
    have hbase : c.base ⟨ver, []⟩ = none := by
      cases h : c.base ⟨ver, []⟩ with
      | none => rfl
      | some n =>
        have := hc.fresh ⟨ver, []⟩ (by rw [h]; rfl)
        simp at this
    -- state after the null node has been taken out
    have hkey : ∃ ex c1, (match c.getNodeOption ⟨ver, []⟩ with
          | some _ => true
          | none => false) = ex ∧
        (if (⟨ver, []⟩ : NodeKey).version = ver ∧ ex = true then c.deleteNode ⟨ver, []⟩ false else pure c : Res _) = .ok c1 ∧
        TreeCache.Same c c1 ∧ (∀ nk, c1.M nk = none) ∧ (∀ nk, c1.S nk ↔ c.S nk) ∧ TreeCache.StatsOk c1 ∧
        (c.getNodeOption ⟨ver, []⟩ = none ∨ c.getNodeOption ⟨ver, []⟩ = some .null) := by
      rcases hr with hr | hr
      · have hg : c.getNodeOption ⟨ver, []⟩ = none := by
          rw [TreeCache.getNodeOption_eq, hr]; exact hbase
        refine ⟨false, c, by rw [hg], by simp, TreeCache.Same.refl c, ?_, fun _ => Iff.rfl, hc.stats, .inl hg⟩
        intro nk
        by_cases h : nk = ⟨ver, []⟩
        · rw [h]; exact hr
        · exact hM nk h
      · have hg : c.getNodeOption ⟨ver, []⟩ = some .null := by
          rw [TreeCache.getNodeOption_eq, hr]
        obtain ⟨c1, e1, e2, e3, e4, e5⟩ := TreeCache.deleteNode_new hr (fun _ => hc.stats)
        refine ⟨true, c1, by rw [hg], ?_, e2, ?_, e4, e5 hc.stats, .inr hg⟩
        · simpa [Node.isLeaf] using e1
        · intro nk
          rw [e3]
          split
          · rfl
          · rename_i h; exact hM nk h
    obtain ⟨ex, c1, hex, hdel, hs, hM1, hS1, hst1, hg⟩ := hkey
    have hcur : Cur H ver c1 t0 .empty := by
      refine ⟨.newNull (hs.rootNodeKey.trans rk) (fun nk _ => hM1 nk) (.inl (hM1 _)), hs.nextVersion.trans hc.next, ?_, hc.old, ?_, ?_, hc.lt0,
        hc.wf, hc.le, hst1⟩
      · intro v q; rw [hS1, hc.S]
      · intro v q n hv hn; rw [hs.base]; exact hc.base v q n hv hn
      · intro nk h; rw [hs.base] at h; exact hc.fresh nk h
    have hins : ∀ (r : Res (TreeCache D × PutResult (NodeKey × Node D))),
        r = (match x with
          | some vh => do
            let (c, r) ← Tree.createLeafNode (.newEmptyPath ver) key vh c1
            pure (c, .updated r)
          | none => pure (c1, .notChanged)) →
        ∃ c', (do
          let (c, r) ← r
          match r with
          | .updated (nk, _) => pure (c.setRootNodeKey nk)
          | .notChanged => pure c
          | .removed => do
            let k := NodeKey.newEmptyPath ver
            let c := c.setRootNodeKey k
            c.putNode k .null : Res _) = .ok c' ∧ Ext c c' ∧ Cur H ver c' t0 (applyOne ver m key x .empty) ∧
            (RootKnown c .empty → RootKnown c' (applyOne ver m key x .empty)) := by
      intro r hr
      subst hr
      cases x with
      | none => exact ⟨c1, rfl, hs.ext, by rw [applyOne_empty_none]; exact hcur,
        fun _ => .inr (.inl (by rw [hs.rootNodeKey, rk, hs.nextVersion, hc.next]))⟩
      | some h =>
        obtain ⟨c2, f1, f2, f3⟩ := createRootLeaf (H := H) hcur.S hcur.base hcur.fresh hcur.lt0 hcur.next hst1 hM1 key h
        refine ⟨_, ?_, hs.ext.trans (f2.trans (Ext.setRoot _ ⟨ver, []⟩)), by rw [applyOne_empty_some]; exact f3,
          fun _ => .inl (by rw [applyOne_empty_some]; simp)⟩
        simp only []
        rw [f1]
        rfl
    rcases hg with hg | hg
    · rw [hg] at hex ⊢
      simp only at hex ⊢
      subst hex
      apply hins
      unfold Tree.insertAt.insertNull
      simp at hdel
      subst hdel
      cases x <;> simp
    · rw [hg] at hex ⊢
      simp only at hex ⊢
      subst hex
      apply hins
      unfold Tree.insertAt.insertNull
      simp at hdel
      cases x <;> simp [hdel]
  · unfold Tree.put Tree.insertAt
    rw [rk]
    have hlen : key.nibbles.length = 64 := by simp
    have hrv : ¬ (rv = ver) := by omega
    have hins : ∀ ex, ∃ c', (do
          let (c, r) ← Tree.insertAt.insertNull ver key x ⟨rv, []⟩ ex c
          match r with
          | .updated (nk, _) => pure (c.setRootNodeKey nk)
          | .notChanged => pure c
          | .removed => do
            let k := NodeKey.newEmptyPath ver
            let c := c.setRootNodeKey k
            c.putNode k .null : Res _) = .ok c' ∧ Ext c c' ∧ Cur H ver c' t0 (applyOne ver m key x .empty) ∧
            (RootKnown c .empty → RootKnown c' (applyOne ver m key x .empty)) := by
      intro ex
      unfold Tree.insertAt.insertNull
      simp only [hrv, false_and, if_false]
      cases x with
      | none => exact ⟨c, rfl, ⟨rfl, rfl, rfl, rfl⟩, by rw [applyOne_empty_none]; exact hc,
        by rw [applyOne_empty_none]; exact id⟩
      | some h =>
        obtain ⟨c2, f1, f2, f3⟩ := createRootLeaf (H := H) hc.S hc.base hc.fresh hc.lt0 hc.next hc.stats hM key h
        refine ⟨_, ?_, f2.trans (Ext.setRoot _ ⟨ver, []⟩), by rw [applyOne_empty_some]; exact f3,
          fun _ => .inl (by rw [applyOne_empty_some]; simp)⟩
        simp only [List.isEmpty_nil, ensure_true, Res.ok_bind, Res.pure_eq] at f1 ⊢
        rw [f1]
        rfl
    rcases hb with hb | hb
    · have hg : c.getNodeOption ⟨rv, []⟩ = some .null := by rw [TreeCache.getNodeOption_eq, hM]; exact hb
      rw [hg]; exact hins true
    · have hg : c.getNodeOption ⟨rv, []⟩ = none := by rw [TreeCache.getNodeOption_eq, hM]; exact hb
      rw [hg]; exact hins false

end Verif.Jmt
