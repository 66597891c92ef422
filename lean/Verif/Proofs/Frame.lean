import Verif.Proofs.Fork
import Verif.Proofs.RestoreBeside
/-! Updates on a store that holds older versions beside the tree they go on from. They read and write what they would read and write
without the older versions. -/

set_option autoImplicit false

namespace Verif.Jmt
variable {D : Type}
open VTree Spec

theorem over_getNodeOption {c : TreeCache D} {r : Reader D} {nk : NodeKey} (h : r.getNodeOption nk = c.reader.getNodeOption nk) :
    (c.over r).getNodeOption nk = c.getNodeOption nk := by
  unfold TreeCache.getNodeOption TreeCache.over
  dsimp only
  rw [h]

/-- `put` where the root is read alike, be it there or not. -/
theorem put_frame (H : Hasher D) (m : Bool) (key : Key) (x : Option D) (ver : Version) (c : TreeCache D) (r : Reader D)
    (hc : Within (fun _ => False) c r) (hr : r.getNodeOption c.rootNodeKey = c.reader.getNodeOption c.rootNodeKey) :
    Carries (fun _ => False) (TreeCache.over r) (Tree.put H m key x ver c) (Tree.put H m key x ver (c.over r)) := by
  cases hn : c.getNodeOption c.rootNodeKey with
  | some n => exact put_over H m key x ver c r (fun _ _ h => h) hc (by rw [hn]; rfl)
  | none =>
    have hn' : (c.over r).getNodeOption c.rootNodeKey = none := (over_getNodeOption hr).trans hn
    have hnone : ∀ c : TreeCache D, ∀ nk, c.getNodeOption nk = none → ∀ rest vis,
        Tree.insertAt H m ver key x rest vis nk c = Tree.insertAt.insertNull ver key x nk false c := by
      intro c nk h rest vis
      cases rest with
      | nil => unfold Tree.insertAt; rw [h]
      | cons i rest => unfold Tree.insertAt; rw [h]
    unfold Tree.put
    rw [show (c.over r).rootNodeKey = c.rootNodeKey from rfl, hnone c _ hn, hnone (c.over r) _ hn']
    refine (insertNull_over ver key x c.rootNodeKey false c).bind ?_
    rintro ⟨c1, res⟩ _
    cases res with
    | updated a => exact Carries.pure (TreeCache.over r) _
    | notChanged => exact Carries.pure (TreeCache.over r) _
    | removed => exact putNode_over (c1.setRootNodeKey _) _ _

theorem freeze_frame (H : Hasher D) (c : TreeCache D) (r : Reader D) (hc : Within (fun _ => False) c r)
    (hr : r.getNodeOption c.rootNodeKey = c.reader.getNodeOption c.rootNodeKey) :
    Carries (fun _ => False) (TreeCache.over r) (c.freeze H) ((c.over r).freeze H) := by
  cases hn : c.getNodeOption c.rootNodeKey with
  | some n => exact freeze_over H c r hc hn ((over_getNodeOption hr).trans hn)
  | none =>
    have hn' : (c.over r).getNodeOption (c.over r).rootNodeKey = none := (over_getNodeOption hr).trans hn
    unfold TreeCache.freeze TreeCache.freezeRoot
    rw [hn, hn']
    refine Carries.bind (g := fun a : TreeCache D × Node D => (a.1.over r, a.2)) ?_ ?_
    · exact (putNode_over c c.rootNodeKey .null).bind (fun a _ => Carries.pure (fun a : TreeCache D × Node D => (a.1.over r, a.2)) _)
    · rintro ⟨c1, n⟩ h1
      have hrd : c1.reader = c.reader := by
        cases hp : c.putNode c.rootNodeKey .null with
        | error e => rw [hp] at h1; cases h1
        | ok c2 => rw [hp] at h1; cases h1; exact putNode_reader hp
      refine Carries.bind (g := TreeCache.over r) ?_ (fun a _ => Carries.pure (TreeCache.over r) _)
      unfold TreeCache.freezeCopy
      by_cases h : (c1.pushRoot (n.hash H)).nextVersion > 0 ∧ (c1.pushRoot (n.hash H)).nodeCache.isEmpty = true ∧
          (c1.pushRoot (n.hash H)).staleNodeIndexCache.isEmpty = true
      · have h' : ((c1.over r).pushRoot (n.hash H)).nextVersion > 0 ∧ ((c1.over r).pushRoot (n.hash H)).nodeCache.isEmpty = true ∧
          ((c1.over r).pushRoot (n.hash H)).staleNodeIndexCache.isEmpty = true := h
        rw [if_pos h, if_pos h']
        have hw : Within (fun _ => False) (c1.pushRoot (n.hash H)) r := by intro nk x hx; exact hc nk x (by rw [← hrd]; exact hx)
        exact (hw.getNode _).bind (fun a _ => putNode_over (c1.pushRoot (n.hash H)) _ _)
      · have h' : ¬ (((c1.over r).pushRoot (n.hash H)).nextVersion > 0 ∧ ((c1.over r).pushRoot (n.hash H)).nodeCache.isEmpty = true ∧
          ((c1.over r).pushRoot (n.hash H)).staleNodeIndexCache.isEmpty = true) := h
        rw [if_neg h, if_neg h']
        exact Carries.pure (TreeCache.over r) _

/-! the version of the root key -/

theorem putNode_root {c c' : TreeCache D} {nk : NodeKey} {n : Node D} (h : c.putNode nk n = .ok c') : c'.rootNodeKey = c.rootNodeKey := by
  unfold TreeCache.putNode at h
  split at h
  · cases h
  · cases h; rfl

theorem deleteNode_root {c c' : TreeCache D} {nk : NodeKey} {b : Bool} (h : c.deleteNode nk b = .ok c') : c'.rootNodeKey = c.rootNodeKey := by
  unfold TreeCache.deleteNode at h
  split at h
  · split at h
    · cases h
    · cases h; rfl
  · split at h
    · cases h
    · cases h; rfl

theorem freeze_root {H : Hasher D} {c c' : TreeCache D} (h : c.freeze H = .ok c') : c'.rootNodeKey = c.rootNodeKey := by
  unfold TreeCache.freeze at h
  obtain ⟨⟨c1, n⟩, h1, h⟩ := Res.bind_ok h
  obtain ⟨c2, h2, h⟩ := Res.bind_ok h
  cases h
  have e1 : c1.rootNodeKey = c.rootNodeKey := by
    unfold TreeCache.freezeRoot at h1
    split at h1
    · cases h1; rfl
    · obtain ⟨c3, h3, h1⟩ := Res.bind_ok h1
      cases h1
      exact putNode_root h3
  have e2 : c2.rootNodeKey = c1.rootNodeKey := by
    unfold TreeCache.freezeCopy at h2
    split at h2
    · obtain ⟨n3, _, h2⟩ := Res.bind_ok h2
      have := putNode_root h2
      exact this
    · cases h2; rfl
  exact e2.trans e1

/-- The root key of an empty tree names a null node or nothing. -/
theorem Cur.rootNull {H : Hasher D} {ver : Version} {c : TreeCache D} {t0 : VTree D} (hc : Cur H ver c t0 .empty) :
    c.getNodeOption c.rootNodeKey = none ∨ c.getNodeOption c.rootNodeKey = some .null := by
  rw [TreeCache.getNodeOption_eq]
  rcases hc.root with ⟨t, ht, rk, hM, hsame⟩ | ⟨rk, hM, hr⟩ | ⟨rv, hv, rk, hM, hb, h0⟩
  · exact absurd rfl ‹_›
  · rw [rk]
    rcases hr with h | h
    · rw [h]
      left
      cases hb : c.base ⟨ver, []⟩ with
      | none => rfl
      | some n =>
        have := hc.fresh ⟨ver, []⟩ (by rw [hb]; rfl)
        simp at this
    · rw [h]; right; rfl
  · rw [rk, hM]
    rcases hb with h | h
    · right; rw [h]
    · left; rw [h]

theorem put_rootVersion {H : Hasher D} {m : Bool} {ver w : Version} {key : Key} {x : Option D} {c c' : TreeCache D} {t0 t : VTree D}
    (hc : Cur H ver c t0 t) (hw : w ≤ ver) (hr : w ≤ c.rootNodeKey.version)
    (hp : Tree.put H m key x ver c = .ok c') : w ≤ c'.rootNodeKey.version := by
  unfold Tree.put at hp
  obtain ⟨⟨c1, res⟩, h1, hp⟩ := Res.bind_ok hp
  have key : (c1.rootNodeKey = c.rootNodeKey) ∧ ∀ a, res = .updated a → a.1.version = ver := by
    by_cases ht : t = .empty
    · subst ht
      have hins : ∃ b, Tree.insertAt H m ver key x key.nibbles [] c.rootNodeKey c = Tree.insertAt.insertNull ver key x c.rootNodeKey b c := by
        rcases hc.rootNull with h | h
        · refine ⟨false, ?_⟩
          cases key.nibbles with
          | nil => unfold Tree.insertAt; rw [h]
          | cons i rest => unfold Tree.insertAt; rw [h]
        · refine ⟨true, ?_⟩
          cases key.nibbles with
          | nil => unfold Tree.insertAt; rw [h]
          | cons i rest => unfold Tree.insertAt; rw [h]
      obtain ⟨b, hb⟩ := hins
      rw [hb] at h1
      unfold Tree.insertAt.insertNull at h1
      obtain ⟨_, _, h1⟩ := Res.bind_ok h1
      have hend : ∀ c2 : TreeCache D, c2.rootNodeKey = c.rootNodeKey → (match x with
          | some vh => (do
            let (c, r) ← Tree.createLeafNode (.newEmptyPath ver) key vh c2
            pure (c, .updated r) : Res (TreeCache D × PutResult (NodeKey × Node D)))
          | none => pure (c2, .notChanged)) = .ok (c1, res) →
          (c1.rootNodeKey = c.rootNodeKey) ∧ ∀ a, res = .updated a → a.1.version = ver := by
        intro c2 hc2 h
        cases x with
        | none => cases h; exact ⟨hc2, by intro a ha; cases ha⟩
        | some vh =>
          obtain ⟨⟨c3, r3⟩, h3, h⟩ := Res.bind_ok h
          cases h
          unfold Tree.createLeafNode at h3
          obtain ⟨c4, h4, h3⟩ := Res.bind_ok h3
          cases h3
          exact ⟨(putNode_root h4).trans hc2, by intro a ha; cases ha; rfl⟩
      dsimp only at h1
      split at h1
      · obtain ⟨c2, h2, h1⟩ := Res.bind_ok h1
        exact hend c2 (deleteNode_root h2) h1
      · exact hend c rfl h1
    · rcases hc.root with ⟨t, _, rk, hM, hsame⟩ | ⟨rk, hM, hr⟩ | ⟨rv, hv, rk, hM, hb, h0⟩
      · obtain ⟨c2, e1, st⟩ := insertAt_spec H m ver key x t [] key.nibbles (by simp) c hc.wf ht (hc.holds hM)
        rw [rk, e1] at h1
        simp only [Except.ok.injEq, Prod.mk.injEq] at h1
        obtain ⟨rfl, rfl⟩ := h1
        refine ⟨st.same.rootNodeKey, ?_⟩
        intro a ha
        cases hq : VTree.put ver m key x key.nibbles t with
        | notChanged => rw [hq] at ha; cases ha
        | removed => rw [hq] at ha; cases ha
        | updated t' => rw [hq] at ha; cases ha; rfl
      · exact absurd rfl ht
      · exact absurd rfl ht
  obtain ⟨k1, k2⟩ := key
  cases res with
  | updated a =>
    cases hp
    show w ≤ a.1.version
    rw [k2 a rfl]; exact hw
  | notChanged => cases hp; rw [k1]; exact hr
  | removed =>
    have hp : (c1.setRootNodeKey (.newEmptyPath ver)).putNode (.newEmptyPath ver) .null = .ok c' := hp
    rw [putNode_root hp]
    exact hw

theorem putSet_frame (H : Hasher D) (m : Bool) (ver w : Version) (hw : w ≤ ver) (s : Tree.ValueSet) (c : TreeCache D) (t0 t : VTree D)
    (r : Reader D) (hc : Cur H ver c t0 t) (hin : Within (fun _ => False) c r)
    (hr : ∀ nk : NodeKey, w ≤ nk.version → r.getNodeOption nk = c.reader.getNodeOption nk) (hroot : w ≤ c.rootNodeKey.version) {c' : TreeCache D}
    (h : Tree.putSet H m ver s c = .ok c') :
    Tree.putSet H m ver s (c.over r) = .ok (c'.over r) ∧ w ≤ c'.rootNodeKey.version := by
  induction s generalizing c t with
  | nil => cases h; exact ⟨rfl, hroot⟩
  | cons e s ih =>
    obtain ⟨k0, x0⟩ := e
    have hc0 := hc.putValue ver k0 x0
    obtain ⟨c1, e1, e2, e3, e4⟩ := put_root_spec H m ver k0 (x0.map H.value) (c.putValue ver k0 x0) t0 t hc0
    have hv := (put_frame H m k0 (x0.map H.value) ver (c.putValue ver k0 x0) r hin (hr _ hroot)).strict e1
    have hr1 := put_rootVersion hc0 hw hroot e1
    have hrd : c1.reader = c.reader := e2.reader
    simp only [Tree.putSet, e1, Res.ok_bind] at h
    obtain ⟨i1, i2⟩ := ih c1 _ e3 (by intro nk n hn; rw [hrd] at hn; exact hin nk n hn) (by rw [hrd]; exact hr) hr1 h
    refine ⟨?_, i2⟩
    simp only [Tree.putSet]
    rw [show (c.over r).putValue ver k0 x0 = (c.putValue ver k0 x0).over r from rfl, hv]
    exact i1

theorem putSets_frame {H : Hasher D} {St0 : Version → NodeKey → Prop} {v0 first lo w : Version} (m : Bool) (sets : List Tree.ValueSet)
    (hist : List Commit) (c : TreeCache D) (t : VTree D) (r : Reader D) (h : CacheInv H St0 v0 first lo hist c t) (hk : RootThere c t)
    (hw : w ≤ v0 + hist.length) (hin : Within (fun _ => False) c r)
    (hr : ∀ nk : NodeKey, w ≤ nk.version → r.getNodeOption nk = c.reader.getNodeOption nk) (hroot : w ≤ c.rootNodeKey.version) {c' : TreeCache D}
    (hp : Tree.putSets H m (v0 + hist.length) sets c = .ok c') :
    Tree.putSets H m (v0 + hist.length) sets (c.over r) = .ok (c'.over r) := by
  induction sets generalizing hist c t with
  | nil => cases hp; rfl
  | cons s sets ih =>
    obtain ⟨c1, e1, e2, e3, e4, e5, e6, e7⟩ := putSet_spec H m (v0 + hist.length) s c t t h.cur
    have hkn : RootKnown c1 (applySet (v0 + hist.length) m (hashSet H s) t) := e7 (hk.known h.cur)
    obtain ⟨c2, f1, f2, f3, f4⟩ := h.step (.seq m s) e2 hkn (quiet_seq H m s h.wf0) e3 e4 (e5 (by rw [h.vempty]; exact FMap.nodupKeys_empty)) (by
      intro v k
      rw [e6, h.vempty]
      simp [Commit.updates])
    obtain ⟨g1, g2⟩ := putSet_frame H m _ w hw s c t t r h.cur hin hr hroot e1
    have hin1 : Within (fun _ => False) c1 r := by intro nk n hn; rw [e4] at hn; exact hin nk n hn
    have hv := (freeze_frame H c1 r hin1 (by rw [e4]; exact hr _ g2)).strict f1
    have hlen : v0 + (hist ++ [Commit.seq m s]).length = v0 + hist.length + 1 := by simp; omega
    have := ih (hist ++ [.seq m s]) c2 _ f2 f3 (by omega) (by intro nk n hn; rw [f4] at hn; exact hin nk n hn) (by rw [f4]; exact hr)
      (by rw [freeze_root f1]; exact g2)
    rw [hlen] at this
    simp only [Tree.putSets, e1, f1, Res.ok_bind] at hp
    simp only [Tree.putSets, g1, hv, Res.ok_bind]
    exact this hp

/-- `put_value_sets` gives the same where there are other nodes, all of them older than the tree. -/
theorem putValueSets_frame {H : Hasher D} {v0 lo w : Version} {hist : List Commit} {a : Store D} (h : StoreInv H v0 hist lo a)
    (hw : w < v0 + hist.length) (hne : hist ≠ []) {r : Reader D} (hin : ∀ nk n, a.reader.getNodeOption nk = some n → r.getNodeOption nk = some n)
    (hr : ∀ nk : NodeKey, w ≤ nk.version → r.getNodeOption nk = a.reader.getNodeOption nk) (m : Bool)
    (sets : List Tree.ValueSet) {x : List D × TreeUpdateBatch D} (hx : Tree.putValueSets H m a.reader sets (v0 + hist.length) = .ok x) :
    Tree.putValueSets H m r sets (v0 + hist.length) = .ok x := by
  have hpos : 0 < hist.length := List.length_pos_iff.2 hne
  have hv : v0 + hist.length ≠ 0 := by omega
  obtain ⟨t, h1, h2, h3, h4, h5⟩ := h.start
  unfold Tree.putValueSets at hx ⊢
  obtain ⟨c, hc, hx⟩ := Res.bind_ok hx
  cases hx
  have hroot : w ≤ (TreeCache.new a.reader (v0 + hist.length)).rootNodeKey.version := by
    unfold TreeCache.new
    simp only [if_neg hv]
    show w ≤ v0 + hist.length - 1
    omega
  have := putSets_frame (w := w) m sets hist _ t r h1 (h3 (.inl hne)) (by omega)
    (by intro nk n hn; rw [new_reader hv] at hn; exact .inl (hin nk n hn)) (by rw [new_reader hv]; exact hr) hroot hc
  rw [new_over hv] at this
  rw [this]
  rfl

/-! ### the store -/

/-- All nodes and values of the store are older than `w`, and every mark of a stale node names a node that is there, each node once. -/
structure Tidy (w : Version) (d : Store D) : Prop where
  nodes : ∀ nk n, d.nodes.get nk = some n → nk.version < w
  values : ∀ k, ∀ e ∈ vhGet d.valueHistory k, e.1 < w
  snodup : d.staleNodes.elems.Nodup
  uniq : ∀ i ∈ d.staleNodes, ∀ j ∈ d.staleNodes, i.nodeKey = j.nodeKey → i = j
  there : ∀ i ∈ d.staleNodes, (d.nodes.get i.nodeKey).isSome = true

theorem Tidy.mono {w w' : Version} {d : Store D} (h : Tidy w d) (hw : w ≤ w') : Tidy w' d :=
  ⟨fun nk n hn => Nat.lt_of_lt_of_le (h.nodes nk n hn) hw, fun k e he => Nat.lt_of_lt_of_le (h.values k e he) hw, h.snodup, h.uniq, h.there⟩

theorem StoreInv.tidy {H : Hasher D} {v0 lo : Version} {hist : List Commit} {s : Store D} (h : StoreInv H v0 hist lo s) :
    Tidy (v0 + hist.length) s := by
  refine ⟨?_, ?_, h.snodup, ?_, ?_⟩
  · rintro ⟨v, q⟩ n hn
    exact (h.inv.dom v q n hn).2.1
  · intro k e he
    rw [h.values] at he
    exact (histOf_bounds he).2.1
  · rintro ⟨si, ki⟩ hi ⟨sj, kj⟩ hj hk
    simp only at hk
    subst hk
    rw [h.inv.uniq si sj ki hi hj]
  · rintro ⟨si, ⟨v, q⟩⟩ hi
    exact (h.inv.stale si v q hi).2.2.2.1

/-- Pruning a tidy store. -/
theorem Tidy.purge {w : Version} {d : Store D} (h : Tidy w d) (m : Version) :
    ∃ d', d.purgeStaleNodes m = .ok d' ∧ Tidy w d' ∧
      (∀ nk, d'.nodes.get nk = if ∃ i ∈ d.staleNodes, i.nodeKey = nk ∧ i.staleSinceVersion ≤ m then none else d.nodes.get nk) ∧
      (∀ i, i ∈ d'.staleNodes ↔ i ∈ d.staleNodes ∧ m < i.staleSinceVersion) ∧ d'.valueHistory = d.valueHistory := by
  have hmem : ∀ i, i ∈ d.staleNodes.elems.filter (fun l => decide (l.staleSinceVersion ≤ m)) ↔
      i ∈ d.staleNodes ∧ i.staleSinceVersion ≤ m := by
    intro i; rw [List.mem_filter, decide_eq_true_eq]; rfl
  obtain ⟨s', e1, e2, e3, e4, e5, e6, e7⟩ := purgeLoop_spec
    (d.staleNodes.elems.filter (fun l => decide (l.staleSinceVersion ≤ m))) d (by
      rw [List.Nodup, List.pairwise_map]
      refine List.Pairwise.imp_of_mem ?_ (List.Pairwise.filter _ h.snodup)
      intro a b ha hb hab he
      exact hab (h.uniq a ((hmem a).1 ha).1 b ((hmem b).1 hb).1 he)) (fun i hi => h.there i ((hmem i).1 hi).1)
  have hnk : ∀ nk, nk ∈ (d.staleNodes.elems.filter (fun l => decide (l.staleSinceVersion ≤ m))).map StaleNodeIndex.nodeKey ↔
      ∃ i ∈ d.staleNodes, i.nodeKey = nk ∧ i.staleSinceVersion ≤ m := by
    intro nk
    rw [List.mem_map]
    constructor
    · rintro ⟨i, hi, rfl⟩
      exact ⟨i, ((hmem i).1 hi).1, rfl, ((hmem i).1 hi).2⟩
    · rintro ⟨i, h1, rfl, h2⟩
      exact ⟨i, (hmem i).2 ⟨h1, h2⟩, rfl⟩
  have hn : ∀ nk, s'.nodes.get nk = if ∃ i ∈ d.staleNodes, i.nodeKey = nk ∧ i.staleSinceVersion ≤ m then none else d.nodes.get nk := by
    intro nk
    rw [e2]
    simp only [hnk]
  have hst : ∀ i, i ∈ s'.staleNodes ↔ i ∈ d.staleNodes ∧ m < i.staleSinceVersion := by
    intro i
    rw [e3, hmem]
    constructor
    · rintro ⟨h1, h2⟩; refine ⟨h1, ?_⟩; by_contra hc; exact h2 ⟨h1, by omega⟩
    · rintro ⟨h1, h2⟩; exact ⟨h1, by rintro ⟨_, h3⟩; omega⟩
  refine ⟨s', e1, ⟨?_, by rw [e4]; exact h.values, e7 h.snodup, ?_, ?_⟩, hn, hst, e4⟩
  · intro nk n hnn
    rw [hn] at hnn
    split at hnn
    · cases hnn
    · exact h.nodes nk n hnn
  · intro i hi j hj hk
    exact h.uniq i ((hst i).1 hi).1 j ((hst j).1 hj).1 hk
  · intro i hi
    obtain ⟨h1, h2⟩ := (hst i).1 hi
    rw [hn, if_neg]
    · exact h.there i h1
    · rintro ⟨j, hj, hk, hm⟩
      have := h.uniq i h1 j hj hk.symm
      subst this
      omega

/-- `s` is the store `a` of a history that begins with version `w`, beside the older store `d`. -/
structure Beside (H : Hasher D) (w : Version) (hist : List Commit) (lo : Version) (d a s : Store D) : Prop where
  tidyOld : Tidy w d
  inv : StoreInv H w hist lo a
  ne : hist ≠ []
  nodes : NodesOver d.nodes a.nodes s.nodes
  values : ∀ k, vhGet s.valueHistory k = vhGet d.valueHistory k ++ vhGet a.valueHistory k
  stale : ∀ i, i ∈ s.staleNodes ↔ i ∈ d.staleNodes ∨ i ∈ a.staleNodes
  snodup : s.staleNodes.elems.Nodup

section
variable {H : Hasher D} {w lo : Version} {hist : List Commit} {d a s : Store D}

theorem Beside.alone (h : Beside H w hist lo d a s) {nk : NodeKey} {n : Node D} (hn : d.nodes.get nk = some n) : a.nodes.get nk = none := by
  cases hg : a.nodes.get nk with
  | none => rfl
  | some n' =>
    have h1 := h.tidyOld.nodes nk n hn
    have h2 := (h.inv.inv.dom nk.version nk.path n' hg).1
    omega

theorem Beside.old (h : Beside H w hist lo d a s) {nk : NodeKey} {n : Node D} (hn : d.nodes.get nk = some n) : s.nodes.get nk = some n := by
  rw [h.nodes, h.alone hn, hn]; rfl

theorem Beside.new (h : Beside H w hist lo d a s) {nk : NodeKey} (hw : w ≤ nk.version) : s.nodes.get nk = a.nodes.get nk := by
  rw [h.nodes]
  cases hg : d.nodes.get nk with
  | none => simp
  | some n => have := h.tidyOld.nodes nk n hg; omega

theorem Beside.below (h : Beside H w hist lo d a s) : Below a.reader s.reader := by
  constructor
  · intro nk n hn
    have hn : a.nodes.get nk = some n := hn
    show s.nodes.get nk = some n
    rw [h.nodes, hn]; rfl
  · intro v k x hx
    have hx : a.getValueOption v k = some x := hx
    show s.getValueOption v k = some x
    rw [getValueOption_eq] at hx ⊢
    rw [h.values, List.reverse_append, List.find?_append]
    cases hg : (vhGet a.valueHistory k).reverse.find? (fun e => decide (e.1 ≤ v)) with
    | none => rw [hg] at hx; cases hx
    | some e => rw [hg] at hx; exact hx

/-- Values of older versions. -/
theorem Beside.oldValue (h : Beside H w hist lo d a s) {u : Version} (hu : u < w) (k : Key) : s.getValueOption u k = d.getValueOption u k := by
  rw [getValueOption_eq, getValueOption_eq, h.values, List.reverse_append, List.find?_append]
  have : (vhGet a.valueHistory k).reverse.find? (fun e => decide (e.1 ≤ u)) = none := by
    rw [List.find?_eq_none]
    intro e he
    rw [List.mem_reverse, h.inv.values] at he
    have := (histOf_bounds he).1
    simp only [decide_eq_true_eq]
    omega
  rw [this]; rfl

theorem Beside.tidy (h : Beside H w hist lo d a s) : Tidy (w + hist.length) s := by
  have ht := h.inv.tidy
  refine ⟨?_, ?_, h.snodup, ?_, ?_⟩
  · intro nk n hn
    rw [h.nodes] at hn
    cases hg : a.nodes.get nk with
    | none => rw [hg] at hn; have := h.tidyOld.nodes nk n hn; omega
    | some n' => exact ht.nodes nk n' hg
  · intro k e he
    rw [h.values] at he
    rcases List.mem_append.1 he with he | he
    · have := h.tidyOld.values k e he; omega
    · exact ht.values k e he
  · have hcross : ∀ i ∈ d.staleNodes, ∀ j ∈ a.staleNodes, i.nodeKey ≠ j.nodeKey := by
      intro i hi j hj hk
      obtain ⟨n, hn⟩ := Option.isSome_iff_exists.1 (h.tidyOld.there i hi)
      have := ht.there j hj
      rw [← hk, h.alone hn] at this
      cases this
    intro i hi j hj hk
    rcases (h.stale i).1 hi with hi | hi <;> rcases (h.stale j).1 hj with hj | hj
    · exact h.tidyOld.uniq i hi j hj hk
    · exact absurd hk (hcross i hi j hj)
    · exact absurd hk.symm (hcross j hj i hi)
    · exact ht.uniq i hi j hj hk
  · intro i hi
    rcases (h.stale i).1 hi with hi | hi
    · obtain ⟨n, hn⟩ := Option.isSome_iff_exists.1 (h.tidyOld.there i hi)
      rw [h.old hn]; rfl
    · obtain ⟨n, hn⟩ := Option.isSome_iff_exists.1 (ht.there i hi)
      rw [h.nodes, hn]; rfl

theorem Beside.write (h : Beside H w hist lo d a s) {new : List Commit} {roots : List D} {b : TreeUpdateBatch D}
    (hb : BatchSpec H w hist new lo a roots b) :
    ∃ a' s', s.writeTreeUpdateBatch b = .ok s' ∧ Beside H w (hist ++ new) lo d a' s' := by
  have ht := h.tidy
  obtain ⟨a', w1, w2, w3, w4, _⟩ := h.inv.write hb
  have hfree : ∀ e ∈ b.nodeBatch.nodes.entries, s.nodes.get e.1 = none := by
    rintro ⟨nk, n⟩ he
    have h1 := hb.fresh nk (by rw [FMap.get_of_mem hb.nodup he]; rfl)
    cases hh : s.nodes.get nk with
    | none => rfl
    | some n' => have := ht.nodes nk n' hh; omega
  have e1 := writeNodes_spec s.allowOverwrite b.nodeBatch.nodes.entries s.nodes hb.nodup hfree
  obtain ⟨vh', e2, e3⟩ := writeValues_spec b.nodeBatch.values.entries s.valueHistory hb.vsorted (by
    rintro ⟨⟨v, k⟩, x⟩ he y hy
    have h1 := ht.values k y hy
    have h2 := (OMap.mem_iff_lookup valueKeyLt_strict hb.vsorted).1 he
    have h3 := hb.vget v k
    unfold OMap.get at h3
    rw [h2] at h3
    split at h3
    · simp only; omega
    · cases h3)
  have hnot : ∀ i ∈ b.staleNodeIndexBatch.elems, i ∉ s.staleNodes := by
    intro i hi hm
    have h1 := hb.since _ hi
    rcases (h.stale i).1 hm with hm | hm
    · have h4 := w2.tidy.there i ((w4 i).2 (.inr hi))
      obtain ⟨n, hn⟩ := Option.isSome_iff_exists.1 h4
      have h5 := (w2.inv.dom i.nodeKey.version i.nodeKey.path n hn).1
      obtain ⟨n', hn'⟩ := Option.isSome_iff_exists.1 (h.tidyOld.there i hm)
      have := h.tidyOld.nodes _ _ hn'
      omega
    · obtain ⟨sv, ⟨v, q⟩⟩ := i
      have h2 := h.inv.inv.stale _ _ _ hm
      simp only at h1
      omega
  have e4 := putStale_spec b.staleNodeIndexBatch.elems s.staleNodes hb.snodup hnot
  have hst : ∀ i, i ∈ b.staleNodeIndexBatch.elems.foldl FSet.insert s.staleNodes ↔ i ∈ s.staleNodes ∨ i ∈ b.staleNodeIndexBatch := by
    intro i; rw [foldl_insert_mem]; rfl
  refine ⟨a', Store.mk (s.nodes.extend b.nodeBatch.nodes.entries) (b.staleNodeIndexBatch.elems.foldl FSet.insert s.staleNodes) vh'
    s.allowOverwrite, ?_, h.tidyOld, w2, by simp [h.ne], ?_, ?_, ?_, foldl_insert_nodup _ _ h.snodup⟩
  · simp only [Store.writeTreeUpdateBatch, Store.writeNodeBatch, e1, e2, Res.ok_bind, Res.pure_eq, e4]
  · intro nk
    show (s.nodes.extend _).get nk = _
    rw [FMap.get_extend _ _ hb.nodup, w3, h.nodes]
    cases b.nodeBatch.nodes.get nk <;> rfl
  · intro k
    show vhGet vh' k = _
    rw [e3, h.values, w2.values, h.inv.values, values_histOf hb.vsorted hb.vget, histOf_append, List.append_assoc]
  · intro i
    show i ∈ b.staleNodeIndexBatch.elems.foldl FSet.insert s.staleNodes ↔ _
    rw [hst, h.stale, w4]
    tauto

theorem Beside.purge (h : Beside H w hist lo d a s) (m : Version) :
    ∃ d' a' s', d.purgeStaleNodes m = .ok d' ∧ s.purgeStaleNodes m = .ok s' ∧
      Beside H w hist (pruneFloor (w + hist.length) lo m) d' a' s' := by
  obtain ⟨d', d1, d2, d3, d4, d5⟩ := h.tidyOld.purge m
  obtain ⟨a', a1, a2, a3, a4, _⟩ := h.inv.purge m
  obtain ⟨s', s1, s2, s3, s4, s5⟩ := h.tidy.purge m
  have hav : a'.valueHistory = a.valueHistory := by
    obtain ⟨a'', b1, _, _, _, b5⟩ := h.inv.tidy.purge m
    rw [a1] at b1
    cases b1
    exact b5
  refine ⟨d', a', s', d1, s1, d2, a2, h.ne, ?_, ?_, ?_, s2.snodup⟩
  · intro nk
    rw [s3, a3, d3, h.nodes]
    have hst : (∃ i ∈ s.staleNodes, i.nodeKey = nk ∧ i.staleSinceVersion ≤ m) ↔
        (∃ i ∈ d.staleNodes, i.nodeKey = nk ∧ i.staleSinceVersion ≤ m) ∨ (∃ i ∈ a.staleNodes, i.nodeKey = nk ∧ i.staleSinceVersion ≤ m) := by
      constructor
      · rintro ⟨i, hi, h1⟩
        rcases (h.stale i).1 hi with hi | hi
        · exact .inl ⟨i, hi, h1⟩
        · exact .inr ⟨i, hi, h1⟩
      · rintro (⟨i, hi, h1⟩ | ⟨i, hi, h1⟩)
        · exact ⟨i, (h.stale i).2 (.inl hi), h1⟩
        · exact ⟨i, (h.stale i).2 (.inr hi), h1⟩
    by_cases h1 : ∃ i ∈ d.staleNodes, i.nodeKey = nk ∧ i.staleSinceVersion ≤ m
    · rw [if_pos (hst.2 (.inl h1)), if_pos h1]
      obtain ⟨i, hi, rfl, _⟩ := h1
      obtain ⟨n, hn⟩ := Option.isSome_iff_exists.1 (h.tidyOld.there i hi)
      rw [h.alone hn]
      simp
    · by_cases h2 : ∃ i ∈ a.staleNodes, i.nodeKey = nk ∧ i.staleSinceVersion ≤ m
      · rw [if_pos (hst.2 (.inr h2)), if_pos h2, if_neg h1]
        obtain ⟨i, hi, rfl, _⟩ := h2
        cases hd : d.nodes.get i.nodeKey with
        | none => rfl
        | some n =>
          have := h.inv.tidy.there i hi
          rw [h.alone hd] at this
          cases this
      · rw [if_neg (by rw [hst]; rintro (h | h); exacts [h1 h, h2 h]), if_neg h1, if_neg h2]
  · intro k
    rw [s5, d5, hav, h.values]
  · intro i
    rw [s4, d4, a4, h.stale]
    tauto

/-- The prunings among the operations. -/
def purgesOf (ops : List Op) : List Op := ops.filter (fun op => match op with | .purge _ => true | _ => false)

/-- Operations beside older versions. -/
theorem Beside.runOps (h : Beside H w hist lo d a s) (ops : List Op) (hb : ∀ m x, Commit.batch m x ∈ commitsOf ops → x ≠ []) (n : Version) :
    ∃ d' a' s', Verif.Jmt.runOps H (purgesOf ops) (d, n) = .ok (d', n) ∧
      Verif.Jmt.runOps H ops (s, w + hist.length) = .ok (s', w + (hist ++ commitsOf ops).length) ∧
      Beside H w (hist ++ commitsOf ops) (floorOf ops lo (w + hist.length)) d' a' s' := by
  induction ops generalizing hist lo d a s with
  | nil => exact ⟨d, a, s, rfl, by simp [Verif.Jmt.runOps, commitsOf], by simpa [commitsOf, floorOf] using h⟩
  | cons op ops ih =>
    have hco : commitsOf (op :: ops) = op.commits ++ commitsOf ops := by simp [commitsOf]
    rw [hco] at hb
    rw [hco, ← List.append_assoc]
    have hpos : 0 < hist.length := List.length_pos_iff.2 h.ne
    have hv : w + hist.length ≠ 0 := by omega
    cases op with
    | update m sets =>
      obtain ⟨roots, b, e1, e2⟩ := putValueSets_resume h.inv m sets ⟨fun e => absurd e h.ne, fun m' x hx => hb m' x (by simp at hx)⟩
      have e3 := putValueSets_frame (w := w) h.inv (by omega) h.ne (r := s.reader) (fun nk n hn => h.below.node nk n hn)
        (fun nk hw => h.new hw) m sets e1
      obtain ⟨a1, s1, f1, f2⟩ := h.write e2
      obtain ⟨d2, a2, s2, g0, g1, g2⟩ := ih f2 (fun m x hx => hb m x (List.mem_append_right _ hx))
      have hl : w + (hist ++ sets.map (Commit.seq m)).length = w + hist.length + sets.length := by simp; omega
      refine ⟨d2, a2, s2, g0, ?_, ?_⟩
      · simp only [Verif.Jmt.runOps, Op.run, e3, Res.ok_bind, f1]
        rw [hl] at g1
        exact g1
      · simp only [floorOf, Op.commits, List.length_map]
        rw [hl] at g2
        exact g2
    | batch m sets =>
      obtain ⟨roots, b, e1, e2, _⟩ := batchPutValueSets_resume h.inv m sets ⟨fun e => absurd e h.ne, fun m' x hx => hb m' x (List.mem_append_left _ hx)⟩
      have e3 := batchPutValueSets_more (r := s.reader) (fun nk n hn => h.below.node nk n hn) hv e1
      obtain ⟨a1, s1, f1, f2⟩ := h.write e2
      obtain ⟨d2, a2, s2, g0, g1, g2⟩ := ih f2 (fun m x hx => hb m x (List.mem_append_right _ hx))
      have hl : w + (hist ++ sets.map (Commit.batch m)).length = w + hist.length + sets.length := by simp; omega
      refine ⟨d2, a2, s2, g0, ?_, ?_⟩
      · simp only [Verif.Jmt.runOps, Op.run, e3, Res.ok_bind, f1]
        rw [hl] at g1
        exact g1
      · simp only [floorOf, Op.commits, List.length_map]
        rw [hl] at g2
        exact g2
    | purge m =>
      obtain ⟨d1, a1, s1, f0, f1, f2⟩ := h.purge m
      obtain ⟨d2, a2, s2, g0, g1, g2⟩ := ih f2 (by simpa [Op.commits] using hb)
      simp only [Op.commits, List.append_nil]
      refine ⟨d2, a2, s2, ?_, ?_, g2⟩
      · show Verif.Jmt.runOps H (.purge m :: purgesOf ops) (d, n) = _
        simp only [Verif.Jmt.runOps, Op.run, Res.ok_bind, f0]
        exact g0
      · simp only [Verif.Jmt.runOps, Op.run, Res.ok_bind, f1]
        exact g1

end

end Verif.Jmt
