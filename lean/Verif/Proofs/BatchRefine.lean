import Verif.Proofs.InsertAt
import Verif.Proofs.Groups
/-! Refinement of the batch update path. -/

namespace Verif.Jmt
variable {D : Type}
open VTree

/-- Effect on the cache of replacing the children `ch` of the node at `p` by `ch'`. -/
structure Steps (H : Hasher D) (ver : Version) (p : List Nibble) (c : TreeCache D) (ch : Nibble → VTree D) (c' : TreeCache D)
    (ch' : Nibble → VTree D) : Prop where
  same : TreeCache.Same c c'
  M : ∀ v i q, c'.M ⟨v, p ++ i :: q⟩ = if v = ver then (ch' i).at? H v q else none
  frame : ∀ nk : NodeKey, (∀ i q, nk.path ≠ p ++ i :: q) → c'.M nk = c.M nk
  S : ∀ v path, c'.S ⟨v, path⟩ ↔ c.S ⟨v, path⟩ ∨
    ∃ i q, path = p ++ i :: q ∧ v < ver ∧ ((ch i).at? H v q).isSome = true ∧ (ch' i).at? H v q = none
  stats : TreeCache.StatsOk c → TreeCache.StatsOk c'

/-- The supplied node hashes are right for the nodes of `t` below its root. -/
def HcOk (H : Hasher D) (hc : Option (Tree.HashCache D)) (ver : Version) (p : List Nibble) (t : VTree D) : Prop :=
  ∀ i q n, t.at? H ver (i :: q) = some n → Tree.getHash H hc ⟨ver, p ++ i :: q⟩ n = .ok (n.hash H)

theorem HcOk.none (H : Hasher D) (ver : Version) (p : List Nibble) (t : VTree D) : HcOk H none ver p t := fun _ _ _ _ => rfl

theorem HcOk.child {H : Hasher D} {hc : Option (Tree.HashCache D)} {ver : Version} {p : List Nibble} {m : Bool} {ch : Nibble → VTree D}
    {v : Version} (h : HcOk H hc ver p (.node v m ch)) (i : Nibble) : HcOk H hc ver (p ++ [i]) (ch i) := by
  intro j q n hn
  have := h i (j :: q) n (by rw [at?_node_cons]; exact hn)
  simpa using this

theorem HcOk.root {H : Hasher D} {hc : Option (Tree.HashCache D)} {ver : Version} {p : List Nibble} {m : Bool} {ch : Nibble → VTree D}
    {v : Version} (h : HcOk H hc ver p (.node v m ch)) (i : Nibble) (hne : ch i ≠ .empty) (hv : (ch i).version = ver) :
    Tree.getHash H hc ⟨ver, p ++ [i]⟩ ((ch i).toNode H) = .ok (((ch i).toNode H).hash H) :=
  h i [] _ (by rw [at?_node_cons, at?_nil H hne, if_pos hv.symm])

theorem Steps.refl {H : Hasher D} {ver : Version} {p : List Nibble} {c : TreeCache D} {ch : Nibble → VTree D}
    (hM : ∀ v i q, c.M ⟨v, p ++ i :: q⟩ = if v = ver then (ch i).at? H v q else none) : Steps H ver p c ch c ch := by
  refine ⟨.refl c, hM, fun _ _ => rfl, ?_, id⟩
  intro v path
  constructor
  · exact .inl
  · rintro (h | ⟨i, q, _, _, h1, h2⟩)
    · exact h
    · rw [h2] at h1; simp at h1

theorem path_child_ne {p : List Nibble} {i j : Nibble} (h : j ≠ i) (q q' : List Nibble) : p ++ [j] ++ q ≠ p ++ [i] ++ q' := by
  intro e
  simp at e
  exact h e.1

/-- A change below one child leaves the other children alone. -/
theorem Holds.other {H : Hasher D} {ver : Version} {p : List Nibble} {c c1 : TreeCache D} {i j : Nibble} {t t' u : VTree D}
    (h : Holds H ver c (p ++ [j]) u) (st : Step H ver (p ++ [i]) c t c1 t') (hij : j ≠ i) : Holds H ver c1 (p ++ [j]) u := by
  refine ⟨?_, ?_, h.le, fun hu => st.stats (h.stats hu)⟩
  · intro v q
    rw [st.frame, h.M]
    rintro ⟨r, hr⟩
    exact path_child_ne hij q r hr.symm
  · intro v q n hv hn
    obtain ⟨h1, h2⟩ := h.old v q n hv hn
    refine ⟨by rw [st.same.base]; exact h1, ?_⟩
    rw [st.S]
    rintro (h3 | ⟨q', h3, _⟩)
    · exact h2 h3
    · exact path_child_ne hij q q' h3

theorem batchChildren_spec (H : Hasher D) (Q : Option (Tree.HashCache D) → Prop) (ver : Version) (p : List Nibble)
    (f : Option (Tree.HashCache D) → Nibble → List (Key × D) → TreeCache D → Res (TreeCache D × (NodeKey × Node D))) (new : Nibble → VTree D)
    (groups : List (Nibble × List (Key × D))) (hnd : (groups.map Prod.fst).Nodup) (ch : Nibble → VTree D) (c : TreeCache D)
    (hM : ∀ v i q, c.M ⟨v, p ++ i :: q⟩ = if v = ver then (ch i).at? H v q else none)
    (hh : ∀ i, i ∈ groups.map Prod.fst → Holds H ver c (p ++ [i]) (ch i))
    (hf : ∀ i g, (i, g) ∈ groups → ∀ c, Holds H ver c (p ++ [i]) (ch i) →
      ∃ c', (∀ hc, Q hc → f hc i g c = .ok (c', (⟨ver, p ++ [i]⟩, (new i).toNode H))) ∧ Step H ver (p ++ [i]) c (ch i) c' (new i))
    (hnew : ∀ i, i ∈ groups.map Prod.fst → new i ≠ .empty ∧ (new i).version = ver ∧
      ∀ hc, Q hc → Tree.getHash H hc ⟨ver, p ++ [i]⟩ ((new i).toNode H) = .ok (((new i).toNode H).hash H)) :
    ∃ c', (∀ hc, Q hc → Tree.batchChildren H hc ver (f hc) groups (.ofFun (fun i => (ch i).child H)) c =
        .ok (c', .ofFun (fun i => (if i ∈ groups.map Prod.fst then new i else ch i).child H))) ∧
      Steps H ver p c ch c' (fun i => if i ∈ groups.map Prod.fst then new i else ch i) := by
  induction groups generalizing ch c with
  | nil => exact ⟨c, by simp [Tree.batchChildren], by simpa using Steps.refl hM⟩
  | cons e groups ih =>
    obtain ⟨i, g⟩ := e
    rw [List.map_cons, List.nodup_cons] at hnd
    obtain ⟨c1, e1, st⟩ := hf i g (by simp) c (hh i (by simp))
    obtain ⟨n1, n2, n3⟩ := hnew i (by simp)
    obtain ⟨ty, t1, t2⟩ := child_of_version (H := H) n1 n2
    have hupd : ∀ j, j ≠ i → upd ch i (new i) j = ch j := fun j hj => upd_ne _ _ hj
    obtain ⟨c2, f1, f2⟩ := ih hnd.2 (upd ch i (new i)) c1 (by
        intro v j q
        by_cases hj : j = i
        · subst hj
          have := st.M v q
          rw [List.append_assoc] at this
          rw [upd_same]; exact this
        · rw [hupd j hj, ← hM]
          apply st.frame
          rintro ⟨r, hr⟩
          have : p ++ [j] ++ q = p ++ [i] ++ r := by rw [hr]; simp
          exact path_child_ne hj q r this) (by
        intro j hj
        have hji : j ≠ i := by rintro rfl; exact hnd.1 hj
        rw [hupd j hji]
        exact (hh j (by simp; exact .inr (by simpa using hj))).other st hji) (by
        intro j g' hm c' hc'
        have hji : j ≠ i := by rintro rfl; exact hnd.1 (List.mem_map.2 ⟨_, hm, rfl⟩)
        rw [hupd j hji] at hc' ⊢
        exact hf j g' (by simp [hm]) c' hc') (fun j hj => hnew j (List.mem_cons_of_mem _ hj))
    have hch : (fun j => if j ∈ ((i, g) :: groups).map Prod.fst then new j else ch j) =
        (fun j => if j ∈ groups.map Prod.fst then new j else upd ch i (new i) j) := by
      funext j
      by_cases hj : j = i
      · subst hj; simp [hnd.1]
      · simp only [List.map_cons, List.mem_cons, hj, false_or, hupd j hj]
    have hch' : ∀ j, (if j ∈ ((i, g) :: groups).map Prod.fst then new j else ch j) =
        (if j ∈ groups.map Prod.fst then new j else upd ch i (new i) j) := fun j => congrFun hch j
    refine ⟨c2, ?_, ?_⟩
    · intro hc hq
      rw [Tree.batchChildren]
      simp only [e1 hc hq, Res.ok_bind, n3 hc hq, t2, hch']
      rw [Children.insert_ofFun, ← f1 hc hq]
      congr 2
      rw [map_upd (fun t => VTree.child H t), t1]
    · rw [hch]
      refine ⟨st.same.trans f2.same, f2.M, ?_, ?_, fun hs => f2.stats (st.stats hs)⟩
      · intro nk hnk
        rw [f2.frame nk hnk, st.frame]
        rintro ⟨r, hr⟩
        exact hnk i r (by rw [← hr]; simp)
      · intro v path
        rw [f2.S, st.S]
        constructor
        · rintro ((h1 | ⟨q, h1, h2, h3, h4⟩) | ⟨j, q, h1, h2, h3, h4⟩)
          · exact .inl h1
          · refine .inr ⟨i, q, by rw [h1]; simp, h2, h3, ?_⟩
            rw [if_neg hnd.1, upd_same]; exact h4
          · by_cases hj : j = i
            · subst hj
              rw [if_neg hnd.1] at h4
              rw [h4] at h3; simp at h3
            · rw [hupd j hj] at h3
              exact .inr ⟨j, q, h1, h2, h3, h4⟩
        · rintro (h1 | ⟨j, q, h1, h2, h3, h4⟩)
          · exact .inl (.inl h1)
          · by_cases hj : j = i
            · subst hj
              rw [if_neg hnd.1, upd_same] at h4
              exact .inl (.inr ⟨q, by rw [h1]; simp, h2, h3, h4⟩)
            · exact .inr ⟨j, q, h1, h2, by rw [hupd j hj]; exact h3, h4⟩

/-- `new_migration` accepts the children of a well-formed node. -/
theorem newMigration_wf {H : Hasher D} {p : List Nibble} {ver : Version} {m : Bool} {ch : Nibble → VTree D} (h : WF p (.node ver m ch)) :
    InternalNode.newMigration (.ofFun (fun i => (ch i).child H)) m = .ok (.ofFun m (fun i => (ch i).child H)) := by
  apply newMigration_ofFun
  · obtain ⟨i, hi⟩ := exists_child_of_node h
    exact ⟨i, child_isSome.2 hi⟩
  · intro i c hi hl
    rw [child_isLeaf hi] at hl
    by_contra hno
    have hall : ∀ j, j ≠ i → ch j = .empty := by
      intro j hj
      by_contra hne
      exact hno ⟨j, hj, child_isSome.2 hne⟩
    have h2 := h.2
    have hone := (entries_length_one (h.1 i)).2 hl
    have hne : (ch i).isEmpty = false := by
      cases hci : ch i <;> simp [hci, VTree.isLeaf] at hl ⊢; rfl
    rw [entries_node_filter] at h2
    have hf : (List.finRange 16).filter (fun j => !(ch j).isEmpty) = [i] := by
      have e : ∀ j, (!(ch j).isEmpty) = decide (j = i) := by
        intro j
        by_cases hj : j = i
        · subst hj; simp [hne]
        · simp [hall j hj, VTree.isEmpty, hj]
      simp only [e]
      exact filter_finRange_eq i
    rw [hf] at h2
    simp at h2
    omega

/-- A new internal node above changed children, where nothing was before. -/
theorem Steps.fresh {H : Hasher D} {ver : Version} {p : List Nibble} {m : Bool} {c c1 c2 : TreeCache D} {ch' : Nibble → VTree D}
    (hM : ∀ v q, c.M ⟨v, p ++ q⟩ = none) (st : Steps H ver p c noCh c1 ch')
    (hp : c1.putNode ⟨ver, p⟩ (.internal (.ofFun m (fun i => (ch' i).child H))) = .ok c2) :
    Step H ver p c .empty c2 (.node ver m ch') := by
  have hM1 : ∀ v, c1.M ⟨v, p⟩ = none := by
    intro v
    rw [st.frame _ (by simp)]
    have := hM v []
    rwa [List.append_nil] at this
  obtain ⟨c3, e1, e2, e3, e4, e5⟩ := TreeCache.putNode_spec (c := c1) (nk := ⟨ver, p⟩)
    (.internal (.ofFun m (fun i => (ch' i).child H))) (hM1 ver)
  rw [e1] at hp
  cases hp
  refine ⟨st.same.trans e2, ?_, ?_, ?_, fun hs => e5 (st.stats hs)⟩
  · intro v q
    rw [e3]
    cases q with
    | nil =>
      rw [List.append_nil, hM1, at?_node_nil]
      by_cases h1 : v = ver <;> simp [h1, toNode]
    | cons j q => rw [if_neg (by simp), st.M, at?_node_cons]
  · intro nk hnk
    rw [e3, if_neg (by rintro rfl; exact hnk (List.prefix_refl _)), st.frame]
    intro i q; exact notPrefix_ne hnk
  · intro v path
    rw [e4, st.S]
    simp [noCh]

/-- A rewritten internal node. -/
theorem Steps.rewrite {H : Hasher D} {ver v : Version} {p : List Nibble} {m m0 : Bool} {c c0 c1 c2 : TreeCache D} {ch ch' : Nibble → VTree D}
    (d2 : TreeCache.Same c c0) (d3 : ∀ nk, c0.M nk = if nk.path = p then none else c.M nk)
    (d4 : ∀ nk, c0.S nk ↔ c.S nk ∨ (nk = ⟨v, p⟩ ∧ v < ver)) (d5 : TreeCache.StatsOk c → TreeCache.StatsOk c0)
    (st : Steps H ver p c0 ch c1 ch')
    (hp : c1.putNode ⟨ver, p⟩ (.internal (.ofFun m (fun i => (ch' i).child H))) = .ok c2) :
    Step H ver p c (.node v m0 ch) c2 (.node ver m ch') := by
  have hM1 : ∀ v, c1.M ⟨v, p⟩ = none := by
    intro v
    rw [st.frame _ (by simp), d3, if_pos rfl]
  obtain ⟨c3, e1, e2, e3, e4, e5⟩ := TreeCache.putNode_spec (c := c1) (nk := ⟨ver, p⟩)
    (.internal (.ofFun m (fun i => (ch' i).child H))) (hM1 ver)
  rw [e1] at hp
  cases hp
  refine ⟨(d2.trans st.same).trans e2, ?_, ?_, ?_, fun hs => e5 (st.stats (d5 hs))⟩
  · intro v q
    rw [e3]
    cases q with
    | nil =>
      rw [List.append_nil, hM1, at?_node_nil]
      by_cases h1 : v = ver <;> simp [h1, toNode]
    | cons j q => rw [if_neg (by simp), st.M, at?_node_cons]
  · intro nk hnk
    rw [e3, if_neg (by rintro rfl; exact hnk (List.prefix_refl _)), st.frame _ (fun i q => notPrefix_ne hnk), d3, if_neg]
    have := notPrefix_ne (q := []) hnk; simpa using this
  · intro v1 path
    rw [e4, st.S, d4]
    constructor
    · rintro ((h1 | ⟨h1, h2⟩) | ⟨i, q, rfl, h2, h3, h4⟩)
      · exact .inl h1
      · simp only [NodeKey.mk.injEq] at h1
        obtain ⟨rfl, rfl⟩ := h1
        exact .inr ⟨[], by simp, h2, by simp [at?_node_nil], by rw [at?_node_nil, if_neg (by omega)]⟩
      · exact .inr ⟨i :: q, rfl, h2, by rw [at?_node_cons]; exact h3, by rw [at?_node_cons]; exact h4⟩
    · rintro (h1 | ⟨q, rfl, h2, h3, h4⟩)
      · exact .inl (.inl h1)
      · cases q with
        | nil =>
          rw [at?_node_nil] at h3
          split at h3
          · rename_i hv; subst hv; exact .inl (.inr ⟨by simp, h2⟩)
          · simp at h3
        | cons i q =>
          rw [at?_node_cons] at h3 h4
          exact .inr ⟨i, q, rfl, h2, h3, h4⟩

theorem holds_empty {H : Hasher D} {ver : Version} {c : TreeCache D} {p : List Nibble} (hM : ∀ v q, c.M ⟨v, p ++ q⟩ = none) :
    Holds H ver c p .empty := by
  refine ⟨?_, ?_, trivial, fun h => absurd rfl h⟩
  · intro v q; rw [hM]; simp
  · intro v q n _ hn; simp at hn

theorem Holds.none {H : Hasher D} {ver : Version} {c : TreeCache D} {p : List Nibble} (h : Holds H ver c p .empty) :
    ∀ v q, c.M ⟨v, p ++ q⟩ = none := by
  intro v q; rw [h.M]; simp

/-- A single new leaf. -/
theorem Step.leaf {H : Hasher D} {ver : Version} {p : List Nibble} {c : TreeCache D} (hM : ∀ v q, c.M ⟨v, p ++ q⟩ = none) (k : Key) (x : D) :
    ∃ c', c.putNode ⟨ver, p⟩ (.leaf ⟨k, x⟩) = .ok c' ∧ Step H ver p c .empty c' (.leaf ver k x) := by
  obtain ⟨c2, e1, e2, e3, e4, e5⟩ := TreeCache.putNode_spec (c := c) (nk := ⟨ver, p⟩) (.leaf ⟨k, x⟩)
    (by have := hM ver []; rwa [List.append_nil] at this)
  refine ⟨c2, e1, e2, ?_, ?_, ?_, e5⟩
  · intro v1 q
    rw [e3, hM, at?_leaf]
    by_cases hv : v1 = ver
    · simp [hv]
    · simp [hv]
  · intro nk hnk
    rw [e3, if_neg]
    rintro rfl
    exact hnk (List.prefix_refl _)
  · intro v path; rw [e4]; simp

theorem ofFun_noCh (H : Hasher D) : (Children.new : Children D) = .ofFun (fun i => (noCh i : VTree D).child H) := by
  rw [Children.new_eq]
  congr 1

/-- `batch_create_subtree` builds the pure tree. -/
theorem batchCreate_spec (H : Hasher D) (m : Bool) (ver : Version) (h : Nat) :
    ∀ (p : List Nibble) (kvs : List (Key × D)) (c : TreeCache D), Under p kvs → p.length + h = 64 → kvs ≠ [] →
      (∀ v q, c.M ⟨v, p ++ q⟩ = none) →
      ∃ c', (∀ hc, HcOk H hc ver p (create ver m h kvs) →
          Tree.batchCreateSubtree H m hc ver h ⟨ver, p⟩ kvs c = .ok (c', (⟨ver, p⟩, (create ver m h kvs).toNode H))) ∧
        Step H ver p c .empty c' (create ver m h kvs) := by
  induction h with
  | zero =>
    intro p kvs c hu hp hne hM
    match kvs, hne, hu with
    | [(k, x)], _, _ =>
      obtain ⟨c', e1, e2⟩ := Step.leaf (H := H) (ver := ver) hM k x
      exact ⟨c', fun hc _ => by simp [Tree.batchCreateSubtree, e1, create, toNode], e2⟩
    | a :: b :: l, _, hu =>
      exact absurd rfl (create_version ver m 0 hu hp (by simp)).1
  | succ h ih =>
    intro p kvs c hu hp hne hM
    match kvs, hne, hu with
    | [(k, x)], _, _ =>
      obtain ⟨c', e1, e2⟩ := Step.leaf (H := H) (ver := ver) hM k x
      exact ⟨c', fun hc _ => by simp [Tree.batchCreateSubtree, e1, create, toNode], e2⟩
    | a :: b :: l, _, hu =>
      have hwf := (create_spec ver m (h + 1) p _ hu hp).1
      have hunf : ∀ hc, Tree.batchCreateSubtree H m hc ver (h + 1) ⟨ver, p⟩ (a :: b :: l) c = (do
          let (c, children) ← Tree.batchChildren H hc ver (fun i g c => do
              let childKey ← (⟨ver, p⟩ : NodeKey).genChild ver i
              Tree.batchCreateSubtree H m hc ver h childKey g c)
            (nibbleGroups (a :: b :: l) (rootNibbleHeight - (h + 1))) Children.new c
          let internal ← InternalNode.newMigration children m
          let c ← c.putNode ⟨ver, p⟩ (.internal internal)
          pure (c, (⟨ver, p⟩, .internal internal))) := fun _ => rfl
      simp only [hunf]
      generalize hk : a :: b :: l = kvs at *
      have hl : 2 ≤ kvs.length := by rw [← hk]; simp
      have hph : rootNibbleHeight - (h + 1) = p.length := nibble_height hp
      have hp64 : p.length < 64 := by omega
      rw [create_two ver m h hl, nibble_height hp] at *
      rw [hph]
      obtain ⟨g1, g2, g3⟩ := nibbleGroups_spec hu hp64
      obtain ⟨c1, e1, e2⟩ := batchChildren_spec H (fun hc => HcOk H hc ver p (.node ver m (fun i => create ver m h (grp kvs p.length i)))) ver p (fun hc i g c => do
              let childKey ← (⟨ver, p⟩ : NodeKey).genChild ver i
              Tree.batchCreateSubtree H m hc ver h childKey g c) (fun i => create ver m h (grp kvs p.length i))
            (nibbleGroups kvs p.length) g1 noCh c (by
              intro v i q; rw [hM]; simp [noCh]) (by
              intro i _
              apply holds_empty
              intro v q; rw [List.append_assoc]; exact hM _ _) (by
              intro i g hm c' hc'
              obtain ⟨rfl, g5⟩ := g2 i g hm
              simp only [genChild_ok (nk := ⟨ver, p⟩) hp64, Res.ok_bind]
              obtain ⟨c2, i1, i2⟩ := ih (p ++ [i]) _ c' (hu.grp hp64 i) (by simp; omega) g5 hc'.none
              exact ⟨c2, fun hc hok => i1 hc (hok.child i), i2⟩) (by
              intro i hi
              have := create_version ver m h (hu.grp hp64 i) (by simp; omega) ((g3 i).1 hi)
              exact ⟨this.1, this.2, fun hc hok => hok.root i this.1 this.2⟩)
      have hch : (fun i => if i ∈ (nibbleGroups kvs p.length).map Prod.fst then create ver m h (grp kvs p.length i) else noCh i) =
          (fun i => create ver m h (grp kvs p.length i)) := by
        funext i
        by_cases hi : i ∈ (nibbleGroups kvs p.length).map Prod.fst
        · rw [if_pos hi]
        · rw [if_neg hi]
          have : grp kvs p.length i = [] := by
            by_contra h0; exact hi ((g3 i).2 h0)
          rw [this]; cases h <;> rfl
      have hch' := fun i => congrFun hch i
      simp only [hch'] at e1
      rw [hch] at e2
      have hM1 : c1.M ⟨ver, p⟩ = none := by
        rw [e2.frame _ (by simp)]
        have := hM ver []
        rwa [List.append_nil] at this
      obtain ⟨c2, f1, _⟩ := TreeCache.putNode_spec (c := c1) (nk := ⟨ver, p⟩)
        (.internal (.ofFun m (fun i => (create ver m h (grp kvs p.length i)).child H))) hM1
      refine ⟨c2, fun hc hok => ?_, e2.fresh hM f1⟩
      rw [ofFun_noCh H, e1 hc hok]
      simp only [Res.ok_bind, newMigration_wf hwf, f1, toNode, Res.pure_eq]

theorem sorted_split {l : List (Key × D)} (hs : l.Pairwise (fun a b => a.1 < b.1)) {k : Key} (hk : k ∉ l.map Prod.fst) :
    l.filter (fun e => decide (e.1 < k)) ++ l.filter (fun e => decide (k < e.1)) = l := by
  induction l with
  | nil => rfl
  | cons a l ih =>
    rw [List.pairwise_cons] at hs
    simp only [List.map_cons, List.mem_cons, not_or] at hk
    rcases Key.lt_tri a.1 k with h | h | h
    · have : ¬ k < a.1 := fun h' => Key.lt_irrefl _ (Key.lt_trans h h')
      simp only [List.filter_cons, h, decide_true, if_true, this, decide_false, Bool.false_eq_true, if_false, List.cons_append]
      rw [ih hs.2 hk.2]
    · exact absurd h.symm hk.1
    · have hall : ∀ e ∈ a :: l, k < e.1 := by
        intro e he
        rcases List.mem_cons.1 he with rfl | he
        · exact h
        · exact Key.lt_trans h (hs.1 e he)
      rw [filter_none, filter_all, List.nil_append]
      · intro e he; simpa using hall e he
      · intro e he
        rw [decide_eq_false_iff_not]
        exact fun h' => Key.lt_irrefl _ (Key.lt_trans (hall e he) h')

theorem grp_addLeaf (k : Key) (x : D) {kvs : List (Key × D)} (hs : kvs.Pairwise (fun a b => a.1 < b.1)) (idx : Nat) (i : Nibble) :
    grp (addLeaf k x kvs) idx i = if k.nibble idx = i then addLeaf k x (grp kvs idx i) else grp kvs idx i := by
  have hmem : k.nibble idx = i → (k ∈ (grp kvs idx i).map Prod.fst ↔ k ∈ kvs.map Prod.fst) := by
    intro hi
    simp only [List.mem_map]
    constructor
    · rintro ⟨e, he, rfl⟩; exact ⟨e, (mem_grp.1 he).1, rfl⟩
    · rintro ⟨e, he, rfl⟩; exact ⟨e, mem_grp.2 ⟨he, hi⟩, rfl⟩
  by_cases hk : k ∈ kvs.map Prod.fst
  · have e1 : addLeaf k x kvs = kvs := if_pos hk
    rw [e1]
    split
    · rename_i hi
      exact (if_pos ((hmem hi).2 hk)).symm
    · rfl
  · have e1 : addLeaf k x kvs = kvs.filter (fun e => decide (e.1 < k)) ++ (k, x) :: kvs.filter (fun e => decide (k < e.1)) := if_neg hk
    rw [e1]
    unfold grp
    rw [List.filter_append, List.filter_cons]
    by_cases hi : k.nibble idx = i
    · have e2 : addLeaf k x (kvs.filter (fun e => decide (e.1.nibble idx = i))) = _ := if_neg (fun h => hk ((hmem hi).1 h))
      rw [if_pos hi, e2]
      simp only [hi, decide_true, if_true, List.filter_filter, Bool.and_comm]
    · rw [if_neg hi]
      simp only [hi, decide_false, Bool.false_eq_true, if_false]
      rw [← List.filter_append, sorted_split hs hk]

/-- A further child below a node being built. -/
theorem Steps.snoc {H : Hasher D} {ver : Version} {p : List Nibble} {c c1 c2 : TreeCache D} {ch ch' : Nibble → VTree D} {i : Nibble}
    {t : VTree D} (h0 : ch i = .empty) (h1 : ch' i = .empty) (st : Steps H ver p c ch c1 ch')
    (st' : Step H ver (p ++ [i]) c1 .empty c2 t) : Steps H ver p c ch c2 (upd ch' i t) := by
  refine ⟨st.same.trans st'.same, ?_, ?_, ?_, fun hs => st'.stats (st.stats hs)⟩
  · intro v j q
    by_cases hj : j = i
    · subst hj
      have := st'.M v q
      rw [List.append_assoc] at this
      rw [upd_same]; exact this
    · rw [upd_ne _ _ hj, ← st.M]
      apply st'.frame
      rintro ⟨r, hr⟩
      have : p ++ [j] ++ q = p ++ [i] ++ r := by rw [hr]; simp
      exact path_child_ne hj q r this
  · intro nk hnk
    rw [st'.frame, st.frame nk hnk]
    rintro ⟨r, hr⟩
    exact hnk i r (by rw [← hr]; simp)
  · intro v path
    rw [st'.S, st.S]
    constructor
    · rintro ((h | ⟨j, q, h2, h3, h4, h5⟩) | ⟨q, _, _, h4, _⟩)
      · exact .inl h
      · by_cases hj : j = i
        · subst hj; rw [h0] at h4; simp at h4
        · exact .inr ⟨j, q, h2, h3, h4, by rw [upd_ne _ _ hj]; exact h5⟩
      · simp at h4
    · rintro (h | ⟨j, q, h2, h3, h4, h5⟩)
      · exact .inl (.inl h)
      · by_cases hj : j = i
        · subst hj; rw [h0] at h4; simp at h4
        · rw [upd_ne _ _ hj] at h5
          exact .inl (.inr ⟨j, q, h2, h3, h4, h5⟩)

/-- `batch_create_subtree_with_existing_leaf` builds the tree of the old leaf and the new entries. -/
theorem batchWithLeaf_spec (H : Hasher D) (m : Bool) (ver : Version) (k : Key) (x : D) (h : Nat) :
    ∀ (p : List Nibble) (kvs : List (Key × D)) (c : TreeCache D), Under p kvs → p <+: k.nibbles → p.length + h = 64 → kvs ≠ [] →
      (∀ v q, c.M ⟨v, p ++ q⟩ = none) →
      ∃ c', (∀ hc, HcOk H hc ver p (create ver m h (addLeaf k x kvs)) → Tree.batchWithLeaf H m hc ver ⟨k, x⟩ h ⟨ver, p⟩ kvs c =
          .ok (c', (⟨ver, p⟩, (create ver m h (addLeaf k x kvs)).toNode H))) ∧
        Step H ver p c .empty c' (create ver m h (addLeaf k x kvs)) := by
  induction h with
  | zero =>
    intro p kvs c hu hk hp hne hM
    have hua := under_addLeaf (x := x) hu hk
    have hne0 := (create_version ver m 0 hua hp (addLeaf_ne_nil k x kvs)).1
    obtain ⟨e, he⟩ := List.exists_mem_of_ne_nil _ hne
    have hkeq : ∀ e ∈ addLeaf k x kvs, e.1 = k := by
      intro e he
      have h1 := (hua.pre e he).eq_of_length (by simp; omega)
      have h2 := hk.eq_of_length (by simp; omega)
      exact Key.nibbles_inj (h1.symm.trans h2)
    have hkk : k ∈ kvs.map Prod.fst := List.mem_map.2 ⟨e, he, hkeq e (mem_addLeaf.2 (.inl he))⟩
    have ha : addLeaf k x kvs = kvs := if_pos hkk
    rw [ha] at hne0 ⊢
    match kvs, he, hne0, hkk with
    | [(k', x')], he, _, hkk =>
      have : k' = k := (by simpa using hkk : k = k').symm
      subst this
      obtain ⟨c', e1, e2⟩ := Step.leaf (H := H) (ver := ver) hM k' x'
      exact ⟨c', fun hc _ => by simp [Tree.batchWithLeaf, Tree.batchWithLeaf.single, e1, create, toNode], e2⟩
    | a :: b :: l, _, h0, _ => exact absurd rfl h0
  | succ h ih =>
    intro p kvs c hu hk hp hne hM
    have hua := under_addLeaf (x := x) hu hk
    cases hs : Tree.batchWithLeaf.single ⟨k, x⟩ kvs with
    | some y =>
      match kvs, hs with
      | [(k', x')], hs =>
        have hkk : k' = k := by
          by_contra h0
          simp [Tree.batchWithLeaf.single, h0] at hs
        clear hs
        subst hkk
        have ha : addLeaf k' x [(k', x')] = [(k', x')] := if_pos (by simp)
        rw [ha]
        obtain ⟨c', e1, e2⟩ := Step.leaf (H := H) (ver := ver) hM k' x'
        exact ⟨c', fun hc _ => by simp [Tree.batchWithLeaf, Tree.batchWithLeaf.single, e1, create, toNode], e2⟩
      | [], hs => simp [Tree.batchWithLeaf.single] at hs
      | a :: b :: l, hs => simp [Tree.batchWithLeaf.single] at hs
    | none =>
      have hl : 2 ≤ (addLeaf k x kvs).length := by
        match kvs, hne, hs with
        | [(k', x')], _, hs =>
          have hkk : k' ≠ k := by
            intro h0
            simp [Tree.batchWithLeaf.single, h0] at hs
          apply two_le_of_mem (a := (k', x')) (b := (k, x))
          · exact mem_addLeaf.2 (.inl (by simp))
          · exact mem_addLeaf.2 (.inr ⟨by simpa using Ne.symm hkk, rfl⟩)
          · simp; intro h; exact absurd h hkk
        | a :: b :: l, _, _ =>
          apply two_le_of_mem (a := a) (b := b)
          · exact mem_addLeaf.2 (.inl (by simp))
          · exact mem_addLeaf.2 (.inl (by simp))
          · rintro rfl
            have := hu.sorted
            simp only [List.pairwise_cons, List.mem_cons, forall_eq_or_imp] at this
            exact Key.lt_irrefl _ this.1.1
      have hwf := (create_spec ver m (h + 1) p _ hua hp).1
      have hph : rootNibbleHeight - (h + 1) = p.length := nibble_height hp
      have hp64 : p.length < 64 := by omega
      rw [create_two ver m h hl, nibble_height hp] at *
      have hunf : ∀ hc, Tree.batchWithLeaf H m hc ver ⟨k, x⟩ (h + 1) ⟨ver, p⟩ kvs c = (do
          let (c, children) ← Tree.batchChildren H hc ver (fun i g c => do
              let childKey ← (⟨ver, p⟩ : NodeKey).genChild ver i
              if k.nibble p.length = i then Tree.batchWithLeaf H m hc ver ⟨k, x⟩ h childKey g c
              else Tree.batchCreateSubtree H m hc ver h childKey g c)
            (nibbleGroups kvs p.length) Children.new c
          let (c, children) ← Tree.batchWithLeaf.isolated H ver ⟨k, x⟩ ⟨ver, p⟩ (k.nibble p.length)
            ((nibbleGroups kvs p.length).all (fun g => decide (g.1 ≠ k.nibble p.length))) children c
          let internal ← InternalNode.newMigration children m
          let c ← c.putNode ⟨ver, p⟩ (.internal internal)
          pure (c, (⟨ver, p⟩, .internal internal))) := by
        intro hc
        rw [← hph, Tree.batchWithLeaf, hs]
      simp only [hunf]
      obtain ⟨g1, g2, g3⟩ := nibbleGroups_spec hu hp64
      have hgA := fun i => grp_addLeaf k x hu.sorted p.length i
      obtain ⟨c1, e1, e2⟩ := batchChildren_spec H (fun hc => HcOk H hc ver p (.node ver m (fun i => create ver m h (grp (addLeaf k x kvs) p.length i)))) ver p (fun hc i g c => do
              let childKey ← (⟨ver, p⟩ : NodeKey).genChild ver i
              if k.nibble p.length = i then Tree.batchWithLeaf H m hc ver ⟨k, x⟩ h childKey g c
              else Tree.batchCreateSubtree H m hc ver h childKey g c) (fun i => create ver m h (grp (addLeaf k x kvs) p.length i))
            (nibbleGroups kvs p.length) g1 noCh c (by
              intro v i q; rw [hM]; simp [noCh]) (by
              intro i _
              apply holds_empty
              intro v q; rw [List.append_assoc]; exact hM _ _) (by
              intro i g hm c' hc'
              obtain ⟨rfl, g5⟩ := g2 i g hm
              simp only [genChild_ok (nk := ⟨ver, p⟩) hp64, Res.ok_bind]
              by_cases hi : k.nibble p.length = i
              · simp only [if_pos hi]
                obtain ⟨c2, i1, i2⟩ := ih (p ++ [i]) _ c' (hu.grp hp64 i) ((prefix_snoc_iff hp64 hk i).2 hi) (by simp; omega) g5 hc'.none
                have hgi := hgA i
                rw [if_pos hi] at hgi
                rw [hgi]
                exact ⟨c2, fun hc hok => i1 hc (by have := hok.child i; rwa [hgi] at this), i2⟩
              · simp only [if_neg hi]
                obtain ⟨c2, i1, i2⟩ := batchCreate_spec H m ver h (p ++ [i]) _ c' (hu.grp hp64 i) (by simp; omega) g5 hc'.none
                have hgi := hgA i
                rw [if_neg hi] at hgi
                rw [hgi]
                exact ⟨c2, fun hc hok => i1 hc (by have := hok.child i; rwa [hgi] at this), i2⟩) (by
              intro i hi
              have hne' : grp (addLeaf k x kvs) p.length i ≠ [] := by
                rw [hgA i]
                split
                · exact addLeaf_ne_nil _ _ _
                · exact (g3 i).1 hi
              have := create_version ver m h (hua.grp hp64 i) (by simp; omega) hne'
              exact ⟨this.1, this.2, fun hc hok => hok.root i this.1 this.2⟩)
      -- the state before the new node is written
      have hiso : ∃ c2, Tree.batchWithLeaf.isolated H ver ⟨k, x⟩ ⟨ver, p⟩ (k.nibble p.length)
            ((nibbleGroups kvs p.length).all (fun g => decide (g.1 ≠ k.nibble p.length)))
            (.ofFun (fun i => (if i ∈ (nibbleGroups kvs p.length).map Prod.fst then create ver m h (grp (addLeaf k x kvs) p.length i) else noCh i).child H)) c1 =
          .ok (c2, .ofFun (fun i => (create ver m h (grp (addLeaf k x kvs) p.length i)).child H)) ∧
          Steps H ver p c noCh c2 (fun i => create ver m h (grp (addLeaf k x kvs) p.length i)) := by
        have hempty : ∀ i, k.nibble p.length ≠ i → i ∉ (nibbleGroups kvs p.length).map Prod.fst →
            create ver m h (grp (addLeaf k x kvs) p.length i) = .empty := by
          intro i hi hn
          rw [hgA i, if_neg hi]
          have : grp kvs p.length i = [] := by
            by_contra h0; exact hn ((g3 i).2 h0)
          rw [this]; cases h <;> rfl
        by_cases hb : k.nibble p.length ∈ (nibbleGroups kvs p.length).map Prod.fst
        · have hall : (nibbleGroups kvs p.length).all (fun g => decide (g.1 ≠ k.nibble p.length)) = false := by
            rw [Bool.eq_false_iff]
            intro h0
            rw [List.all_eq_true] at h0
            rw [List.mem_map] at hb
            obtain ⟨g, hg, hgk⟩ := hb
            have := h0 g hg
            simp [hgk] at this
          rw [hall]
          have hch : (fun i => if i ∈ (nibbleGroups kvs p.length).map Prod.fst then create ver m h (grp (addLeaf k x kvs) p.length i) else noCh i) =
              (fun i => create ver m h (grp (addLeaf k x kvs) p.length i)) := by
            funext i
            split
            · rfl
            · rename_i hi
              rw [hempty i (by rintro rfl; exact hi hb) hi]; rfl
          have hch' := fun i => congrFun hch i
          simp only [hch']
          rw [hch] at e2
          exact ⟨c1, rfl, e2⟩
        · have hall : (nibbleGroups kvs p.length).all (fun g => decide (g.1 ≠ k.nibble p.length)) = true := by
            rw [List.all_eq_true]
            intro g hg
            rw [decide_eq_true_eq]
            intro h0
            exact hb (List.mem_map.2 ⟨g, hg, h0⟩)
          rw [hall]
          have hleaf : create ver m h (grp (addLeaf k x kvs) p.length (k.nibble p.length)) = .leaf ver k x := by
            rw [hgA, if_pos rfl]
            have : grp kvs p.length (k.nibble p.length) = [] := by
              by_contra h0; exact hb ((g3 _).2 h0)
            rw [this]
            have e : addLeaf k x ([] : List (Key × D)) = [(k, x)] := by simp [addLeaf]
            rw [e]; cases h <;> rfl
          have hch : upd (fun i => if i ∈ (nibbleGroups kvs p.length).map Prod.fst then create ver m h (grp (addLeaf k x kvs) p.length i) else noCh i)
                (k.nibble p.length) (.leaf ver k x) =
              (fun i => create ver m h (grp (addLeaf k x kvs) p.length i)) := by
            funext i
            by_cases hi : i = k.nibble p.length
            · rw [hi, upd_same, hleaf]
            · rw [upd_ne _ _ hi]
              split
              · rfl
              · rename_i hn; rw [hempty i (Ne.symm hi) hn]; rfl
          obtain ⟨c2, f1, f2⟩ := Step.leaf (H := H) (ver := ver) (p := p ++ [k.nibble p.length]) (c := c1) (by
            intro v q
            rw [List.append_assoc, List.singleton_append, e2.M, if_neg hb]
            simp [noCh]) k x
          refine ⟨c2, ?_, ?_⟩
          · unfold Tree.batchWithLeaf.isolated
            have hcc : (fun i => (create ver m h (grp (addLeaf k x kvs) p.length i)).child H) =
                upd (fun i => (if i ∈ (nibbleGroups kvs p.length).map Prod.fst then create ver m h (grp (addLeaf k x kvs) p.length i) else noCh i).child H)
                  (k.nibble p.length) (some ⟨H.leaf k x, ver, .leaf⟩) := by
              funext i
              rw [← congrFun hch i]
              by_cases hi : i = k.nibble p.length
              · rw [hi, upd_same, upd_same]; simp [VTree.child]
              · rw [upd_ne _ _ hi, upd_ne _ _ hi]
            rw [hcc]
            simp only [if_true, genChild_ok (nk := ⟨ver, p⟩) hp64, Res.ok_bind, f1, Res.pure_eq, Children.insert_ofFun]
            simp [LeafNode.hash]
          · rw [← hch]
            exact e2.snoc rfl (by simp only [if_neg hb]; rfl) f2
      obtain ⟨c2, i1, i2⟩ := hiso
      have hM1 : c2.M ⟨ver, p⟩ = none := by
        rw [i2.frame _ (by simp)]
        have := hM ver []
        rwa [List.append_nil] at this
      obtain ⟨c3, f1, _⟩ := TreeCache.putNode_spec (c := c2) (nk := ⟨ver, p⟩)
        (.internal (.ofFun m (fun i => (create ver m h (grp (addLeaf k x kvs) p.length i)).child H))) hM1
      refine ⟨c3, fun hc hok => ?_, i2.fresh hM f1⟩
      rw [ofFun_noCh H, e1 hc hok]
      simp only [Res.ok_bind]
      rw [i1]
      simp only [Res.ok_bind, newMigration_wf hwf, f1, toNode, Res.pure_eq]

/-- `batch_insert_at` computes the pure update. -/
theorem batchInsertAt_spec (H : Hasher D) (m : Bool) (ver : Version) (t : VTree D) :
    ∀ (h : Nat) (p : List Nibble) (kvs : List (Key × D)) (c : TreeCache D), Under p kvs → p.length + h = 64 → kvs ≠ [] →
      WF p t → t ≠ .empty → Holds H ver c p t →
      ∃ c', (∀ hc, HcOk H hc ver p (binsert ver m h kvs t) →
          Tree.batchInsertAt H m hc ver h ⟨t.version, p⟩ kvs c = .ok (c', (⟨ver, p⟩, (binsert ver m h kvs t).toNode H))) ∧
        Step H ver p c t c' (binsert ver m h kvs t) := by
  induction t with
  | empty => intro h p kvs c _ _ _ _ h0; exact absurd rfl h0
  | leaf v k x =>
    intro h p kvs c hu hp hne hw ht hh
    obtain ⟨c1, d1, d2, d3, d4, d5⟩ := hh.deleteRoot ht
    simp only [version_leaf, VTree.isLeaf] at d1 d4
    have hnone : ∀ v q, c1.M ⟨v, p ++ q⟩ = none := by
      intro v1 q
      rw [d3]
      by_cases hq : q = []
      · simp [hq]
      · rw [if_neg (by simpa using hq), hh.M, at?_leaf]
        simp [hq]
    rw [binsert_leaf]
    obtain ⟨c2, e1, st⟩ := batchWithLeaf_spec H m ver k x h p kvs c1 hu hw hp hne hnone
    have hg := TreeCache.getNode_of (hh.getNodeOption ht)
    simp only [version_leaf, toNode] at hg
    refine ⟨c2, ?_, ?_⟩
    · intro hc hok
      have hem : kvs.isEmpty = false := by cases kvs <;> simp at hne ⊢
      rw [Tree.batchInsertAt]
      simp only [hem, Bool.not_false, assert_true, Res.ok_bind, version_leaf, hg, d1, NodeKey.setVersion, e1 hc hok]
    · refine Step.of_leaf d2 d3 d4 d5 st.same st.M st.frame ?_ st.stats (fun _ _ _ hn => create_at H ver m h _ hn)
      rintro ⟨v1, q⟩
      rw [st.S]; simp
  | node v m' ch ih =>
    intro h p kvs c hu hp hne hw ht hh
    have hp64 := wf_node_length hw
    obtain ⟨h, rfl⟩ : ∃ h', h = h' + 1 := ⟨h - 1, by omega⟩
    have hph : rootNibbleHeight - (h + 1) = p.length := nibble_height hp
    obtain ⟨c1, d1, d2, d3, d4, d5⟩ := hh.deleteRoot ht
    simp only [version_node, VTree.isLeaf] at d1 d4
    have hg := TreeCache.getNode_of (hh.getNodeOption ht)
    simp only [version_node, toNode] at hg
    have hem : kvs.isEmpty = false := by cases kvs <;> simp at hne ⊢
    have hwf := (binsert_spec ver m (.node v m' ch) p (h + 1) kvs hu hp hw).1
    rw [binsert, nibble_height hp] at *
    obtain ⟨g1, g2, g3⟩ := nibbleGroups_spec hu hp64
    have hholds : ∀ i, Holds H ver c1 (p ++ [i]) (ch i) := by
      intro i
      refine ⟨?_, ?_, hh.le.2 i, fun _ => d5 (hh.stats ht)⟩
      · intro v1 q
        rw [d3, if_neg (by simp)]
        have := hh.M v1 (i :: q)
        rw [at?_node_cons] at this
        rw [List.append_assoc]
        exact this
      · intro v1 q n hv hn
        have := hh.old v1 (i :: q) n hv (by rw [at?_node_cons]; exact hn)
        rw [List.append_assoc, d2.base, d4]
        refine ⟨this.1, ?_⟩
        rintro (h1 | ⟨h1, _⟩)
        · exact this.2 h1
        · simp at h1
    obtain ⟨c2, e1, e2⟩ := batchChildren_spec H (fun hc => HcOk H hc ver p (.node ver m (fun i => if grp kvs p.length i = [] then ch i else binsert ver m h (grp kvs p.length i) (ch i)))) ver p (fun hc i g c =>
            match (ch i).child H with
            | some child => do
              let childKey ← (⟨v, p⟩ : NodeKey).genChild child.version i
              Tree.batchInsertAt H m hc ver h childKey g c
            | none => do
              let childKey ← (⟨v, p⟩ : NodeKey).genChild ver i
              Tree.batchCreateSubtree H m hc ver h childKey g c)
          (fun i => binsert ver m h (grp kvs p.length i) (ch i))
          (nibbleGroups kvs p.length) g1 ch c1 (by
            intro v1 i q
            have := (hholds i).M v1 q
            rw [List.append_assoc] at this
            exact this) (fun i _ => hholds i) (by
            intro i g hm c' hc'
            obtain ⟨rfl, g5⟩ := g2 i g hm
            by_cases hci : ch i = .empty
            · rw [hci] at hc' ⊢
              simp only [VTree.child, genChild_ok (nk := ⟨v, p⟩) hp64, Res.ok_bind]
              rw [binsert_empty]
              obtain ⟨c2, i1, i2⟩ := batchCreate_spec H m ver h (p ++ [i]) _ c' (hu.grp hp64 i) (by simp; omega) g5 hc'.none
              refine ⟨c2, fun hc hok => i1 hc ?_, i2⟩
              have hoki := hok.child i
              rwa [if_neg g5, hci, binsert_empty] at hoki
            · obtain ⟨ty, t1, t2⟩ := child_of_version (H := H) hci rfl
              rw [t1]
              simp only [genChild_ok (nk := ⟨v, p⟩) hp64, Res.ok_bind]
              obtain ⟨c2, i1, i2⟩ := ih i h (p ++ [i]) _ c' (hu.grp hp64 i) (by simp; omega) g5 (hw.1 i) hci hc'
              refine ⟨c2, fun hc hok => i1 hc ?_, i2⟩
              have hoki := hok.child i
              rwa [if_neg g5] at hoki) (by
            intro i hi
            have g5 := (g3 i).1 hi
            have := binsert_version ver m (hu.grp hp64 i) (by simp; omega) (hw.1 i) g5 (h := h)
            refine ⟨this.1, this.2, fun hc hok => ?_⟩
            have := hok.root i (by simp only [if_neg g5]; exact this.1) (by simp only [if_neg g5]; exact this.2)
            simpa only [if_neg g5] using this)
    have hch : (fun i => if i ∈ (nibbleGroups kvs p.length).map Prod.fst then binsert ver m h (grp kvs p.length i) (ch i) else ch i) =
        (fun i => if grp kvs p.length i = [] then ch i else binsert ver m h (grp kvs p.length i) (ch i)) := by
      funext i
      by_cases hi : i ∈ (nibbleGroups kvs p.length).map Prod.fst
      · rw [if_pos hi, if_neg ((g3 i).1 hi)]
      · rw [if_neg hi, if_pos]
        by_contra h0; exact hi ((g3 i).2 h0)
    have hch' := fun i => congrFun hch i
    simp only [hch'] at e1
    rw [hch] at e2
    have hM1 : c2.M ⟨ver, p⟩ = none := by
      rw [e2.frame _ (by simp), d3, if_pos rfl]
    obtain ⟨c3, f1, _⟩ := TreeCache.putNode_spec (c := c2) (nk := ⟨ver, p⟩)
      (.internal (.ofFun m (fun i => (if grp kvs p.length i = [] then ch i else binsert ver m h (grp kvs p.length i) (ch i)).child H))) hM1
    refine ⟨c3, ?_, Steps.rewrite d2 d3 d4 d5 e2 f1⟩
    intro hc hok
    rw [Tree.batchInsertAt]
    simp only [hem, Bool.not_false, assert_true, Res.ok_bind, version_node, hg, d1, hph]
    refine (congrArg (fun r => r >>= _) (e1 hc hok)).trans ?_
    simp only [Res.ok_bind, newMigration_wf hwf, NodeKey.setVersion, f1, toNode, Res.pure_eq]

end Verif.Jmt
