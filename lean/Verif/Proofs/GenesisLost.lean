import Verif.Proofs.GenesisCalls
/-! The call after a first call without effect. -/

set_option autoImplicit false

namespace Verif.Jmt
variable {D : Type}
open VTree Spec

/-- The root hashes of `put_value_sets`, whatever else there is in the database. -/
theorem putSets_roots (H : Hasher D) (m : Bool) (sets : List Tree.ValueSet) (ver : Version) (c : TreeCache D) (t : VTree D) (f : Key → Option Value)
    (hc : Cur H ver c t t) (hh : Holding H t f)
    (hk : RootThere c t ∨ (t = .empty ∧ ∀ s, sets.head? = some s → ∃ k v, applyUpdates f s k = some v)) :
    ∃ c' hs, Tree.putSets H m ver sets c = .ok c' ∧ c'.frozen.rootHashes = c.frozen.rootHashes ++ hs ∧ hs.length = sets.length ∧
      ∀ i, i < sets.length → ∀ L, Lists H ((sets.take (i + 1)).foldl applyUpdates f) L → hs[i]? = some (smtRoot H L) := by
  induction sets generalizing ver c t f with
  | nil => exact ⟨c, [], rfl, by simp, rfl, by intro i hi; cases hi⟩
  | cons s sets ih =>
    obtain ⟨c1, e1, e2, e3, e4, e5, e6, e7⟩ := putSet_spec H m ver s c t t hc
    have hh1 := hh.applySet ver m s
    have hkn : RootKnown c1 (applySet ver m (hashSet H s) t) := by
      rcases hk with hk | ⟨_, hk⟩
      · exact e7 (hk.known hc)
      · exact .inl (hh1.ne_empty.2 (hk s rfl))
    obtain ⟨c2, f1, f2⟩ := freeze_spec H ver c1 t _ e2 hkn
    obtain ⟨c3, hs, g1, g2, g3, g4⟩ := ih (ver + 1) c2 _ _ f2.cur hh1 (.inl f2.known)
    refine ⟨c3, (applySet ver m (hashSet H s) t).hash H :: hs, ?_, ?_, by simp [g3], ?_⟩
    · simp only [Tree.putSets, e1, Res.ok_bind, f1, g1]
    · rw [g2, f2.roots, e3]; simp
    · intro i hi L hL
      cases i with
      | zero =>
        rw [VTree.hash_eq_smt H hh1.1]
        exact congrArg some (smt_perm H 256 (lists_perm hh1.lists hL))
      | succ i => exact g4 i (by simpa using hi) L hL

section
variable {H : Hasher D} {m : Bool} {P : List (Key × Value)} {sA sB : Store D} {roots : List D} {b : TreeUpdateBatch D}

/-- After a first call with one set without effect, the next one starts from nothing. -/
theorem GenesisBatch.lost {x : Tree.ValueSet} (h : GenesisBatch H P [x] sA roots b) (hA : StoreInv H preGenesisVersion [.batch m P] preGenesisVersion sA)
    (hB : StoreInv H 0 [.batch m P] 0 sB) (hx : Idle (batchContents P) x) (m' : Bool) (sets : List Tree.ValueSet)
    (hlen : sets.length + 1 < preGenesisVersion) (hs : ∀ s, sets.head? = some s → ∃ k v, applyUpdates (fun _ => none) s k = some v) :
    ∃ roots' b', Tree.putValueSets H m' (sA.reader.plus b) sets 1 = .ok (roots', b') ∧ roots'.length = sets.length ∧
      ∀ i, i < sets.length → ∀ L, Lists H (contents (sets.take (i + 1))) L → roots'[i]? = some (smtRoot H L) := by
  have h0 : shiftVer preGenesisVersion = 0 := by unfold shiftVer; simp
  have hsh : ∀ v, v < preGenesisVersion → shiftVer v = v + 1 := by
    intro v hv; unfold shiftVer; rw [if_neg (by omega)]
  have hnone : ∀ nk, b.nodeBatch.nodes.get nk = none := by
    rintro ⟨v, q⟩
    cases hg : b.nodeBatch.nodes.get ⟨v, q⟩ with
    | none => rfl
    | some n =>
      have h1 := h.range ⟨v, q⟩ (by rw [hg]; rfl)
      simp only [List.length_singleton] at h1
      obtain rfl : v = 0 := by omega
      have := h.noRoot x rfl hx q
      rw [hg] at this; exact this
  have hread : ∀ nk : NodeKey, sB.reader.getNodeOption (nk.ren shiftVer) = ((sA.reader.plus b).getNodeOption nk).map (Node.ren shiftVer) := by
    intro nk
    show _ = ((b.nodeBatch.nodes.get nk).or (sA.nodes.get nk)).map _
    rw [hnone]
    exact hA.one_ren hB shiftVer_inj h0 nk
  have hsim : Sim shiftVer [] [] (fun _ _ => none) (TreeCache.new (sA.reader.plus b) 1) (TreeCache.new sB.reader 2) := by
    unfold TreeCache.new
    rw [if_neg (by decide), if_neg (by decide)]
    exact { root := by simp [NodeKey.newEmptyPath, NodeKey.ren, hsh 0 (by omega)], next := (hsh 1 (by omega)).symm, nodes := .empty, newLeaves := rfl,
            stale := .empty, staleLeaves := rfl, fnodes := .empty, fstale := .empty, stats := rfl, roots := rfl, vcache := .empty,
            vsorted := List.Pairwise.nil, vsorted' := List.Pairwise.nil, values := fun _ _ => rfl, reader := hread }
  have hdom : ∀ nk : NodeKey, (sB.nodes.get nk).isSome = true → nk.version = 0 := by
    rintro ⟨v, q⟩ hs
    obtain ⟨n, hn⟩ := Option.isSome_iff_exists.1 hs
    have := hB.inv.dom v q n hn
    simp only [List.length_singleton] at this
    simp only
    omega
  have hcur : Cur H 2 (TreeCache.new sB.reader 2) .empty .empty := by
    have hb : (TreeCache.new sB.reader 2).base = sB.nodes.get := by funext nk; rfl
    refine ⟨.oldNull 1 (by decide) rfl (fun nk => rfl) (.inr ?_) rfl, rfl, ?_, fun _ _ _ _ h => h, ?_, ?_, ?_, trivial, trivial, ?_⟩
    · rw [hb]
      cases hg : sB.nodes.get ⟨1, []⟩ with
      | none => rfl
      | some n => have := hdom ⟨1, []⟩ (by rw [hg]; rfl); cases this
    · intro v q
      constructor
      · intro hs; cases hs
      · rintro ⟨_, h1, _⟩; cases h1
    · intro v q n _ h1; cases h1
    · intro nk hs
      rw [hb] at hs
      have := hdom nk hs
      omega
    · intro v q n h1; cases h1
    · exact ⟨FMap.nodupKeys_empty, rfl, List.nodup_nil, rfl⟩
  obtain ⟨c', hs', e1, e2, e3, e4⟩ := putSets_roots H m' sets 2 _ _ _ hcur (holding_empty H) (.inr ⟨rfl, hs⟩)
  have hrun := hsim.putSets shiftVer_inj H m' 1 sets rfl rfl (fun v h1 h2 => by rw [hsh _ (by omega), hsh _ (by omega)])
    (fun v h1 h2 => by rw [hsh _ (by omega)]; omega)
  rw [hsh 1 (by omega), e1] at hrun
  unfold Tree.putValueSets
  generalize Tree.putSets H m' 1 sets (TreeCache.new (sA.reader.plus b) 1) = y at *
  cases hrun with
  | @ok cA cB hs =>
    have hr : cA.into.1 = c'.into.1 := hs.roots
    have hr' : c'.into.1 = hs' := e2
    refine ⟨cA.into.1, cA.into.2, rfl, by rw [hr, hr', e3], ?_⟩
    intro i hi L hL
    rw [hr, hr']
    exact e4 i hi L hL

end

/-- `batch_put_value_sets` at version 1 needs the root of version 0. -/
theorem batch_missing (H : Hasher D) (m : Bool) {r : Reader D} (hr : r.getNodeOption ⟨0, []⟩ = none) {s : List (Key × Value)} (hs : s ≠ [])
    (sets : List (List (Key × Value))) : Tree.batchPutValueSets H m r (s :: sets) none 1 = .error (.err "Missing node") := by
  have hkeep : ∀ (kvs : List (Key × Value)) (c : TreeCache D), (kvs.foldl (fun c e => c.putValue 1 e.1 (some e.2)) c).rootNodeKey = c.rootNodeKey ∧
      (kvs.foldl (fun c e => c.putValue 1 e.1 (some e.2)) c).nodeCache = c.nodeCache ∧
      (kvs.foldl (fun c e => c.putValue 1 e.1 (some e.2)) c).frozen = c.frozen ∧
      (kvs.foldl (fun c e => c.putValue 1 e.1 (some e.2)) c).reader = c.reader := by
    intro kvs
    induction kvs with
    | nil => exact fun _ => ⟨rfl, rfl, rfl, rfl⟩
    | cons e kvs ih => exact fun c => ih _
  obtain ⟨k1, k2, k3, k4⟩ := hkeep (Tree.sortDedup s) (TreeCache.new r 1)
  have hem : s.isEmpty = false := by cases s <;> simp at hs ⊢
  have hne : ((Tree.sortDedup s).map (fun e => (e.1, H.value e.2))) ≠ [] := hashKvs_ne_nil H hs
  have hem2 : ((Tree.sortDedup s).map (fun e => (e.1, H.value e.2))).isEmpty = false := by
    cases hh : (Tree.sortDedup s).map (fun e => (e.1, H.value e.2)) with
    | nil => exact absurd hh hne
    | cons _ _ => rfl
  have hset : Tree.batchPutSet H m none 1 s (TreeCache.new r 1) = .error (.err "Missing node") := by
    unfold Tree.batchPutSet
    simp only [hem, Bool.not_false, assert_true, Res.ok_bind]
    generalize (Tree.sortDedup s).foldl (fun c e => c.putValue 1 e.1 (some e.2)) (TreeCache.new r 1) = c at *
    have hget : c.getNode c.rootNodeKey = .error (.err "Missing node") := by
      unfold TreeCache.getNode
      rw [k1, k2, k3, k4]
      show Reader.getNode r ⟨0, []⟩ = _
      unfold Reader.getNode
      rw [hr]
    unfold Tree.batchInsertAt
    simp only [hem2, Bool.not_false, assert_true, Res.ok_bind, hget]
    rfl
  unfold Tree.batchPutValueSets
  simp only [List.map_cons, List.zip_cons_cons, Tree.batchPutSets, hset]
  rfl

end Verif.Jmt
