import Verif.Jmt.Order
import Verif.Proofs.RenameBatch
/-! The order of the entries of the maps of a cache does not matter. -/

set_option autoImplicit false

namespace Verif.Jmt
variable {D : Type}

theorem NodeKey.ren_id (nk : NodeKey) : nk.ren id = nk := rfl

theorem Children.ren_id (cs : Children D) : cs.ren id = cs := by
  obtain ⟨f, n⟩ := cs
  unfold Children.ren
  congr
  funext i
  show (f i).map (Child.ren id) = f i
  rw [show (Child.ren id : Child D → Child D) = id from rfl, Option.map_id]
  rfl

theorem Node.ren_id (n : Node D) : n.ren id = n := by
  cases n with
  | null => rfl
  | leaf l => rfl
  | internal n =>
    show Node.internal { n with children := n.children.ren id } = _
    rw [Children.ren_id]

theorem FMap_ren_id {m m' : FMap NodeKey (Node D)} (h : FMap.Ren (NodeKey.ren id) (Node.ren id) m m') : m'.entries.Perm m.entries := by
  have e : (fun e : NodeKey × Node D => (e.1.ren id, e.2.ren id)) = id := by
    funext e
    rw [NodeKey.ren_id, Node.ren_id]
    rfl
  have := h.perm
  rw [e, List.map_id] at this
  exact this

/-- The caches hold the same, in any order. -/
abbrev TreeCache.Turned (c c' : TreeCache D) : Prop := Sim id [] [] (fun _ _ => none) c c'

theorem Sim.reorder {ρ : Version → Version} {pre : List D} {ps : List NodeStats} {pv : Version → Key → Option (Option Value)} {c c' : TreeCache D}
    (h : Sim ρ pre ps pv c c') {f : CacheOrder D} (hf : f.Ok) : Sim ρ pre ps pv c (f.cache c') :=
  { h with
    nodes := ⟨h.nodes.nodup, (hf.nodes _).trans h.nodes.perm⟩
    stale := ⟨h.stale.nodup, (hf.stale _).trans h.stale.perm⟩
    vcache := ⟨h.vcache.nodup, (hf.values _).trans h.vcache.perm⟩
    fnodes := ⟨h.fnodes.nodup, (hf.frozenNodes _).trans h.fnodes.perm⟩
    fstale := ⟨h.fstale.nodup, (hf.frozenStale _).trans h.fstale.perm⟩ }

namespace TreeCache.Turned

theorem of_new (r : Reader D) (v : Version) : TreeCache.Turned (TreeCache.new r v) (TreeCache.new r v) := by
  have hr : ∀ nk : NodeKey, r.getNodeOption (nk.ren id) = (r.getNodeOption nk).map (Node.ren id) := by
    intro nk
    rw [NodeKey.ren_id]
    cases r.getNodeOption nk with
    | none => rfl
    | some n => rw [Option.map_some, Node.ren_id]
  have hb : ∀ (rk : NodeKey) (nc : FMap NodeKey (Node D)), FMap.Ren (NodeKey.ren id) (Node.ren id) nc nc → TreeCache.Turned
      (⟨rk, v, nc, .empty, 0, .empty, 0, .new, r⟩ : TreeCache D) ⟨rk, v, nc, .empty, 0, .empty, 0, .new, r⟩ := fun rk nc h =>
    { root := rfl, next := rfl, nodes := h, newLeaves := rfl, stale := .empty, staleLeaves := rfl, fnodes := .empty, fstale := .empty, stats := rfl,
      roots := rfl, vcache := .empty, vsorted := List.Pairwise.nil, vsorted' := List.Pairwise.nil, values := fun _ _ => rfl, reader := hr }
  unfold TreeCache.new
  dsimp only
  split
  · split
    · exact hb _ _ .empty
    · exact hb _ _ (FMap.set_map (f := NodeKey.ren id) (g := Node.ren id) (NodeKey.ren_inj id Function.injective_id) .empty _ .null)
  · exact hb _ _ .empty

variable {c c' : TreeCache D}

theorem putSetIn (H : Hasher D) (m : Bool) (o : Nat → CacheOrder D) (ho : ∀ i, (o i).Ok) (ver : Version) (s : Tree.ValueSet) (h : TreeCache.Turned c c') :
    ResRel TreeCache.Turned (Tree.putSet H m ver s c) (Tree.putSetIn H m o ver s c') := by
  induction s generalizing c c' with
  | nil => exact .ok (h.reorder (ho 0))
  | cons e s ih =>
    obtain ⟨k, x⟩ := e
    unfold Tree.putSet Tree.putSetIn
    have h0 := h.reorder (ho (s.length + 1))
    have h1 : TreeCache.Turned (c.putValue ver k x) (((o (s.length + 1)).cache c').putValue ver k x) := { h0 with
      vcache := FMap.set_map (g := id) (Sim.renVal_inj Function.injective_id) h0.vcache (ver, k) x }
    exact (h1.put Function.injective_id H m k (x.map H.value) ver).bind (fun a b hab => ih hab)

theorem putSetsIn (H : Hasher D) (m : Bool) (o : CacheOrders D) (ho : ∀ v i, (o v i).Ok) (ver : Version) (sets : List Tree.ValueSet) (h : TreeCache.Turned c c') :
    ResRel TreeCache.Turned (Tree.putSets H m ver sets c) (Tree.putSetsIn H m o ver sets c') := by
  induction sets generalizing ver c c' with
  | nil => exact .ok h
  | cons s sets ih =>
    unfold Tree.putSets Tree.putSetsIn
    refine (putSetIn H m (o ver) (ho ver) ver s h).bind (fun a b hab => ?_)
    exact (hab.freeze Function.injective_id H rfl (.inl Iff.rfl)).bind (fun x y hxy => ih (ver + 1) hxy.1)

theorem batchPutSetIn (H : Hasher D) (m : Bool) (o : Nat → CacheOrder D) (ho : ∀ i, (o i).Ok) (hc : Option (Tree.HashCache D)) (ver : Version)
    (s : List (Key × Value)) (h : TreeCache.Turned c c') : ResRel TreeCache.Turned (Tree.batchPutSet H m hc ver s c) (Tree.batchPutSetIn H m o hc ver s c') := by
  unfold Tree.batchPutSet Tree.batchPutSetIn
  refine (ResRel.refl _).bind (fun _ _ _ => ?_)
  dsimp only
  have h0 := (h.foldl_putValue Function.injective_id ver (Tree.sortDedup s)).reorder (ho 1)
  simp only [id_eq] at h0
  generalize (Tree.sortDedup s).foldl (fun c e => c.putValue ver e.1 (some e.2)) c = c0 at *
  generalize (o 1).cache ((Tree.sortDedup s).foldl (fun c e => c.putValue ver e.1 (some e.2)) c') = c0' at *
  rw [h0.root]
  refine (h0.batchInsertAt Function.injective_id H m hc ver rootNibbleHeight c0.rootNodeKey _).bind ?_
  rintro ⟨a, nk, n⟩ ⟨b, nk', n'⟩ ⟨hab, hr⟩
  simp only [Prod.mk.injEq] at hr hab
  obtain ⟨rfl, rfl⟩ := hr
  have h1 : TreeCache.Turned (a.setRootNodeKey nk) (((o 0).cache b).setRootNodeKey (nk.ren id)) := { hab.reorder (ho 0) with root := rfl }
  have := h1.freeze Function.injective_id H rfl (.inl Iff.rfl)
  dsimp only
  generalize (a.setRootNodeKey nk).freeze H = x at *
  generalize (((o 0).cache b).setRootNodeKey (nk.ren id)).freeze H = y at *
  cases this with
  | error e => exact .error e
  | ok hh => exact .ok hh.1

theorem batchPutSetsIn (H : Hasher D) (m : Bool) (o : CacheOrders D) (ho : ∀ v i, (o v i).Ok) (ver : Version)
    (sets : List (List (Key × Value) × Option (Tree.HashCache D))) (h : TreeCache.Turned c c') :
    ResRel TreeCache.Turned (Tree.batchPutSets H m ver sets c) (Tree.batchPutSetsIn H m o ver sets c') := by
  induction sets generalizing ver c c' with
  | nil => exact .ok h
  | cons s sets ih =>
    obtain ⟨s, hc⟩ := s
    unfold Tree.batchPutSets Tree.batchPutSetsIn
    exact (batchPutSetIn H m (o ver) (ho ver) hc ver s h).bind (fun x y hxy => ih (ver + 1) hxy)

end TreeCache.Turned

/-! ### Batches -/

/-- The batches hold the same, in any order; the values, of a `BTreeMap`, in the same order. -/
structure TreeUpdateBatch.Same (b b' : TreeUpdateBatch D) : Prop where
  nodup : b.nodeBatch.nodes.NodupKeys
  nodes : b'.nodeBatch.nodes.entries.Perm b.nodeBatch.nodes.entries
  values : b'.nodeBatch.values = b.nodeBatch.values
  snodup : b.staleNodeIndexBatch.elems.Nodup
  stale : b'.staleNodeIndexBatch.elems.Perm b.staleNodeIndexBatch.elems
  stats : b'.nodeStats = b.nodeStats

theorem OMap_ext {a b : OMap (Version × Key) (Option Value)} (ha : OMap.Sorted valueKeyLt a.entries) (hb : OMap.Sorted valueKeyLt b.entries)
    (h : ∀ k, a.get k = b.get k) : a = b := by
  have hm : ∀ e, e ∈ a.entries ↔ e ∈ b.entries := by
    rintro ⟨k, x⟩
    rw [OMap.mem_iff_lookup valueKeyLt_strict ha, OMap.mem_iff_lookup valueKeyLt_strict hb]
    have := h k
    unfold OMap.get at this
    rw [this]
  have he : a.entries = b.entries := by
    refine ((List.perm_ext_iff_of_nodup (List.Nodup.of_map _ (OMap.sorted_nodup valueKeyLt_strict ha))
      (List.Nodup.of_map _ (OMap.sorted_nodup valueKeyLt_strict hb))).2 hm).eq_of_pairwise ?_ ha hb
    intro a b _ _ h h'
    have := valueKeyLt_strict.trans _ _ _ h h'
    rw [valueKeyLt_strict.irrefl] at this
    cases this
  exact congrArg OMap.mk he

theorem TreeCache.Turned.into {c c' : TreeCache D} (h : TreeCache.Turned c c') : c'.into.1 = c.into.1 ∧ TreeUpdateBatch.Same c.into.2 c'.into.2 := by
  refine ⟨h.roots.symm, h.fnodes.nodup, FMap_ren_id h.fnodes, ?_, h.fstale.nodup, ?_, h.stats.symm⟩
  · refine OMap_ext h.vsorted' h.vsorted (fun k => ?_)
    have := h.values k.1 k.2
    rw [Option.or_none] at this
    exact this.symm
  · have := h.fstale.perm
    rw [show (StaleNodeIndex.ren id) = id from rfl, List.map_id] at this
    exact this

/-- Related results of a call. -/
def SameOut (a b : List D × TreeUpdateBatch D) : Prop := b.1 = a.1 ∧ TreeUpdateBatch.Same a.2 b.2

theorem ResRel.of_ok {roots : List D} {b : TreeUpdateBatch D} {y : Res (List D × TreeUpdateBatch D)} (h : ResRel SameOut (.ok (roots, b)) y) :
    ∃ b', y = .ok (roots, b') ∧ TreeUpdateBatch.Same b b' := by
  cases h with
  | @ok _ y h =>
    obtain ⟨r, b'⟩ := y
    obtain ⟨h1, h2⟩ := h
    exact ⟨b', by rw [show r = roots from h1], h2⟩

theorem putValueSetsIn_same (H : Hasher D) (m : Bool) (o : CacheOrders D) (ho : ∀ v i, (o v i).Ok) (r : Reader D) (sets : List Tree.ValueSet) (v : Version) :
    ResRel SameOut (Tree.putValueSets H m r sets v) (Tree.putValueSetsIn H m o r sets v) := by
  unfold Tree.putValueSets Tree.putValueSetsIn
  exact (TreeCache.Turned.putSetsIn H m o ho v sets (.of_new r v)).bind (fun a b hab => .ok hab.into)

theorem batchPutValueSetsIn_same (H : Hasher D) (m : Bool) (o : CacheOrders D) (ho : ∀ v i, (o v i).Ok) (r : Reader D) (sets : List (List (Key × Value)))
    (hashes : Option (List (Tree.HashCache D))) (v : Version) :
    ResRel SameOut (Tree.batchPutValueSets H m r sets hashes v) (Tree.batchPutValueSetsIn H m o r sets hashes v) := by
  unfold Tree.batchPutValueSets Tree.batchPutValueSetsIn
  dsimp only
  refine (TreeCache.Turned.batchPutSetsIn H m o ho v _ (.of_new r v)).bind (fun a b hab => ?_)
  exact (ResRel.refl _).bind (fun _ _ _ => .ok hab.into)

end Verif.Jmt
