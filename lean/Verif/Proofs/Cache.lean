import Verif.Proofs.VPut
/-! Cache primitives as operations on an abstract view (map of new nodes, set of stale keys). -/

namespace Verif.Jmt
variable {D : Type}

/-! counting in finite maps -/

theorem FMap.countP_erase {K V : Type} [DecidableEq K] (P : V → Bool) (m : FMap K V) (hn : m.NodupKeys) {k : K} {v : V}
    (h : m.get k = some v) :
    m.entries.countP (fun e => P e.2) = (m.erase k).entries.countP (fun e => P e.2) + (if P v then 1 else 0) := by
  obtain ⟨l⟩ := m
  simp only [FMap.get, FMap.NodupKeys, FMap.erase] at *
  induction l with
  | nil => simp [FMap.lookupL] at h
  | cons e t ih =>
    obtain ⟨a, w⟩ := e
    simp only [List.map_cons, List.nodup_cons] at hn
    by_cases hak : a = k
    · subst hak
      simp only [FMap.lookupL, if_true, Option.some.injEq] at h
      subst h
      have : t.filter (fun e => decide (e.1 ≠ a)) = t := by
        rw [List.filter_eq_self]
        intro b hb
        have : b.1 ≠ a := fun h0 => hn.1 (List.mem_map.2 ⟨b, hb, h0⟩)
        simpa using this
      rw [List.filter_cons_of_neg (by simp), this, List.countP_cons]
    · simp only [FMap.lookupL, hak, if_false] at h
      rw [List.filter_cons_of_pos (by simpa using hak), List.countP_cons, List.countP_cons, ih hn.2 h]
      omega

theorem FMap.erase_of_none {K V : Type} [DecidableEq K] (m : FMap K V) {k : K} (h : m.get k = none) : m.erase k = m := by
  rw [FMap.get_eq_none_iff] at h
  obtain ⟨l⟩ := m
  simp only [FMap.erase, FMap.mk.injEq]
  rw [List.filter_eq_self]
  intro b hb
  have : b.1 ≠ k := fun h0 => h (List.mem_map.2 ⟨b, hb, h0⟩)
  simpa using this

namespace TreeCache

/-- Nodes of earlier versions: frozen ones and those in the store. -/
def base (c : TreeCache D) (nk : NodeKey) : Option (Node D) :=
  match c.frozen.nodeCache.nodes.get nk with
  | some n => some n
  | none => c.reader.getNodeOption nk

/-- New nodes of the current version. -/
def M (c : TreeCache D) (nk : NodeKey) : Option (Node D) := c.nodeCache.get nk
/-- Keys marked stale in the current version. -/
def S (c : TreeCache D) (nk : NodeKey) : Prop := nk ∈ c.staleNodeIndexCache

theorem getNodeOption_eq (c : TreeCache D) (nk : NodeKey) :
    c.getNodeOption nk = match c.M nk with | some n => some n | none => c.base nk := rfl

theorem getNode_of {c : TreeCache D} {nk : NodeKey} {n : Node D} (h : c.getNodeOption nk = some n) : c.getNode nk = .ok n := by
  unfold getNodeOption at h
  unfold getNode
  split at h
  · cases h; rfl
  · split at h
    · cases h; rfl
    · simp [Reader.getNode, h]

/-- Everything that node insertions and deletions leave alone. -/
structure Same (c c' : TreeCache D) : Prop where
  rootNodeKey : c'.rootNodeKey = c.rootNodeKey
  nextVersion : c'.nextVersion = c.nextVersion
  valueCache : c'.valueCache = c.valueCache
  frozen : c'.frozen = c.frozen
  reader : c'.reader = c.reader

theorem Same.refl (c : TreeCache D) : Same c c := ⟨rfl, rfl, rfl, rfl, rfl⟩
theorem Same.trans {a b c : TreeCache D} (h : Same a b) (h' : Same b c) : Same a c :=
  ⟨h'.1.trans h.1, h'.2.trans h.2, h'.3.trans h.3, h'.4.trans h.4, h'.5.trans h.5⟩
theorem Same.base {c c' : TreeCache D} (h : Same c c') : c'.base = c.base := by
  funext nk; simp [TreeCache.base, h.frozen, h.reader]

/-- The leaf counters are right. -/
structure StatsOk (c : TreeCache D) : Prop where
  nodup : c.nodeCache.NodupKeys
  leaves : c.numNewLeaves = c.nodeCache.entries.countP (fun e => e.2.isLeaf)
  staleNodup : c.staleNodeIndexCache.elems.Nodup
  staleLeaves : c.numStaleLeaves =
    c.staleNodeIndexCache.elems.countP (fun nk => match c.base nk with | some n => n.isLeaf | none => false)

theorem putNode_spec {c : TreeCache D} {nk : NodeKey} (n : Node D) (h : c.M nk = none) :
    ∃ c', c.putNode nk n = .ok c' ∧ Same c c' ∧ (∀ nk', c'.M nk' = if nk' = nk then some n else c.M nk') ∧
      (∀ nk', c'.S nk' ↔ c.S nk') ∧ (StatsOk c → StatsOk c') := by
  unfold M at h
  have e0 : c.putNode nk n = .ok { c with
      nodeCache := c.nodeCache.set nk n
      numNewLeaves := if n.isLeaf then c.numNewLeaves + 1 else c.numNewLeaves } := by simp only [putNode, h]
  refine ⟨_, e0, ⟨rfl, rfl, rfl, rfl, rfl⟩, ?_, fun _ => Iff.rfl, ?_⟩
  · intro nk'; simp [M]
  · intro hs
    refine ⟨hs.nodup.set _ _, ?_, hs.staleNodup, hs.staleLeaves⟩
    have e := FMap.erase_of_none c.nodeCache h
    simp only [FMap.set, e, List.countP_cons, hs.leaves]
    split <;> rfl

theorem deleteNode_new {c : TreeCache D} {nk : NodeKey} {n : Node D} (h : c.M nk = some n) (hl : n.isLeaf = true → StatsOk c) :
    ∃ c', c.deleteNode nk n.isLeaf = .ok c' ∧ Same c c' ∧ (∀ nk', c'.M nk' = if nk' = nk then none else c.M nk') ∧
      (∀ nk', c'.S nk' ↔ c.S nk') ∧ (StatsOk c → StatsOk c') := by
  unfold M at h
  have e0 : c.deleteNode nk n.isLeaf = .ok { c with
      nodeCache := c.nodeCache.erase nk
      numNewLeaves := if n.isLeaf then c.numNewLeaves - 1 else c.numNewLeaves } := by
    have hz : (n.isLeaf && c.numNewLeaves == 0) = false := by
      cases hn : n.isLeaf with
      | false => rfl
      | true =>
        have e := FMap.countP_erase (fun n : Node D => n.isLeaf) c.nodeCache (hl hn).nodup h
        rw [← (hl hn).leaves] at e
        simp only [hn, if_true] at e
        simp [e]
    simp only [deleteNode, h, hz, Bool.false_eq_true, if_false]
  refine ⟨_, e0, ⟨rfl, rfl, rfl, rfl, rfl⟩, ?_, fun _ => Iff.rfl, ?_⟩
  · intro nk'; simp [M]
  · intro hs
    refine ⟨hs.nodup.erase _, ?_, hs.staleNodup, hs.staleLeaves⟩
    have e := FMap.countP_erase (fun n : Node D => n.isLeaf) c.nodeCache hs.nodup h
    simp only [hs.leaves, e]
    split <;> simp

theorem deleteNode_old {c : TreeCache D} {nk : NodeKey} {n : Node D} (h : c.M nk = none) (hS : ¬ c.S nk)
    (hB : c.base nk = some n) :
    ∃ c', c.deleteNode nk n.isLeaf = .ok c' ∧ Same c c' ∧ (∀ nk', c'.M nk' = c.M nk') ∧
      (∀ nk', c'.S nk' ↔ nk' = nk ∨ c.S nk') ∧ (StatsOk c → StatsOk c') := by
  unfold M at h
  have hc : c.staleNodeIndexCache.contains nk = false := by
    rw [Bool.eq_false_iff]; intro h0; exact hS ((FSet.contains_iff _ _).1 h0)
  have e0 : c.deleteNode nk n.isLeaf = .ok { c with
      staleNodeIndexCache := c.staleNodeIndexCache.insert nk
      numStaleLeaves := if n.isLeaf then c.numStaleLeaves + 1 else c.numStaleLeaves } := by
    simp only [deleteNode, h, hc, Bool.false_eq_true, if_false]
  refine ⟨_, e0, ⟨rfl, rfl, rfl, rfl, rfl⟩, fun _ => rfl, ?_, ?_⟩
  · intro nk'; simp [S]
  · intro hs
    have hm : nk ∉ c.staleNodeIndexCache.elems := hS
    refine ⟨hs.nodup, hs.leaves, ?_, ?_⟩
    · simp only [FSet.insert, hm, if_false, List.nodup_cons, not_false_eq_true, true_and]
      exact hs.staleNodup
    · have e : ∀ x, TreeCache.base { c with
            staleNodeIndexCache := c.staleNodeIndexCache.insert nk
            numStaleLeaves := if n.isLeaf then c.numStaleLeaves + 1 else c.numStaleLeaves } x = c.base x := fun _ => rfl
      simp only [e]
      simp only [FSet.insert, hm, if_false, List.countP_cons, hB, hs.staleLeaves]
      split <;> simp

end TreeCache
end Verif.Jmt
