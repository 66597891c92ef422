import Verif.Jmt.Read
import Verif.Proofs.Touch
import Verif.Proofs.OMap
import Mathlib.Data.List.Nodup
import Mathlib.Tactic.SplitIfs
/-! The update path looks at versions only as parts of node keys: renaming the versions of the nodes in the store renames those of the nodes
it writes, and nothing else. -/

set_option autoImplicit false

namespace Verif.Jmt
variable {D : Type} {α β γ δ : Type}

/-! ### renaming -/

section
variable (ρ : Version → Version)

/-- The key with its version renamed. -/
def NodeKey.ren (nk : NodeKey) : NodeKey := ⟨ρ nk.version, nk.path⟩
/-- The child with its version renamed. -/
def Child.ren (c : Child D) : Child D := { c with version := ρ c.version }
/-- All children with their versions renamed. -/
def Children.ren (cs : Children D) : Children D := ⟨fun i => (cs.children i).map (Child.ren ρ), cs.numChildren⟩
/-- The node with the versions of its children renamed. -/
def InternalNode.ren (n : InternalNode D) : InternalNode D := { n with children := n.children.ren ρ }
/-- The node with the versions of its children renamed. -/
def Node.ren : Node D → Node D
  | .null => .null
  | .leaf l => .leaf l
  | .internal n => .internal (n.ren ρ)

theorem NodeKey.genChild_ren (nk : NodeKey) (v : Version) (i : Nibble) :
    (nk.ren ρ).genChild (ρ v) i = (nk.genChild v i).map (NodeKey.ren ρ) := by
  unfold NodeKey.genChild NodeKey.ren
  dsimp only
  split <;> rfl

theorem NodeKey.ren_inj (hρ : Function.Injective ρ) : Function.Injective (NodeKey.ren ρ) := by
  rintro ⟨v, p⟩ ⟨w, q⟩ h
  simp only [NodeKey.ren, NodeKey.mk.injEq] at h
  rw [hρ h.1, h.2]

theorem Children.new_ren : (Children.new : Children D).ren ρ = .new := rfl

theorem Children.insert_ren (cs : Children D) (i : Nibble) (c : Child D) : (cs.ren ρ).insert i (c.ren ρ) = (cs.insert i c).ren ρ := by
  unfold Children.insert Children.ren
  simp only [Option.isNone_map, Children.mk.injEq, and_true]
  funext j
  split <;> rfl

theorem Children.remove_ren (cs : Children D) (i : Nibble) : (cs.ren ρ).remove i = (cs.remove i).ren ρ := by
  unfold Children.remove Children.ren
  simp only [Option.isSome_map, Children.mk.injEq, and_true]
  funext j
  split <;> rfl

theorem Children.iterSorted_ren (cs : Children D) : (cs.ren ρ).iterSorted = cs.iterSorted.map (fun e => (e.1, e.2.ren ρ)) := by
  unfold Children.iterSorted Children.ren
  rw [List.map_filterMap]
  congr 1
  funext i
  dsimp only
  cases cs.children i <;> rfl

theorem Children.values_ren (cs : Children D) : (cs.ren ρ).values = cs.values.map (Child.ren ρ) := by
  unfold Children.values Children.ren
  rw [List.map_filterMap]

theorem InternalNode.sumLeafCount_ren (cs : Children D) : sumLeafCount (cs.ren ρ) = sumLeafCount cs := by
  unfold sumLeafCount
  rw [Children.values_ren, List.foldl_map]
  rfl

theorem InternalNode.newImpl_ren (cs : Children D) (m : Bool) : newImpl (cs.ren ρ) m = (newImpl cs m).map (InternalNode.ren ρ) := by
  unfold newImpl
  rw [Children.values_ren, sumLeafCount_ren]
  rw [show (cs.ren ρ).isEmpty = cs.isEmpty from rfl, show (cs.ren ρ).numChildren = cs.numChildren from rfl]
  cases h : cs.isEmpty with
  | true => rfl
  | false =>
    split_ifs with h1
    · cases cs.values with
      | nil => rfl
      | cons c l =>
        cases h2 : c.isLeaf with
        | true =>
          have : (c.ren ρ).isLeaf = true := h2
          simp [ensure, h2, this]; rfl
        | false =>
          have : (c.ren ρ).isLeaf = false := h2
          simp [ensure, h2, this]; rfl
    · rfl

theorem InternalNode.newMigration_ren (cs : Children D) (m : Bool) :
    newMigration (cs.ren ρ) m = (newMigration cs m).map (InternalNode.ren ρ) := by
  unfold newMigration
  rw [newImpl_ren]
  cases newImpl cs m <;> rfl

theorem InternalNode.new_ren (cs : Children D) : InternalNode.new (cs.ren ρ) = (InternalNode.new cs).map (InternalNode.ren ρ) :=
  newMigration_ren ρ cs true

theorem InternalNode.generateBitmaps_ren (n : InternalNode D) : (n.ren ρ).generateBitmaps = n.generateBitmaps := by
  unfold generateBitmaps
  rw [show (n.ren ρ).children.iterSorted = _ from Children.iterSorted_ren ρ n.children, List.foldl_map]
  rfl

theorem InternalNode.merkleHash_ren (H : Hasher D) (n : InternalNode D) (h start : Nat) (bm : Nat × Nat) :
    (n.ren ρ).merkleHash H h start bm = n.merkleHash H h start bm := by
  induction h generalizing start bm with
  | zero =>
    unfold merkleHash
    dsimp only
    split_ifs
    · rfl
    · rw [show (n.ren ρ).child (onlyChildIndex (rangeBitmaps start (2 ^ 0) bm).1) = (n.child _).map (Child.ren ρ) from rfl]
      cases n.child _ <;> rfl
    · rfl
  | succ h ih =>
    unfold merkleHash
    dsimp only
    split_ifs
    · rfl
    · rw [show (n.ren ρ).child (onlyChildIndex (rangeBitmaps start (2 ^ (h + 1)) bm).1) = (n.child _).map (Child.ren ρ) from rfl]
      cases n.child _ <;> rfl
    · rw [ih, ih]

theorem InternalNode.hash_ren (H : Hasher D) (n : InternalNode D) : (n.ren ρ).hash H = n.hash H := by
  unfold hash
  rw [generateBitmaps_ren, merkleHash_ren]

theorem Node.hash_ren (H : Hasher D) (n : Node D) : (n.ren ρ).hash H = n.hash H := by
  cases n with
  | internal n => exact n.hash_ren ρ H
  | _ => rfl

theorem Node.isLeaf_ren (n : Node D) : (n.ren ρ).isLeaf = n.isLeaf := by cases n <;> rfl
theorem Node.nodeType_ren (n : Node D) : (n.ren ρ).nodeType = n.nodeType := by cases n <;> rfl

theorem InternalNode.getChildWithSiblingsLoop_ren (H : Hasher D) (n : InternalNode D) (nk : NodeKey) (i : Nibble) (bm : Nat × Nat) (h : Nat)
    (sib : List D) : (n.ren ρ).getChildWithSiblingsLoop H (nk.ren ρ) i bm h sib =
      (n.getChildWithSiblingsLoop H nk i bm h sib).map (fun a => (a.1.map (NodeKey.ren ρ), a.2)) := by
  induction h generalizing sib with
  | zero => rfl
  | succ h ih =>
    unfold getChildWithSiblingsLoop
    dsimp only
    rw [merkleHash_ren]
    split_ifs
    · rfl
    · rw [show (n.ren ρ).child (onlyChildIndex (rangeBitmaps (childAndSiblingHalfStart i h).1 (1 <<< h) bm).1) =
        (n.child _).map (Child.ren ρ) from rfl]
      cases n.child _ with
      | none => rfl
      | some c =>
        dsimp only [Option.map_some]
        rw [show (c.ren ρ).version = ρ c.version from rfl, NodeKey.genChild_ren]
        cases nk.genChild c.version _ <;> rfl
    · exact ih _

theorem InternalNode.getChildWithSiblings_ren (H : Hasher D) (n : InternalNode D) (nk : NodeKey) (i : Nibble) :
    (n.ren ρ).getChildWithSiblings H (nk.ren ρ) i = (n.getChildWithSiblings H nk i).map (fun a => (a.1.map (NodeKey.ren ρ), a.2)) := by
  unfold getChildWithSiblings
  rw [generateBitmaps_ren, getChildWithSiblingsLoop_ren]

end

end Verif.Jmt

/-! ### maps and sets with renamed keys -/

namespace Verif.FMap
variable {K V K' V' : Type} [DecidableEq K] [DecidableEq K'] {f : K → K'} {g : V → V'} {m : FMap K V} {m' : FMap K' V'}

theorem lookupL_map (hf : Function.Injective f) (l : List (K × V)) (k : K) :
    lookupL (l.map (fun e => (f e.1, g e.2))) (f k) = (lookupL l k).map g := by
  induction l with
  | nil => rfl
  | cons e l ih =>
    obtain ⟨a, v⟩ := e
    simp only [List.map_cons, lookupL, hf.eq_iff]
    split
    · rfl
    · exact ih

theorem filter_map (hf : Function.Injective f) (l : List (K × V)) (k : K) :
    (l.map (fun e => (f e.1, g e.2))).filter (fun e => decide (e.1 ≠ f k)) =
      (l.filter (fun e => decide (e.1 ≠ k))).map (fun e => (f e.1, g e.2)) := by
  rw [List.filter_map]
  congr 1
  apply List.filter_congr
  intro e _
  simp [hf.eq_iff]

/-- `m'` is `m` with renamed keys and values, in any order. -/
structure Ren (f : K → K') (g : V → V') (m : FMap K V) (m' : FMap K' V') : Prop where
  nodup : m.NodupKeys
  perm : m'.entries.Perm (m.entries.map (fun e => (f e.1, g e.2)))

omit [DecidableEq K] [DecidableEq K'] in
theorem Ren.empty : Ren f g (.empty : FMap K V) .empty := ⟨nodupKeys_empty, .refl _⟩

omit [DecidableEq K] [DecidableEq K'] in
theorem nodup_map (hf : Function.Injective f) (h : m.NodupKeys) : (⟨m.entries.map (fun e => (f e.1, g e.2))⟩ : FMap K' V').NodupKeys := by
  have h2 := List.Nodup.map hf h
  rw [List.map_map] at h2
  show (List.map _ (List.map _ _)).Nodup
  rw [List.map_map]
  exact h2

omit [DecidableEq K] [DecidableEq K'] in
theorem Ren.nodup' (hf : Function.Injective f) (h : Ren f g m m') : m'.NodupKeys :=
  (h.perm.map Prod.fst).nodup_iff.2 (nodup_map hf h.nodup)

omit [DecidableEq K] [DecidableEq K'] in
theorem Ren.keys (h : Ren f g m m') : (m'.entries.map Prod.fst).Perm ((m.entries.map Prod.fst).map f) := by
  refine (h.perm.map Prod.fst).trans ?_
  rw [List.map_map, List.map_map]
  exact .refl _

omit [DecidableEq K] [DecidableEq K'] in
theorem Ren.size (h : Ren f g m m') : m'.size = m.size := by
  have := h.perm.length_eq
  rw [List.length_map] at this
  exact this

omit [DecidableEq K] [DecidableEq K'] in
theorem Ren.isEmpty (h : Ren f g m m') : m'.isEmpty = m.isEmpty := by
  unfold FMap.isEmpty
  rw [h.perm.isEmpty_eq, List.isEmpty_map]

theorem get_map (hf : Function.Injective f) (h : Ren f g m m') (k : K) : m'.get (f k) = (m.get k).map g := by
  have e : m'.get (f k) = (⟨m.entries.map (fun e => (f e.1, g e.2))⟩ : FMap K' V').get (f k) := by
    apply Option.ext
    intro y
    rw [← mem_iff_get (h.nodup' hf), ← mem_iff_get (nodup_map hf h.nodup)]
    exact h.perm.mem_iff
  rw [e]
  exact lookupL_map hf _ k

omit [DecidableEq K] in
theorem Ren.image (h : Ren f g m m') {k' : K'} (hk : m'.get k' ≠ none) : ∃ k, f k = k' := by
  rw [ne_eq, get_eq_none_iff, not_not] at hk
  obtain ⟨k, _, hk⟩ := List.mem_map.1 (h.keys.mem_iff.1 hk)
  exact ⟨k, hk⟩

theorem Ren.of_get (hf : Function.Injective f) (hm : m.NodupKeys) (hm' : m'.NodupKeys) (hget : ∀ k, m'.get (f k) = (m.get k).map g)
    (hi : ∀ k', m'.get k' ≠ none → ∃ k, f k = k') : Ren f g m m' := by
  have hd : ∀ {A B : Type} {l : List (A × B)}, (l.map Prod.fst).Nodup → l.Nodup := fun h => List.Nodup.of_map _ h
  refine ⟨hm, (List.perm_ext_iff_of_nodup (hd hm') (hd (nodup_map hf hm))).2 ?_⟩
  rintro ⟨k', y⟩
  rw [mem_iff_get hm']
  constructor
  · intro h
    obtain ⟨k, rfl⟩ := hi k' (by rw [h]; exact Option.some_ne_none _)
    rw [hget] at h
    obtain ⟨v, hv, rfl⟩ := Option.map_eq_some_iff.1 h
    exact List.mem_map.2 ⟨(k, v), mem_of_get hv, rfl⟩
  · intro h
    obtain ⟨⟨k, v⟩, hv, he⟩ := List.mem_map.1 h
    cases he
    rw [hget, (mem_iff_get hm).1 hv]
    rfl

theorem set_map (hf : Function.Injective f) (h : Ren f g m m') (k : K) (v : V) : Ren f g (m.set k v) (m'.set (f k) (g v)) := by
  refine ⟨h.nodup.set k v, ?_⟩
  simp only [set, erase, List.map_cons]
  rw [← filter_map hf]
  exact (h.perm.filter _).cons _

theorem erase_map (hf : Function.Injective f) (h : Ren f g m m') (k : K) : Ren f g (m.erase k) (m'.erase (f k)) := by
  refine ⟨h.nodup.erase k, ?_⟩
  simp only [erase]
  rw [← filter_map hf]
  exact h.perm.filter _

theorem extend_map (hf : Function.Injective f) {l : FMap K V} {l' : FMap K' V'} (hl : Ren f g l l') (h : Ren f g m m') :
    Ren f g (m.extend l.entries) (m'.extend l'.entries) := by
  refine .of_get hf (h.nodup.extend _) ((h.nodup' hf).extend _) ?_ ?_
  · intro k
    rw [get_extend _ _ (hl.nodup' hf), get_extend _ _ hl.nodup]
    show (l'.get (f k)).or _ = ((l.get k).or _).map g
    rw [get_map hf hl, get_map hf h]
    cases l.get k <;> rfl
  · intro k' hk
    rw [get_extend _ _ (hl.nodup' hf)] at hk
    by_cases h1 : l'.get k' = none
    · refine h.image (k' := k') (fun h2 => hk ?_)
      show (l'.get k').or _ = none
      rw [h1, h2]; rfl
    · exact hl.image h1

end Verif.FMap

namespace Verif.FSet
variable {K K' : Type} [DecidableEq K] [DecidableEq K'] {f : K → K'} {s : FSet K} {s' : FSet K'}

/-- `s'` is `s` with renamed elements, in any order. -/
structure Ren (f : K → K') (s : FSet K) (s' : FSet K') : Prop where
  nodup : s.elems.Nodup
  perm : s'.elems.Perm (s.elems.map f)

omit [DecidableEq K] [DecidableEq K'] in
theorem Ren.empty : Ren f (.empty : FSet K) .empty := ⟨List.nodup_nil, .refl _⟩

omit [DecidableEq K] [DecidableEq K'] in
theorem Ren.nodup' (hf : Function.Injective f) (h : Ren f s s') : s'.elems.Nodup := h.perm.nodup_iff.2 (h.nodup.map hf)

omit [DecidableEq K] [DecidableEq K'] in
theorem Ren.size (h : Ren f s s') : s'.size = s.size := by
  have := h.perm.length_eq
  rw [List.length_map] at this
  exact this

omit [DecidableEq K] [DecidableEq K'] in
theorem Ren.isEmpty (h : Ren f s s') : s'.isEmpty = s.isEmpty := by
  unfold FSet.isEmpty
  rw [h.perm.isEmpty_eq, List.isEmpty_map]

omit [DecidableEq K] [DecidableEq K'] in
theorem mem_map_iff (hf : Function.Injective f) (h : Ren f s s') (k : K) : f k ∈ s'.elems ↔ k ∈ s.elems := by
  rw [h.perm.mem_iff, List.mem_map]
  exact ⟨fun ⟨a, ha, e⟩ => hf e ▸ ha, fun ha => ⟨k, ha, rfl⟩⟩

theorem insert_map (hf : Function.Injective f) (h : Ren f s s') (k : K) : Ren f (s.insert k) (s'.insert (f k)) := by
  unfold FSet.insert
  simp only [mem_map_iff hf h]
  split
  · exact h
  · rename_i hk
    exact ⟨List.nodup_cons.2 ⟨hk, h.nodup⟩, h.perm.cons _⟩

theorem foldl_insert_map' (hf : Function.Injective f) (l : List K) (h : Ren f s s') :
    Ren f (l.foldl FSet.insert s) ((l.map f).foldl FSet.insert s') := by
  induction l generalizing s s' with
  | nil => exact h
  | cons a l ih => exact ih (insert_map hf h a)

theorem foldl_insert_reorder {l l' : List K} (hl : l.Perm l') (s : FSet K) (hs : s.elems.Nodup) :
    (l.foldl FSet.insert s).elems.Nodup ∧ (l.foldl FSet.insert s).elems.Perm (l'.foldl FSet.insert s).elems := by
  have hm : ∀ (l : List K) (s : FSet K) x, x ∈ (l.foldl FSet.insert s).elems ↔ x ∈ l ∨ x ∈ s.elems := by
    intro l
    induction l with
    | nil => intro s x; simp
    | cons a l ih =>
      intro s x
      rw [List.foldl_cons, ih, ← mem_def (s.insert a), mem_insert, List.mem_cons, mem_def]
      tauto
  have hn : ∀ (l : List K) (s : FSet K), s.elems.Nodup → (l.foldl FSet.insert s).elems.Nodup := by
    intro l
    induction l with
    | nil => intro s h; exact h
    | cons a l ih =>
      intro s h
      refine ih _ ?_
      unfold FSet.insert
      split
      · exact h
      · rename_i ha; exact List.nodup_cons.2 ⟨ha, h⟩
  refine ⟨hn _ _ hs, (List.perm_ext_iff_of_nodup (hn _ _ hs) (hn _ _ hs)).2 ?_⟩
  intro x
  rw [hm, hm, hl.mem_iff]

theorem foldl_insert_map (hf : Function.Injective f) {l : List K} {l' : List K'} (hl : l'.Perm (l.map f)) (h : Ren f s s') :
    Ren f (l.foldl FSet.insert s) (l'.foldl FSet.insert s') := by
  have h1 := foldl_insert_map' hf l h
  exact ⟨h1.nodup, (foldl_insert_reorder hl s' (h.nodup' hf)).2.trans h1.perm⟩

end Verif.FSet

namespace Verif.Jmt
variable {D : Type} {α β γ δ : Type}

/-! ### results that agree -/

/-- Both calls fail with the same error, or both succeed with related results. -/
inductive ResRel (R : α → β → Prop) : Res α → Res β → Prop
  | ok {a : α} {b : β} (h : R a b) : ResRel R (.ok a) (.ok b)
  | error (e : Err) : ResRel R (.error e) (.error e)

theorem ResRel.bind {R : α → β → Prop} {S : γ → δ → Prop} {x : Res α} {y : Res β} {f : α → Res γ} {g : β → Res δ} (h : ResRel R x y)
    (hf : ∀ a b, R a b → ResRel S (f a) (g b)) : ResRel S (x >>= f) (y >>= g) := by
  cases h with
  | ok h => exact hf _ _ h
  | error e => exact .error e

theorem ResRel.ofMap {x : Res α} {y : Res β} {φ : α → β} (h : y = x.map φ) : ResRel (fun a b => b = φ a) x y := by
  subst h
  cases x with
  | ok a => exact .ok rfl
  | error e => exact .error e

theorem ResRel.refl (x : Res α) : ResRel (fun a b => b = a) x x := by
  cases x with
  | ok a => exact .ok rfl
  | error e => exact .error e

theorem ResRel.and {R : α → β → Prop} {P : α → Prop} {x : Res α} {y : Res β} (h : ResRel R x y) (hP : ∀ a, x = .ok a → P a) :
    ResRel (fun a b => R a b ∧ P a) x y := by
  cases h with
  | ok h => exact .ok ⟨h, hP _ rfl⟩
  | error e => exact .error e

/-! ### caches -/

def StaleNodeIndex.ren (ρ : Version → Version) (i : StaleNodeIndex) : StaleNodeIndex := ⟨ρ i.staleSinceVersion, i.nodeKey.ren ρ⟩

theorem StaleNodeIndex.ren_inj (ρ : Version → Version) (hρ : Function.Injective ρ) : Function.Injective (StaleNodeIndex.ren ρ) := by
  rintro ⟨v, a⟩ ⟨w, b⟩ hh
  simp only [StaleNodeIndex.ren, StaleNodeIndex.mk.injEq] at hh
  rw [hρ hh.1, NodeKey.ren_inj ρ hρ hh.2]


/-- The cache `c'` is `c` with renamed versions, and with its hash maps in any order; `c` has the root hashes `pre` and the counters `ps` in front of those of `c'`,
and the values `pv` besides. -/
structure Sim (ρ : Version → Version) (pre : List D) (ps : List NodeStats) (pv : Version → Key → Option (Option Value)) (c c' : TreeCache D) : Prop where
  root : c'.rootNodeKey = c.rootNodeKey.ren ρ
  next : c'.nextVersion = ρ c.nextVersion
  nodes : FMap.Ren (NodeKey.ren ρ) (Node.ren ρ) c.nodeCache c'.nodeCache
  newLeaves : c'.numNewLeaves = c.numNewLeaves
  stale : FSet.Ren (NodeKey.ren ρ) c.staleNodeIndexCache c'.staleNodeIndexCache
  staleLeaves : c'.numStaleLeaves = c.numStaleLeaves
  fnodes : FMap.Ren (NodeKey.ren ρ) (Node.ren ρ) c.frozen.nodeCache.nodes c'.frozen.nodeCache.nodes
  fstale : FSet.Ren (StaleNodeIndex.ren ρ) c.frozen.staleNodeIndexCache c'.frozen.staleNodeIndexCache
  stats : c.frozen.nodeStats = ps ++ c'.frozen.nodeStats
  roots : c.frozen.rootHashes = pre ++ c'.frozen.rootHashes
  vcache : FMap.Ren (fun e : Version × Key => (ρ e.1, e.2)) id c.valueCache c'.valueCache
  vsorted : OMap.Sorted valueKeyLt c.frozen.nodeCache.values.entries
  vsorted' : OMap.Sorted valueKeyLt c'.frozen.nodeCache.values.entries
  values : ∀ v k, c.frozen.nodeCache.values.get (v, k) = (c'.frozen.nodeCache.values.get (ρ v, k)).or (pv v k)
  reader : ∀ nk : NodeKey, c'.reader.getNodeOption (nk.ren ρ) = (c.reader.getNodeOption nk).map (Node.ren ρ)

namespace Sim
variable {ρ : Version → Version} {pre : List D} {ps : List NodeStats} {pv : Version → Key → Option (Option Value)} {c c' : TreeCache D} (hρ : Function.Injective ρ)

/-- Related results of a step: related caches, renamed answer. -/
def Out (ρ : Version → Version) (pre : List D) (ps : List NodeStats) (pv : Version → Key → Option (Option Value)) (a b : TreeCache D × (NodeKey × Node D)) : Prop :=
  Sim ρ pre ps pv a.1 b.1 ∧ b.2 = (a.2.1.ren ρ, a.2.2.ren ρ)

/-- Renamed answer of a put. -/
def renPut (ρ : Version → Version) : PutResult (NodeKey × Node D) → PutResult (NodeKey × Node D)
  | .updated a => .updated (a.1.ren ρ, a.2.ren ρ)
  | .notChanged => .notChanged
  | .removed => .removed

/-- Related results of a put. -/
def OutP (ρ : Version → Version) (pre : List D) (ps : List NodeStats) (pv : Version → Key → Option (Option Value)) (a b : TreeCache D × PutResult (NodeKey × Node D)) : Prop :=
  Sim ρ pre ps pv a.1 b.1 ∧ b.2 = renPut ρ a.2

include hρ

theorem getNodeOption (h : Sim ρ pre ps pv c c') (nk : NodeKey) : c'.getNodeOption (nk.ren ρ) = (c.getNodeOption nk).map (Node.ren ρ) := by
  unfold TreeCache.getNodeOption
  rw [FMap.get_map (NodeKey.ren_inj ρ hρ) h.nodes, FMap.get_map (NodeKey.ren_inj ρ hρ) h.fnodes]
  cases c.nodeCache.get nk with
  | some n => rfl
  | none =>
    cases c.frozen.nodeCache.nodes.get nk with
    | some n => rfl
    | none => exact h.reader nk

theorem getNode (h : Sim ρ pre ps pv c c') (nk : NodeKey) : c'.getNode (nk.ren ρ) = (c.getNode nk).map (Node.ren ρ) := by
  unfold TreeCache.getNode
  rw [FMap.get_map (NodeKey.ren_inj ρ hρ) h.nodes, FMap.get_map (NodeKey.ren_inj ρ hρ) h.fnodes]
  cases c.nodeCache.get nk with
  | some n => rfl
  | none =>
    cases c.frozen.nodeCache.nodes.get nk with
    | some n => rfl
    | none =>
      simp only [Option.map_none]
      unfold Reader.getNode
      rw [h.reader]
      cases c.reader.getNodeOption nk <;> rfl

theorem putNode (h : Sim ρ pre ps pv c c') (nk : NodeKey) (n : Node D) :
    ResRel (Sim ρ pre ps pv) (c.putNode nk n) (c'.putNode (nk.ren ρ) (n.ren ρ)) := by
  unfold TreeCache.putNode
  rw [FMap.get_map (NodeKey.ren_inj ρ hρ) h.nodes]
  cases c.nodeCache.get nk with
  | some x => exact .error _
  | none =>
    refine .ok ?_
    exact { h with
      nodes := FMap.set_map (NodeKey.ren_inj ρ hρ) h.nodes nk n
      newLeaves := by simp only [Node.isLeaf_ren, h.newLeaves] }

theorem deleteNode (h : Sim ρ pre ps pv c c') (nk : NodeKey) (b : Bool) :
    ResRel (Sim ρ pre ps pv) (c.deleteNode nk b) (c'.deleteNode (nk.ren ρ) b) := by
  unfold TreeCache.deleteNode
  rw [FMap.get_map (NodeKey.ren_inj ρ hρ) h.nodes]
  cases c.nodeCache.get nk with
  | some x =>
    simp only [Option.map_some, h.newLeaves]
    split
    · exact .error _
    · refine .ok ?_
      exact { h with
        nodes := FMap.erase_map (NodeKey.ren_inj ρ hρ) h.nodes nk
        newLeaves := rfl }
  | none =>
    have hc : c'.staleNodeIndexCache.contains (nk.ren ρ) = c.staleNodeIndexCache.contains nk := by
      unfold FSet.contains
      simp only [FSet.mem_map_iff (NodeKey.ren_inj ρ hρ) h.stale]
    simp only [Option.map_none, hc]
    split
    · exact .error _
    · refine .ok ?_
      exact { h with
        stale := FSet.insert_map (NodeKey.ren_inj ρ hρ) h.stale nk
        staleLeaves := by simp only [h.staleLeaves] }

theorem createLeafNode (h : Sim ρ pre ps pv c c') (nk : NodeKey) (k : Key) (d : D) :
    ResRel (Out ρ pre ps pv) (Tree.createLeafNode nk k d c) (Tree.createLeafNode (nk.ren ρ) k d c') := by
  unfold Tree.createLeafNode
  exact (h.putNode hρ nk (.leaf ⟨k, d⟩)).bind (fun a b hab => .ok ⟨hab, rfl⟩)

theorem chainUp (H : Hasher D) (ver : Version) (count : Nat) (path : List Nibble) (nk : NodeKey) (n : InternalNode D)
    (h : Sim ρ pre ps pv c c') :
    ResRel (fun a b => Sim ρ pre ps pv a.1 b.1 ∧ b.2 = (a.2.1.ren ρ, a.2.2.ren ρ)) (Tree.chainUp H ver count path nk n c)
      (Tree.chainUp H (ρ ver) count path (nk.ren ρ) (n.ren ρ) c') := by
  induction count generalizing path nk n c c' with
  | zero => exact .ok ⟨h, rfl⟩
  | succ count ih =>
    unfold Tree.chainUp
    cases path.getLast? with
    | none => exact .error _
    | some i =>
      simp only
      have hc : (Children.new.insert i ⟨(n.ren ρ).hash H, ρ ver, (n.ren ρ).nodeType⟩ : Children D) =
          (Children.new.insert i ⟨n.hash H, ver, n.nodeType⟩).ren ρ := by
        rw [← Children.insert_ren, Children.new_ren, InternalNode.hash_ren]; rfl
      rw [hc, InternalNode.new_ren]
      refine (ResRel.ofMap rfl).bind (fun a b hab => ?_)
      subst hab
      exact (h.putNode hρ ⟨ver, path.dropLast⟩ (.internal a)).bind (fun x y hxy => ih _ _ _ hxy)

theorem insertAtLeafNode (H : Hasher D) (m : Bool) (nk : NodeKey) (l : LeafNode D) (ver : Version) (k : Key) (vis rest : List Nibble)
    (x : Option D) (h : Sim ρ pre ps pv c c') :
    ResRel (OutP ρ pre ps pv) (Tree.insertAtLeafNode H m nk l ver k vis rest x c)
      (Tree.insertAtLeafNode H m (nk.ren ρ) l (ρ ver) k vis rest x c') := by
  unfold Tree.insertAtLeafNode
  refine (ResRel.refl _).bind (fun _ _ _ => ?_)
  dsimp only
  split
  · refine (ResRel.refl _).bind (fun _ _ _ => (h.deleteNode hρ nk true).bind (fun a b hab => ?_))
    cases x with
    | none => exact .ok ⟨hab, rfl⟩
    | some d =>
      refine (hab.createLeafNode hρ (nk.setVersion ver) k d).bind (fun a b hab => ?_)
      exact .ok ⟨hab.1, by rcases a with ⟨a, r⟩; rcases b with ⟨b, r'⟩; obtain ⟨_, hr⟩ := hab; simp only at hr; subst hr; rfl⟩
  · cases x with
    | none => exact .ok ⟨h, rfl⟩
    | some d =>
      refine (h.deleteNode hρ nk true).bind (fun a b hab => ?_)
      split
      · rename_i i _ j _ _ _
        refine (ResRel.refl _).bind (fun _ _ _ => ?_)
        refine (ResRel.ofMap (NodeKey.genChild_ren ρ ⟨ver, _⟩ ver i)).bind (fun k1 k1' hk1 => ?_)
        subst hk1
        refine (hab.putNode hρ k1 (.leaf l)).bind (fun a b hab => ?_)
        refine (ResRel.ofMap (NodeKey.genChild_ren ρ ⟨ver, _⟩ ver j)).bind (fun k2 k2' hk2 => ?_)
        subst hk2
        refine (hab.createLeafNode hρ k2 k d).bind (fun a b hab => ?_)
        obtain ⟨a, a1, a2⟩ := a
        obtain ⟨b, b1, b2⟩ := b
        obtain ⟨hab, hr⟩ := hab
        simp only [Prod.mk.injEq] at hr
        obtain ⟨rfl, rfl⟩ := hr
        have hc : ((Children.new.insert i ⟨l.hash H, ρ ver, .leaf⟩).insert j ⟨(a2.ren ρ).hash H, ρ ver, .leaf⟩ : Children D) =
            ((Children.new.insert i ⟨l.hash H, ver, .leaf⟩).insert j ⟨a2.hash H, ver, .leaf⟩).ren ρ := by
          rw [← Children.insert_ren, ← Children.insert_ren, Children.new_ren, Node.hash_ren]; rfl
        dsimp only
        rw [hc, InternalNode.newMigration_ren]
        refine (ResRel.ofMap rfl).bind (fun n n' hn => ?_)
        subst hn
        refine (hab.putNode hρ ⟨ver, _⟩ (.internal n)).bind (fun a b hab => ?_)
        refine (hab.chainUp hρ H ver _ _ ⟨ver, _⟩ n).bind (fun a b hab => ?_)
        exact .ok ⟨hab.1, by rcases a with ⟨a, r⟩; rcases b with ⟨b, r'⟩; obtain ⟨_, hr⟩ := hab; simp only at hr; subst hr; rfl⟩
      · exact .error _

theorem finishRest (nk : NodeKey) (ver : Version) (cs : Children D) (h : Sim ρ pre ps pv c c') :
    ResRel (OutP ρ pre ps pv) (Tree.finishInternal.rest nk ver cs c) (Tree.finishInternal.rest (nk.ren ρ) (ρ ver) (cs.ren ρ) c') := by
  unfold Tree.finishInternal.rest
  refine (h.deleteNode hρ nk false).bind (fun a b hab => ?_)
  have hmk : ResRel (OutP ρ pre ps pv)
      (do
        let newInternal ← InternalNode.new cs
        let c ← a.putNode (nk.setVersion ver) (.internal newInternal)
        pure (c, PutResult.updated (nk.setVersion ver, Node.internal newInternal)) : Res _)
      (do
        let newInternal ← InternalNode.new (cs.ren ρ)
        let c ← b.putNode ((nk.ren ρ).setVersion (ρ ver)) (.internal newInternal)
        pure (c, PutResult.updated ((nk.ren ρ).setVersion (ρ ver), Node.internal newInternal)) : Res _) := by
    refine (ResRel.ofMap (InternalNode.new_ren ρ cs)).bind (fun n n' hn => ?_)
    subst hn
    exact (hab.putNode hρ (nk.setVersion ver) (.internal n)).bind (fun a b hab => .ok ⟨hab, rfl⟩)
  dsimp only
  rw [Children.iterSorted_ren]
  match cs.iterSorted with
  | [] => exact .ok ⟨hab, rfl⟩
  | [(i, ch)] =>
    simp only [List.map_cons, List.map_nil]
    rw [show (ch.ren ρ).isLeaf = ch.isLeaf from rfl]
    split
    · rw [show (ch.ren ρ).version = ρ ch.version from rfl]
      refine (ResRel.ofMap (NodeKey.genChild_ren ρ nk ch.version i)).bind (fun k k' hk => ?_)
      subst hk
      refine (ResRel.ofMap (hab.getNode hρ k)).bind (fun n n' hn => ?_)
      subst hn
      refine (hab.deleteNode hρ k true).bind (fun a b hab => ?_)
      exact (hab.putNode hρ (nk.setVersion ver) n).bind (fun a b hab => .ok ⟨hab, rfl⟩)
    · exact hmk
  | (_, _) :: (_, _) :: _ => exact hmk

theorem finishInternal (H : Hasher D) (nk : NodeKey) (n : InternalNode D) (ver : Version) (i : Nibble) (r : PutResult (NodeKey × Node D))
    (h : Sim ρ pre ps pv c c') :
    ResRel (OutP ρ pre ps pv) (Tree.finishInternal H nk n ver i r c) (Tree.finishInternal H (nk.ren ρ) (n.ren ρ) (ρ ver) i (renPut ρ r) c') := by
  unfold Tree.finishInternal
  cases r with
  | notChanged => exact .ok ⟨h, rfl⟩
  | removed =>
    have := h.finishRest hρ nk ver (n.children.remove i)
    rw [← Children.remove_ren] at this
    exact this
  | updated a =>
    obtain ⟨a1, a2⟩ := a
    simp only [renPut]
    rw [Node.nodeType_ren]
    refine (ResRel.refl _).bind (fun ty ty' hty => ?_)
    subst hty
    have := h.finishRest hρ nk ver (n.children.insert i ⟨a2.hash H, ver, ty'⟩)
    rw [← Children.insert_ren] at this
    rw [Node.hash_ren]
    exact this

theorem insertNull (key : Key) (ver : Version) (x : Option D) (nk : NodeKey) (e : Bool) (h : Sim ρ pre ps pv c c') :
    ResRel (OutP ρ pre ps pv) (Tree.insertAt.insertNull ver key x nk e c) (Tree.insertAt.insertNull (ρ ver) key x (nk.ren ρ) e c') := by
  unfold Tree.insertAt.insertNull
  refine (ResRel.refl _).bind (fun _ _ _ => ?_)
  have h1 : ∀ a b, Sim ρ pre ps pv a b → ResRel (OutP ρ pre ps pv)
      (match x with
        | some vh => do
          let (c, r) ← Tree.createLeafNode (.newEmptyPath ver) key vh a
          pure (c, PutResult.updated r)
        | none => pure (a, .notChanged) : Res _)
      (match x with
        | some vh => do
          let (c, r) ← Tree.createLeafNode (.newEmptyPath (ρ ver)) key vh b
          pure (c, PutResult.updated r)
        | none => pure (b, .notChanged) : Res _) := by
    intro a b hab
    cases x with
    | none => exact .ok ⟨hab, rfl⟩
    | some d =>
      refine (hab.createLeafNode hρ (.newEmptyPath ver) key d).bind (fun a b hab => ?_)
      exact .ok ⟨hab.1, by rcases a with ⟨a, r⟩; rcases b with ⟨b, r'⟩; obtain ⟨_, hr⟩ := hab; simp only at hr; subst hr; rfl⟩
  rw [show (nk.ren ρ).version = ρ nk.version from rfl]
  simp only [hρ.eq_iff]
  split
  · exact (h.deleteNode hρ nk false).bind h1
  · exact h1 c c' h

theorem insertAt (H : Hasher D) (m : Bool) (ver : Version) (key : Key) (x : Option D) (rest vis : List Nibble) (nk : NodeKey)
    (h : Sim ρ pre ps pv c c') :
    ResRel (OutP ρ pre ps pv) (Tree.insertAt H m ver key x rest vis nk c) (Tree.insertAt H m (ρ ver) key x rest vis (nk.ren ρ) c') := by
  induction rest generalizing vis nk c c' with
  | nil =>
    unfold Tree.insertAt
    rw [h.getNodeOption hρ]
    cases c.getNodeOption nk with
    | none => exact h.insertNull hρ key ver x nk false
    | some n =>
      cases n with
      | null => exact h.insertNull hρ key ver x nk true
      | leaf l => exact h.insertAtLeafNode hρ H m nk l ver key vis [] x
      | internal n => exact .error _
  | cons i rest ih =>
    unfold Tree.insertAt
    rw [h.getNodeOption hρ]
    cases c.getNodeOption nk with
    | none => exact h.insertNull hρ key ver x nk false
    | some n =>
      cases n with
      | null => exact h.insertNull hρ key ver x nk true
      | leaf l => exact h.insertAtLeafNode hρ H m nk l ver key vis (i :: rest) x
      | internal n =>
        simp only [Option.map_some, Node.ren]
        rw [show (n.ren ρ).child i = (n.child i).map (Child.ren ρ) from rfl]
        cases n.child i with
        | some ch =>
          simp only [Option.map_some]
          rw [show (ch.ren ρ).version = ρ ch.version from rfl]
          refine (ResRel.ofMap (NodeKey.genChild_ren ρ nk ch.version i)).bind (fun k k' hk => ?_)
          subst hk
          refine (ih (vis ++ [i]) k h).bind (fun a b hab => ?_)
          rw [hab.2]
          exact hab.1.finishInternal hρ H nk n ver i a.2
        | none =>
          simp only [Option.map_none]
          cases x with
          | none => exact h.finishInternal hρ H nk n ver i .notChanged
          | some d =>
            simp only
            refine (ResRel.ofMap (NodeKey.genChild_ren ρ nk ver i)).bind (fun k k' hk => ?_)
            subst hk
            refine (h.createLeafNode hρ k key d).bind (fun a b hab => ?_)
            obtain ⟨hab, hr⟩ := hab
            have := hab.finishInternal hρ H nk n ver i (.updated a.2)
            rw [show renPut ρ (.updated a.2) = .updated b.2 by rw [hr]; rfl] at this
            exact this

theorem put (H : Hasher D) (m : Bool) (key : Key) (x : Option D) (ver : Version) (h : Sim ρ pre ps pv c c') :
    ResRel (Sim ρ pre ps pv) (Tree.put H m key x ver c) (Tree.put H m key x (ρ ver) c') := by
  unfold Tree.put
  rw [h.root]
  refine (h.insertAt hρ H m ver key x key.nibbles [] c.rootNodeKey).bind (fun a b hab => ?_)
  obtain ⟨a, r⟩ := a
  obtain ⟨b, r'⟩ := b
  obtain ⟨hab, hr⟩ := hab
  simp only at hr hab
  subst hr
  cases r with
  | notChanged => exact .ok hab
  | updated u => exact .ok { hab with root := rfl }
  | removed =>
    have : Sim ρ pre ps pv (a.setRootNodeKey (.newEmptyPath ver)) (b.setRootNodeKey (.newEmptyPath (ρ ver))) := { hab with root := rfl }
    exact this.putNode hρ (.newEmptyPath ver) .null

omit hρ in
theorem renVal_inj (hρ : Function.Injective ρ) : Function.Injective (fun e : Version × Key => (ρ e.1, e.2)) := by
  rintro ⟨v, k⟩ ⟨w, k'⟩ h
  simp only [Prod.mk.injEq] at h
  rw [hρ h.1, h.2]

theorem putSet (H : Hasher D) (m : Bool) (ver : Version) (s : Tree.ValueSet) (h : Sim ρ pre ps pv c c') :
    ResRel (Sim ρ pre ps pv) (Tree.putSet H m ver s c) (Tree.putSet H m (ρ ver) s c') := by
  induction s generalizing c c' with
  | nil => exact .ok h
  | cons e s ih =>
    obtain ⟨k, x⟩ := e
    unfold Tree.putSet
    have h1 : Sim ρ pre ps pv (c.putValue ver k x) (c'.putValue (ρ ver) k x) := { h with
      vcache := FMap.set_map (g := id) (renVal_inj hρ) h.vcache (ver, k) x }
    exact (h1.put hρ H m k (x.map H.value) ver).bind (fun a b hab => ih hab)

theorem freezeRoot (h : Sim ρ pre ps pv c c') :
    ResRel (fun a b => Sim ρ pre ps pv a.1 b.1 ∧ b.2 = a.2.ren ρ) c.freezeRoot c'.freezeRoot := by
  unfold TreeCache.freezeRoot
  rw [h.root, h.getNodeOption hρ]
  cases c.getNodeOption c.rootNodeKey with
  | some n => exact .ok ⟨h, rfl⟩
  | none => exact (h.putNode hρ c.rootNodeKey .null).bind (fun a b hab => .ok ⟨hab, rfl⟩)

theorem freezeCopy (h : Sim ρ pre ps pv c c')
    (hv : (0 < c.nextVersion ↔ 0 < ρ c.nextVersion) ∨ ¬ (c.nodeCache.isEmpty = true ∧ c.staleNodeIndexCache.isEmpty = true)) :
    ResRel (Sim ρ pre ps pv) c.freezeCopy c'.freezeCopy := by
  unfold TreeCache.freezeCopy
  have e1 : c'.nodeCache.isEmpty = c.nodeCache.isEmpty := h.nodes.isEmpty
  have e2 : c'.staleNodeIndexCache.isEmpty = c.staleNodeIndexCache.isEmpty := h.stale.isEmpty
  have hiff : (c'.nextVersion > 0 ∧ c'.nodeCache.isEmpty = true ∧ c'.staleNodeIndexCache.isEmpty = true) ↔
      (c.nextVersion > 0 ∧ c.nodeCache.isEmpty = true ∧ c.staleNodeIndexCache.isEmpty = true) := by
    rw [e1, e2, h.next]
    rcases hv with hv | hv
    · rw [gt_iff_lt, ← hv]
    · exact ⟨fun x => absurd x.2 hv, fun x => absurd x.2 hv⟩
  simp only [hiff]
  split
  · rw [h.root]
    refine (ResRel.ofMap (h.getNode hρ c.rootNodeKey)).bind (fun n n' hn => ?_)
    subst hn
    rw [h.next]
    exact h.putNode hρ (c.rootNodeKey.setVersion c.nextVersion) n
  · exact .ok h

theorem freezeMove (h : Sim ρ pre ps pv c c') (hs : ρ (c.nextVersion + 1) = ρ c.nextVersion + 1) : Sim ρ pre ps pv c.freezeMove c'.freezeMove := by
  refine { h with
    next := ?_, nodes := .empty, stale := .empty, newLeaves := rfl, staleLeaves := rfl, fnodes := ?_, fstale := ?_, stats := ?_,
    vcache := .empty, vsorted := OMap.sorted_extend valueKeyLt_strict _ _ h.vsorted,
    vsorted' := OMap.sorted_extend valueKeyLt_strict _ _ h.vsorted', values := ?_ }
  · show c'.nextVersion + 1 = ρ (c.nextVersion + 1)
    rw [hs, h.next]
  · exact FMap.extend_map (NodeKey.ren_inj ρ hρ) h.nodes h.fnodes
  · refine FSet.foldl_insert_map (StaleNodeIndex.ren_inj ρ hρ) ?_ h.fstale
    have := h.stale.perm.map (fun nk => (⟨c'.nextVersion, nk⟩ : StaleNodeIndex))
    rw [h.next] at this ⊢
    rw [List.map_map] at this ⊢
    exact this
  · show c.frozen.nodeStats ++ [_] = ps ++ (c'.frozen.nodeStats ++ [_])
    rw [h.stats, h.newLeaves, h.staleLeaves, h.nodes.size, h.stale.size]
    simp
  · intro v k
    have hn : (c'.valueCache.entries.map Prod.fst).Nodup := h.vcache.nodup' (renVal_inj hρ)
    show (OMap.extend valueKeyLt _ _).get _ = ((OMap.extend valueKeyLt _ _).get _).or _
    rw [OMap.get_extend valueKeyLt_strict _ _ h.vsorted h.vcache.nodup, OMap.get_extend valueKeyLt_strict _ _ h.vsorted' hn, h.values,
      ← Option.or_assoc]
    congr 2
    have := FMap.get_map (g := id) (renVal_inj hρ) h.vcache (v, k)
    simp only [Option.map_id, id_eq] at this
    exact this.symm

theorem freeze (H : Hasher D) (h : Sim ρ pre ps pv c c') (hs : ρ (c.nextVersion + 1) = ρ c.nextVersion + 1)
    (hv : (0 < c.nextVersion ↔ 0 < ρ c.nextVersion) ∨
      ¬ (c.nodeCache.isEmpty = true ∧ c.staleNodeIndexCache.isEmpty = true)) :
    ResRel (fun a b => Sim ρ pre ps pv a b ∧ a.nextVersion = c.nextVersion + 1 ∧ a.rootNodeKey = c.rootNodeKey) (c.freeze H) (c'.freeze H) := by
  have hput : ∀ {c : TreeCache D} {nk n c1}, c.putNode nk n = .ok c1 → c1.nextVersion = c.nextVersion ∧ c1.rootNodeKey = c.rootNodeKey := by
    intro c nk n c1 h1
    unfold TreeCache.putNode at h1
    split at h1
    · cases h1
    · cases h1; exact ⟨rfl, rfl⟩
  have hroot : ∀ a, c.freezeRoot = .ok a → (a.1.nextVersion = c.nextVersion ∧ a.1.rootNodeKey = c.rootNodeKey) ∧ (a.1 = c ∨ a.1.nodeCache.isEmpty = false) := by
    intro a ha
    unfold TreeCache.freezeRoot at ha
    cases hn : c.getNodeOption c.rootNodeKey with
    | some n => rw [hn] at ha; cases ha; exact ⟨⟨rfl, rfl⟩, .inl rfl⟩
    | none =>
      rw [hn] at ha
      cases hp : c.putNode c.rootNodeKey .null with
      | error e => simp only [hp] at ha; cases ha
      | ok c1 =>
        simp only [hp] at ha
        cases ha
        refine ⟨hput hp, .inr ?_⟩
        unfold TreeCache.putNode at hp
        split at hp
        · cases hp
        · cases hp; rfl
  unfold TreeCache.freeze
  refine ((h.freezeRoot hρ).and hroot).bind (fun a b hab => ?_)
  obtain ⟨a, n⟩ := a
  obtain ⟨b, n'⟩ := b
  obtain ⟨⟨hab, hn⟩, ⟨hnext, hrk⟩, hsame⟩ := hab
  simp only at hab hn hnext hrk hsame
  subst hn
  have h1 : Sim ρ pre ps pv (a.pushRoot (n.hash H)) (b.pushRoot ((n.ren ρ).hash H)) := by
    refine { hab with roots := ?_ }
    show a.frozen.rootHashes ++ [_] = pre ++ (b.frozen.rootHashes ++ [_])
    rw [hab.roots, Node.hash_ren, List.append_assoc]
  have h2 : ResRel (fun x y => Sim ρ pre ps pv x y ∧ x.nextVersion = c.nextVersion ∧ x.rootNodeKey = c.rootNodeKey) (a.pushRoot (n.hash H)).freezeCopy
      (b.pushRoot ((n.ren ρ).hash H)).freezeCopy := by
    refine (h1.freezeCopy hρ ?_).and ?_
    · rcases hv with hv | hv
      · exact .inl (by show 0 < a.nextVersion ↔ 0 < ρ a.nextVersion; rw [hnext]; exact hv)
      · right
        rcases hsame with hsame | hsame
        · rw [hsame]; exact hv
        · intro hh
          have : a.nodeCache.isEmpty = true := hh.1
          rw [hsame] at this; cases this
    · intro x hx
      unfold TreeCache.freezeCopy at hx
      split at hx
      · cases hg : (a.pushRoot (n.hash H)).getNode (a.pushRoot (n.hash H)).rootNodeKey with
        | error e => rw [hg] at hx; cases hx
        | ok r => rw [hg] at hx; exact ⟨(hput hx).1.trans hnext, (hput hx).2.trans hrk⟩
      · cases hx; exact ⟨hnext, hrk⟩
  refine h2.bind (fun x y hxy => .ok ⟨hxy.1.freezeMove hρ (by rw [hxy.2.1]; exact hs), ?_, hxy.2.2⟩)
  show x.nextVersion + 1 = _
  rw [hxy.2.1]

omit hρ in
theorem putSet_next {H : Hasher D} {m : Bool} {ver : Version} (s : Tree.ValueSet) {c c1 : TreeCache D} (hr : c.rootNodeKey.path = [])
    (h : Tree.putSet H m ver s c = .ok c1) : c1.nextVersion = c.nextVersion ∧ c1.rootNodeKey.path = [] := by
  have := putSet_touch (N := fun _ => True) (S := fun _ => True) s c c1 hr (fun _ _ _ _ => trivial) (fun _ _ _ _ => trivial) h
  exact ⟨this.next, this.root.trans hr⟩

/-- The loop of `put_value_sets`, when the first version does not matter to `freeze`. -/
theorem putSets (H : Hasher D) (m : Bool) (ver : Version) (sets : List Tree.ValueSet) (h : Sim ρ pre ps pv c c') (hver : c.nextVersion = ver) (hr : c.rootNodeKey.path = [])
    (hs : ∀ v, ver ≤ v → v < ver + sets.length → ρ (v + 1) = ρ v + 1) (hv : ∀ v, ver ≤ v → v < ver + sets.length → (0 < v ↔ 0 < ρ v)) :
    ResRel (Sim ρ pre ps pv) (Tree.putSets H m ver sets c) (Tree.putSets H m (ρ ver) sets c') := by
  induction sets generalizing ver c c' with
  | nil => exact .ok h
  | cons s sets ih =>
    unfold Tree.putSets
    simp only [List.length_cons] at hs hv
    refine ((h.putSet hρ H m ver s).and (fun a ha => putSet_next s hr ha)).bind (fun a b hab => ?_)
    obtain ⟨hab, hn, hr'⟩ := hab
    rw [hver] at hn
    refine (hab.freeze hρ H (by rw [hn]; exact hs ver (Nat.le_refl _) (by omega)) (.inl (by rw [hn]; exact hv ver (Nat.le_refl _) (by omega)))).bind
      (fun x y hxy => ?_)
    rw [← hs ver (Nat.le_refl _) (by omega)]
    exact ih (ver + 1) hxy.1 (by rw [hxy.2.1, hn]) (by rw [hxy.2.2]; exact hr') (fun v h1 h2 => hs v (by omega) (by omega)) (fun v h1 h2 => hv v (by omega) (by omega))

end Sim

end Verif.Jmt
