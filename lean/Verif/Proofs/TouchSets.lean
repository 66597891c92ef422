import Verif.Proofs.Touch
import Verif.Proofs.BatchSet
import Verif.Proofs.Groups
/-! Which nodes the update functions write and give up, over any store: whole calls. -/

set_option autoImplicit false

namespace Verif.Jmt
variable {D : Type}
open Verif.Spec

theorem _root_.Verif.FMap.size_set' {K V : Type} [DecidableEq K] (m : FMap K V) (k : K) (v : V) : (m.set k v).size ≤ m.size + 1 := by
  simp only [FMap.size, FMap.set, FMap.erase, List.length_cons]
  have := List.length_filter_le (fun e : K × V => decide (e.1 ≠ k)) m.entries
  omega

theorem _root_.Verif.FMap.size_extend {K V : Type} [DecidableEq K] (l : List (K × V)) : ∀ m : FMap K V, (m.extend l).size ≤ m.size + l.length := by
  induction l with
  | nil => intro m; exact Nat.le_refl _
  | cons e t ih =>
    intro m
    have h1 := ih (m.set e.1 e.2)
    have h2 := m.size_set' e.1 e.2
    show ((m.set e.1 e.2).extend t).size ≤ _
    simp only [List.length_cons]
    omega

theorem _root_.Verif.FMap.isSome_extend {K V : Type} [DecidableEq K] (l : List (K × V)) : ∀ (m : FMap K V) (k : K), ((m.extend l).get k).isSome →
    (m.get k).isSome ∨ k ∈ l.map Prod.fst := by
  induction l with
  | nil => intro m k h; exact .inl h
  | cons e t ih =>
    intro m k h
    rcases ih (m.set e.1 e.2) k h with h | h
    · rw [FMap.get_set] at h
      by_cases hk : k = e.1
      · exact .inr (by simp [hk])
      · rw [if_neg hk] at h; exact .inl h
    · exact .inr (List.mem_cons_of_mem _ h)

theorem _root_.Verif.FMap.isSome_iff_mem {K V : Type} [DecidableEq K] (m : FMap K V) (k : K) : (m.get k).isSome ↔ k ∈ m.entries.map Prod.fst := by
  have := m.get_eq_none_iff k
  rw [← not_iff_not, ← this]
  simp

theorem _root_.Verif.FSet.foldl_insert {K : Type} [DecidableEq K] (l : List K) : ∀ s : FSet K,
    (∀ k, k ∈ l.foldl FSet.insert s → k ∈ s ∨ k ∈ l) ∧ (l.foldl FSet.insert s).size ≤ s.size + l.length := by
  induction l with
  | nil => intro s; exact ⟨fun k h => .inl h, Nat.le_refl _⟩
  | cons e t ih =>
    intro s
    obtain ⟨h1, h2⟩ := ih (s.insert e)
    refine ⟨fun k hk => ?_, ?_⟩
    · rcases h1 k hk with h | h
      · rw [FSet.mem_insert] at h
        rcases h with rfl | h
        · exact .inr (by simp)
        · exact .inl h
      · exact .inr (List.mem_cons_of_mem _ h)
    · have : (s.insert e).size ≤ s.size + 1 := by
        simp only [FSet.size, FSet.insert]
        split <;> simp
      simp only [List.foldl_cons, List.length_cons]
      omega

/-- Between the versions of a call: what is frozen is in `N` and `S`; `a` nodes were written and `b` given up. -/
structure Settled (N : NodeKey → Prop) (S : StaleNodeIndex → Prop) (a b : Nat) (ver : Version) (c : TreeCache D) : Prop where
  frozen : ∀ nk, (c.frozen.nodeCache.nodes.get nk).isSome → N nk
  cached : ∀ nk, (c.nodeCache.get nk).isSome → N nk
  size : c.frozen.nodeCache.nodes.size + c.nodeCache.size ≤ a
  stale : ∀ i, i ∈ c.frozen.staleNodeIndexCache → S i
  staleCached : ∀ nk, nk ∈ c.staleNodeIndexCache → S ⟨ver, nk⟩
  staleSize : c.frozen.staleNodeIndexCache.size + c.staleNodeIndexCache.size ≤ b
  root : c.rootNodeKey.path = []
  next : c.nextVersion = ver

variable {N : NodeKey → Prop} {S : StaleNodeIndex → Prop} {a b n m : Nat} {ver : Version} {c c' : TreeCache D}

theorem Settled.new (reader : Reader D) (ver : Version) (hN : ∀ nk, nk.path = [] → N nk) : Settled N S 1 0 ver (TreeCache.new reader ver) := by
  have key : ∀ rk nc, rk.path = [] → (∀ nk, (nc.get nk).isSome → N nk) → nc.size ≤ 1 → Settled N S 1 0 ver
      { rootNodeKey := rk, nextVersion := ver, nodeCache := nc, valueCache := .empty, numNewLeaves := 0, staleNodeIndexCache := .empty,
        numStaleLeaves := 0, frozen := .new, reader := reader } := by
    intro rk nc h1 h2 h3
    refine ⟨fun nk h => (by cases h), h2, ?_, fun i h => (by cases h), fun i h => (by cases h), Nat.le_refl _, h1, rfl⟩
    simp only [FrozenTreeCache.new, NodeBatch.empty, FMap.empty, FMap.size, List.length_nil] at *
    omega
  unfold TreeCache.new
  simp only
  split
  · rename_i h0
    subst h0
    split
    · exact key _ _ rfl (fun nk h => by cases h) (Nat.zero_le _)
    · refine key _ _ rfl (fun nk h => ?_) (Nat.le_refl _)
      rw [FMap.get_set] at h
      split at h
      · rename_i e; subst e; exact hN _ rfl
      · cases h
  · exact key _ _ rfl (fun nk h => by cases h) (Nat.zero_le _)

theorem Settled.touch (h : Settled N S a b ver c) (t : Touch N (fun nk => S ⟨ver, nk⟩) n m c c') : Settled N S (a + n) (b + m) ver c' where
  frozen := by rw [t.frozenNodes]; exact h.frozen
  cached nk hk := (t.nodes nk hk).elim (h.cached nk) id
  size := by rw [t.frozenNodes]; have := h.size; have := t.size; omega
  stale := by rw [t.frozenStale]; exact h.stale
  staleCached nk hk := (t.stale nk hk).elim (h.staleCached nk) id
  staleSize := by rw [t.frozenStale]; have := h.staleSize; have := t.staleSize; omega
  root := by rw [t.root]; exact h.root
  next := by rw [t.next]; exact h.next

theorem Settled.freezeMove (h : Settled N S a b ver c) : Settled N S a b (ver + 1) c.freezeMove where
  frozen nk hk := by
    rcases FMap.isSome_extend _ _ _ hk with hk | hk
    · exact h.frozen nk hk
    · exact h.cached nk ((FMap.isSome_iff_mem _ _).2 hk)
  cached nk hk := by cases hk
  size := by
    have := FMap.size_extend c.nodeCache.entries c.frozen.nodeCache.nodes
    have := h.size
    show (c.frozen.nodeCache.nodes.extend c.nodeCache.entries).size + 0 ≤ a
    simp only [FMap.size] at *
    omega
  stale i hi := by
    rcases (FSet.foldl_insert _ _).1 i hi with hi | hi
    · exact h.stale i hi
    · obtain ⟨nk, h1, rfl⟩ := List.mem_map.1 hi
      rw [h.next]
      exact h.staleCached nk h1
  staleCached nk hk := by cases hk
  staleSize := by
    have := (FSet.foldl_insert (c.staleNodeIndexCache.elems.map (fun nk => (⟨c.nextVersion, nk⟩ : StaleNodeIndex))) c.frozen.staleNodeIndexCache).2
    have := h.staleSize
    show (List.foldl FSet.insert c.frozen.staleNodeIndexCache _).size + 0 ≤ b
    simp only [FSet.size, List.length_map] at *
    omega
  root := h.root
  next := by show c.nextVersion + 1 = _; rw [h.next]

theorem Settled.freeze {H : Hasher D} (hN : ∀ nk, nk.path = [] → N nk) (h : Settled N S a b ver c) (hf : c.freeze H = .ok c') :
    Settled N S (a + 1) b (ver + 1) c' := by
  unfold TreeCache.freeze at hf
  obtain ⟨⟨c1, rn⟩, h1, hf⟩ := bind_ok hf
  obtain ⟨c2, h2, hf⟩ := bind_ok hf
  cases hf
  have push : ∀ {a b : Nat} {c : TreeCache D} (d : D), Settled N S a b ver c → Settled N S a b ver (c.pushRoot d) :=
    fun d h => ⟨h.frozen, h.cached, h.size, h.stale, h.staleCached, h.staleSize, h.root, h.next⟩
  have grow : ∀ {c : TreeCache D}, Settled N S a b ver c → Settled N S (a + 1) b ver c :=
    fun h => { h with size := by have := h.size; omega }
  unfold TreeCache.freezeRoot at h1
  unfold TreeCache.freezeCopy at h2
  split at h1
  · cases h1
    split at h2
    · obtain ⟨x, -, h2⟩ := bind_ok h2
      refine ((push (rn.hash H) h).touch (Touch.put (S := fun nk => S ⟨ver, nk⟩) h2 (hN _ ?_)).1).freezeMove
      exact h.root
    · cases h2
      exact (grow (push _ h)).freezeMove
  · obtain ⟨c3, h3, h1⟩ := bind_ok h1
    cases h1
    obtain ⟨t, hs, -⟩ := Touch.put (S := fun nk => S ⟨ver, nk⟩) h3 (hN _ h.root)
    have hne : ¬ c1.nodeCache.isEmpty = true := by
      intro he
      rw [FMap.isEmpty_iff] at he
      rw [he] at hs
      cases hs
    rw [if_neg (fun hc => hne hc.2.1)] at h2
    cases h2
    exact (push _ (h.touch t)).freezeMove

theorem putSets_settled {H : Hasher D} {mig : Bool} (hN : ∀ nk, nk.path = [] → N nk) (sets : List Tree.ValueSet) :
    ∀ (ver a b : Nat) (c c' : TreeCache D), Settled N S a b ver c →
      (∀ i s e, sets[i]? = some s → e ∈ s → ∀ nk, nk.version = ver + i → Beside nk.path e.1 → N nk) →
      (∀ i s e, sets[i]? = some s → e ∈ s → ∀ nk, Beside nk.path e.1 → S ⟨ver + i, nk⟩) →
      Tree.putSets H mig ver sets c = .ok c' →
      ∃ ver', Settled N S (a + 66 * (sets.map List.length).sum + sets.length) (b + 66 * (sets.map List.length).sum) ver' c' := by
  induction sets with
  | nil => intro ver a b c c' h _ _ hr; cases hr; exact ⟨ver, h⟩
  | cons s t ih =>
    intro ver a b c c' h h1 h2 hr
    unfold Tree.putSets at hr
    obtain ⟨c1, g1, hr⟩ := bind_ok hr
    obtain ⟨c2, g2, hr⟩ := bind_ok hr
    have t1 := putSet_touch (N := N) (S := fun nk => S ⟨ver, nk⟩) s c c1 h.root (fun e he nk hk => h1 0 s e rfl he nk hk.1 hk.2)
      (fun e he nk hk => h2 0 s e rfl he nk hk) g1
    obtain ⟨ver', h3⟩ := ih (ver + 1) _ _ c2 c' ((h.touch t1).freeze hN g2)
      (fun i s e hi he nk hk => h1 (i + 1) s e hi he nk (by rw [hk]; omega))
      (fun i s e hi he nk hk => by have := h2 (i + 1) s e hi he nk hk; rwa [← Nat.add_assoc, Nat.add_right_comm] at this) hr
    refine ⟨ver', ?_⟩
    have e1 : a + 66 * s.length + 1 + 66 * (t.map List.length).sum + t.length
        = a + 66 * ((s :: t).map List.length).sum + (s :: t).length := by
      simp only [List.map_cons, List.sum_cons, List.length_cons]; omega
    have e2 : b + 66 * s.length + 66 * (t.map List.length).sum = b + 66 * ((s :: t).map List.length).sum := by
      simp only [List.map_cons, List.sum_cons]; omega
    rw [← e1, ← e2]
    exact h3

/-! ### the batch functions -/

theorem sum_grp_le (kvs : List (Key × D)) (idx : Nat) (I : List Nibble) (hI : I.Nodup) :
    (I.map (fun i => (grp kvs idx i).length)).sum ≤ kvs.length := by
  induction kvs with
  | nil =>
    have : I.map (fun i => (grp ([] : List (Key × D)) idx i).length) = I.map (fun _ => 0) := rfl
    rw [this]
    have : ∀ J : List Nibble, (J.map (fun _ => 0)).sum = 0 := by
      intro J
      induction J with
      | nil => rfl
      | cons j J ihJ => simpa using ihJ
    rw [this]
    exact Nat.zero_le _
  | cons e t ih =>
    have key : ∀ J : List Nibble, J.Nodup → (J.map (fun i => (grp (e :: t) idx i).length)).sum
        ≤ (J.map (fun i => (grp t idx i).length)).sum + (if e.1.nibble idx ∈ J then 1 else 0) := by
      intro J hJ
      induction J with
      | nil => simp
      | cons j J ihJ =>
        rw [List.nodup_cons] at hJ
        have := ihJ hJ.2
        simp only [List.map_cons, List.sum_cons]
        by_cases hj : e.1.nibble idx = j
        · have h1 : (grp (e :: t) idx j).length = (grp t idx j).length + 1 := by simp [grp, hj]
          have h2 : ¬ e.1.nibble idx ∈ J := by rw [hj]; exact hJ.1
          rw [if_neg h2] at this
          rw [if_pos (by rw [hj]; simp), h1]
          omega
        · have h1 : (grp (e :: t) idx j).length = (grp t idx j).length := by simp [grp, hj]
          rw [h1]
          have : (if e.1.nibble idx ∈ j :: J then 1 else 0) = (if e.1.nibble idx ∈ J then 1 else 0) := by
            simp [hj]
          omega
    have h1 := key I hI
    simp only [List.length_cons]
    split at h1 <;> omega

theorem batchChildren_touch {H : Hasher D} {hc : Option (Tree.HashCache D)} {N S : NodeKey → Prop}
    {f : Nibble → List (Key × D) → TreeCache D → Res (TreeCache D × (NodeKey × Node D))} (A B : Nibble → List (Key × D) → Nat)
    (groups : List (Nibble × List (Key × D))) : ∀ (children : Children D) (c c' : TreeCache D) (children' : Children D),
      (∀ i g, (i, g) ∈ groups → ∀ c c' r, f i g c = .ok (c', r) → Touch N S (A i g) (B i g) c c') →
      Tree.batchChildren H hc ver f groups children c = .ok (c', children') →
      Touch N S (groups.map (fun x => A x.1 x.2)).sum (groups.map (fun x => B x.1 x.2)).sum c c' := by
  induction groups with
  | nil => intro children c c' children' _ h; cases h; exact .refl _ _ _
  | cons x t ih =>
    obtain ⟨i, g⟩ := x
    intro children c c' children' hf h
    unfold Tree.batchChildren at h
    obtain ⟨⟨c1, nk, node⟩, h1, h⟩ := bind_ok h
    obtain ⟨_, -, h⟩ := bind_ok h
    obtain ⟨_, -, h⟩ := bind_ok h
    exact (hf i g (by simp) c c1 _ h1).trans (ih _ c1 c' children' (fun j g' hj => hf j g' (by simp [hj])) h)

theorem sum_zero {α : Type} (l : List α) : (l.map (fun _ => 0)).sum = 0 := by
  induction l with
  | nil => rfl
  | cons a t ih => simpa using ih

/-- The sum of linear costs over the groups. -/
theorem sum_groups {p : List Nibble} {kvs : List (Key × D)} (hu : Under p kvs) (hp : p.length < 64) (k : Nat) :
    ((nibbleGroups kvs p.length).map (fun x => k * x.2.length)).sum ≤ k * kvs.length := by
  obtain ⟨h1, h2, -⟩ := nibbleGroups_spec hu hp
  have e : (nibbleGroups kvs p.length).map (fun x => k * x.2.length)
      = ((nibbleGroups kvs p.length).map Prod.fst).map (fun i => k * (grp kvs p.length i).length) := by
    rw [List.map_map]
    apply List.map_congr_left
    rintro ⟨i, g⟩ hm
    simp only [Function.comp]
    rw [(h2 i g hm).1]
  rw [e]
  have : ∀ I : List Nibble, (I.map (fun i => k * (grp kvs p.length i).length)).sum = k * (I.map (fun i => (grp kvs p.length i).length)).sum := by
    intro I
    induction I with
    | nil => simp
    | cons j I ih => simp only [List.map_cons, List.sum_cons, ih, Nat.mul_add]
  rw [this]
  exact Nat.mul_le_mul_left _ (sum_grp_le kvs _ _ h1)

theorem batchCreate_touch {H : Hasher D} {mig : Bool} {hc : Option (Tree.HashCache D)} {N S : NodeKey → Prop} (h : Nat) :
    ∀ (p : List Nibble) (kvs : List (Key × D)) (c c' : TreeCache D) (r : NodeKey × Node D), Under p kvs → p.length + h = 64 → kvs ≠ [] →
      (∀ e ∈ kvs, ∀ nk, NewAt ver e.1 nk → N nk) →
      Tree.batchCreateSubtree H mig hc ver h ⟨ver, p⟩ kvs c = .ok (c', r) → Touch N S ((h + 1) * kvs.length) 0 c c' := by
  induction h with
  | zero =>
    intro p kvs c c' r hu hp hne hN hr
    unfold Tree.batchCreateSubtree at hr
    split at hr
    · rename_i k x
      obtain ⟨c1, h1, hr⟩ := bind_ok hr
      cases hr
      exact (Touch.put h1 (hN (k, x) (by simp) _ ⟨rfl, .on (hu.pre _ (by simp))⟩)).1.mono (by simp) (Nat.le_refl _)
    · cases hr
  | succ h ih =>
    intro p kvs c c' r hu hp hne hN hr
    have hpl : p.length < 64 := by omega
    obtain ⟨e0, he0⟩ := List.exists_mem_of_ne_nil _ hne
    have hnk : N ⟨ver, p⟩ := hN e0 he0 _ ⟨rfl, .on (hu.pre _ he0)⟩
    unfold Tree.batchCreateSubtree at hr
    split at hr
    · obtain ⟨c1, h1, hr⟩ := bind_ok hr
      cases hr
      refine (Touch.put h1 hnk).1.mono ?_ (Nat.le_refl _)
      simp
    · simp only at hr
      obtain ⟨⟨c1, ch⟩, h1, hr⟩ := bind_ok hr
      obtain ⟨internal, -, hr⟩ := bind_ok hr
      obtain ⟨c2, h2, hr⟩ := bind_ok hr
      cases hr
      have hd : rootNibbleHeight - (h + 1) = p.length := by unfold rootNibbleHeight; omega
      rw [hd] at h1
      obtain ⟨-, g2, -⟩ := nibbleGroups_spec hu hpl
      have t1 := batchChildren_touch (N := N) (S := S) (fun _ g => (h + 1) * g.length) (fun _ _ => 0) _ _ c c1 ch (by
        intro i g hig c c' r hf
        obtain ⟨ck, k1, hf⟩ := bind_ok hf
        obtain rfl := genChild_eq k1
        obtain ⟨rfl, gne⟩ := g2 i g hig
        exact ih (p ++ [i]) _ c c' r (hu.grp hpl i) (by simp; omega) gne (fun e he => hN e (mem_grp.1 he).1) hf) h1
      have t2 := (Touch.put (S := S) h2 hnk).1
      refine (t1.trans t2).mono ?_ (Nat.le_of_eq (sum_zero _))
      have := sum_groups hu hpl (h + 1)
      have : 1 ≤ kvs.length := List.length_pos_iff.2 hne
      have : (h + 1 + 1) * kvs.length = (h + 1) * kvs.length + kvs.length := by rw [Nat.add_mul, Nat.one_mul]
      omega

theorem batchWithLeaf_touch {H : Hasher D} {mig : Bool} {hc : Option (Tree.HashCache D)} {N S : NodeKey → Prop} {existing : LeafNode D} (h : Nat) :
    ∀ (p : List Nibble) (kvs : List (Key × D)) (c c' : TreeCache D) (r : NodeKey × Node D), Under p kvs → p.length + h = 64 → kvs ≠ [] →
      (∀ e ∈ kvs, ∀ nk, NewAt ver e.1 nk → N nk) →
      Tree.batchWithLeaf H mig hc ver existing h ⟨ver, p⟩ kvs c = .ok (c', r) → Touch N S ((h + 1) * kvs.length + 1) 0 c c' := by
  induction h with
  | zero =>
    intro p kvs c c' r hu hp hne hN hr
    obtain ⟨e0, he0⟩ := List.exists_mem_of_ne_nil _ hne
    have hnk : N ⟨ver, p⟩ := hN e0 he0 _ ⟨rfl, .on (hu.pre _ he0)⟩
    unfold Tree.batchWithLeaf at hr
    split at hr
    · obtain ⟨c1, h1, hr⟩ := bind_ok hr
      cases hr
      exact (Touch.put h1 hnk).1.mono (by omega) (Nat.le_refl _)
    · cases hr
  | succ h ih =>
    intro p kvs c c' r hu hp hne hN hr
    have hpl : p.length < 64 := by omega
    obtain ⟨e0, he0⟩ := List.exists_mem_of_ne_nil _ hne
    have hnk : N ⟨ver, p⟩ := hN e0 he0 _ ⟨rfl, .on (hu.pre _ he0)⟩
    unfold Tree.batchWithLeaf at hr
    split at hr
    · obtain ⟨c1, h1, hr⟩ := bind_ok hr
      cases hr
      exact (Touch.put h1 hnk).1.mono (by omega) (Nat.le_refl _)
    · simp only at hr
      have hd : rootNibbleHeight - (h + 1) = p.length := by unfold rootNibbleHeight; omega
      rw [hd] at hr
      obtain ⟨⟨c1, ch⟩, h1, hr⟩ := bind_ok hr
      obtain ⟨⟨c2, ch2⟩, h2, hr⟩ := bind_ok hr
      obtain ⟨internal, -, hr⟩ := bind_ok hr
      obtain ⟨c3, h3, hr⟩ := bind_ok hr
      cases hr
      obtain ⟨g1, g2, -⟩ := nibbleGroups_spec hu hpl
      have t1 := batchChildren_touch (N := N) (S := S)
        (fun i g => (h + 1) * g.length + (if existing.keyHash.nibble p.length = i then 1 else 0)) (fun _ _ => 0) _ _ c c1 ch (by
        intro i g hig c c' r hf
        obtain ⟨ck, k1, hf⟩ := bind_ok hf
        obtain rfl := genChild_eq k1
        obtain ⟨rfl, gne⟩ := g2 i g hig
        have hN' : ∀ e ∈ grp kvs p.length i, ∀ nk, NewAt ver e.1 nk → N nk := fun e he => hN e (mem_grp.1 he).1
        by_cases hb : existing.keyHash.nibble p.length = i
        · rw [if_pos hb] at hf
          rw [if_pos hb]
          exact ih (p ++ [i]) _ c c' r (hu.grp hpl i) (by simp; omega) gne hN' hf
        · rw [if_neg hb] at hf
          rw [if_neg hb]
          exact batchCreate_touch h (p ++ [i]) _ c c' r (hu.grp hpl i) (by simp; omega) gne hN' hf) h1
      have t3 := (Touch.put (S := S) h3 hnk).1
      have hsum : ∀ G : List (Nibble × List (Key × D)), (G.map Prod.fst).Nodup →
          (G.map (fun x => (h + 1) * x.2.length + (if existing.keyHash.nibble p.length = x.1 then 1 else 0))).sum
          + (G.all (fun g => decide (g.1 ≠ existing.keyHash.nibble p.length))).toNat
          ≤ (G.map (fun x => (h + 1) * x.2.length)).sum + 1 := by
        intro G hG
        induction G with
        | nil => simp
        | cons x G ihG =>
          rw [List.map_cons, List.nodup_cons] at hG
          have := ihG hG.2
          simp only [List.map_cons, List.sum_cons, List.all_cons]
          by_cases hx : existing.keyHash.nibble p.length = x.1
          · have hall : G.all (fun g => decide (g.1 ≠ existing.keyHash.nibble p.length)) = true := by
              rw [List.all_eq_true]
              intro g hg
              simp only [ne_eq, decide_eq_true_eq]
              intro e
              exact hG.1 (List.mem_map.2 ⟨g, hg, e.trans hx⟩)
            rw [hall] at this
            rw [if_pos hx, hall, decide_eq_false (by simp [hx])]
            simp only [Bool.false_and, Bool.toNat_false, Bool.toNat_true] at *
            omega
          · rw [if_neg hx]
            rw [decide_eq_true (Ne.symm hx), Bool.true_and]
            omega
      have t2 : Touch N S ((nibbleGroups kvs p.length).all (fun g => decide (g.1 ≠ existing.keyHash.nibble p.length))).toNat 0 c1 c2 := by
        unfold Tree.batchWithLeaf.isolated at h2
        split at h2
        · rename_i hb
          rw [hb]
          obtain ⟨ck, k1, h2⟩ := bind_ok h2
          obtain rfl := genChild_eq k1
          obtain ⟨c4, k2, h2⟩ := bind_ok h2
          cases h2
          exact (Touch.put k2 (hN e0 he0 _ ⟨rfl, .snoc (hu.pre _ he0) _⟩)).1
        · rename_i hb
          cases h2
          exact Touch.mono (.refl _ _ _) (Nat.zero_le _) (Nat.le_refl _)
      refine ((t1.trans t2).trans t3).mono ?_ (Nat.le_of_eq (sum_zero _))
      have h4 := hsum _ g1
      have h5 := sum_groups hu hpl (h + 1)
      have h6 : 1 ≤ kvs.length := List.length_pos_iff.2 hne
      have h7 : (h + 1 + 1) * kvs.length = (h + 1) * kvs.length + kvs.length := by rw [Nat.add_mul, Nat.one_mul]
      omega

theorem batchCreate_key {H : Hasher D} {mig : Bool} {hc : Option (Tree.HashCache D)} {h : Nat} {nk : NodeKey} {kvs : List (Key × D)}
    {r : NodeKey × Node D} (hr : Tree.batchCreateSubtree H mig hc ver h nk kvs c = .ok (c', r)) : r.1 = nk := by
  unfold Tree.batchCreateSubtree at hr
  split at hr
  · obtain ⟨_, -, hr⟩ := bind_ok hr
    cases hr; rfl
  · split at hr
    · cases hr
    · obtain ⟨_, -, hr⟩ := bind_ok hr
      obtain ⟨_, -, hr⟩ := bind_ok hr
      obtain ⟨_, -, hr⟩ := bind_ok hr
      cases hr; rfl

theorem batchWithLeaf_key {H : Hasher D} {mig : Bool} {hc : Option (Tree.HashCache D)} {existing : LeafNode D} {h : Nat} {nk : NodeKey}
    {kvs : List (Key × D)} {r : NodeKey × Node D} (hr : Tree.batchWithLeaf H mig hc ver existing h nk kvs c = .ok (c', r)) : r.1 = nk := by
  unfold Tree.batchWithLeaf at hr
  split at hr
  · obtain ⟨_, -, hr⟩ := bind_ok hr
    cases hr; rfl
  · split at hr
    · cases hr
    · obtain ⟨_, -, hr⟩ := bind_ok hr
      obtain ⟨_, -, hr⟩ := bind_ok hr
      obtain ⟨_, -, hr⟩ := bind_ok hr
      obtain ⟨_, -, hr⟩ := bind_ok hr
      cases hr; rfl

theorem batchInsertAt_touch {H : Hasher D} {mig : Bool} {hc : Option (Tree.HashCache D)} {N S : NodeKey → Prop} (h : Nat) :
    ∀ (p : List Nibble) (nk : NodeKey) (kvs : List (Key × D)) (c c' : TreeCache D) (r : NodeKey × Node D), Under p kvs → p.length + h = 64 →
      nk.path = p → (∀ e ∈ kvs, ∀ nk, NewAt ver e.1 nk → N nk) → (∀ e ∈ kvs, ∀ nk, OldAt e.1 nk → S nk) →
      Tree.batchInsertAt H mig hc ver h nk kvs c = .ok (c', r) →
      Touch N S ((h + 2) * kvs.length) ((h + 1) * kvs.length) c c' ∧ r.1.path = p := by
  induction h with
  | zero =>
    intro p nk kvs c c' r hu hp hnk hN hS hr
    unfold Tree.batchInsertAt at hr
    obtain ⟨_, ha, hr⟩ := bind_ok hr
    obtain ⟨node, hg, hr⟩ := bind_ok hr
    have hne : kvs ≠ [] := by rintro rfl; cases ha
    obtain ⟨e0, he0⟩ := List.exists_mem_of_ne_nil _ hne
    have hold : S nk := hS e0 he0 nk (by unfold OldAt; rw [hnk]; exact .on (hu.pre _ he0))
    have h1 : 1 ≤ kvs.length := List.length_pos_iff.2 hne
    cases node with
    | internal i =>
      obtain ⟨_, -, hr⟩ := bind_ok hr
      cases hr
    | leaf l =>
      obtain ⟨c1, h2, hr⟩ := bind_ok hr
      have e1 : nk.setVersion ver = ⟨ver, p⟩ := by rw [← hnk]; rfl
      rw [e1] at hr
      refine ⟨((Touch.delete h2 hold).1.trans (batchWithLeaf_touch 0 p kvs c1 c' r hu hp hne hN hr)).mono ?_ ?_, ?_⟩
      · omega
      · omega
      · rw [batchWithLeaf_key hr]
    | null =>
      obtain ⟨_, he, hr⟩ := bind_ok hr
      have : nk.path = [] := by
        cases hq : nk.path with
        | nil => rfl
        | cons a t => rw [hq] at he; cases he
      rw [hnk] at this
      subst this
      cases hp
  | succ h ih =>
    intro p nk kvs c c' r hu hp hnk hN hS hr
    unfold Tree.batchInsertAt at hr
    obtain ⟨_, ha, hr⟩ := bind_ok hr
    obtain ⟨node, hg, hr⟩ := bind_ok hr
    have hne : kvs ≠ [] := by rintro rfl; cases ha
    obtain ⟨e0, he0⟩ := List.exists_mem_of_ne_nil _ hne
    have hold : S nk := hS e0 he0 nk (by unfold OldAt; rw [hnk]; exact .on (hu.pre _ he0))
    have hnew : N ⟨ver, p⟩ := hN e0 he0 _ ⟨rfl, .on (hu.pre _ he0)⟩
    have hone : 1 ≤ kvs.length := List.length_pos_iff.2 hne
    have hpl : p.length < 64 := by omega
    have m1 : (h + 1 + 1) * kvs.length = (h + 1) * kvs.length + kvs.length := by rw [Nat.add_mul, Nat.one_mul]
    have m2 : (h + 1 + 2) * kvs.length = (h + 2) * kvs.length + kvs.length := by
      rw [show h + 1 + 2 = h + 2 + 1 from rfl, Nat.add_mul, Nat.one_mul]
    have m3 : (h + 2) * kvs.length = (h + 1) * kvs.length + kvs.length := m1
    have e1 : nk.setVersion ver = ⟨ver, p⟩ := by rw [← hnk]; rfl
    cases node with
    | internal internal =>
      obtain ⟨c1, h1, hr⟩ := bind_ok hr
      obtain ⟨⟨c2, ch⟩, h2, hr⟩ := bind_ok hr
      obtain ⟨inode, -, hr⟩ := bind_ok hr
      obtain ⟨c3, h3, hr⟩ := bind_ok hr
      cases hr
      have hd : rootNibbleHeight - (h + 1) = p.length := by unfold rootNibbleHeight; omega
      rw [hd] at h2
      obtain ⟨-, g2, -⟩ := nibbleGroups_spec hu hpl
      have t2 := batchChildren_touch (N := N) (S := S) (fun _ g => (h + 2) * g.length) (fun _ g => (h + 1) * g.length) _ _ c1 c2 ch (by
        intro i g hig c c' r hf
        obtain ⟨rfl, gne⟩ := g2 i g hig
        have hN' : ∀ e ∈ grp kvs p.length i, ∀ nk, NewAt ver e.1 nk → N nk := fun e he => hN e (mem_grp.1 he).1
        cases hi : internal.child i with
        | some child =>
          rw [hi] at hf
          obtain ⟨ck, k1, hf⟩ := bind_ok hf
          obtain rfl := genChild_eq k1
          exact (ih (p ++ [i]) _ _ c c' r (hu.grp hpl i) (by simp; omega) (by simp [hnk]) hN'
            (fun e he => hS e (mem_grp.1 he).1) hf).1
        | none =>
          rw [hi] at hf
          obtain ⟨ck, k1, hf⟩ := bind_ok hf
          obtain rfl := genChild_eq k1
          simp only [hnk] at hf
          exact (batchCreate_touch h (p ++ [i]) _ c c' r (hu.grp hpl i) (by simp; omega) gne hN' hf).mono
            (Nat.mul_le_mul_right _ (by omega)) (Nat.zero_le _)) h2
      rw [e1] at h3
      refine ⟨(((Touch.delete h1 hold).1.trans t2).trans (Touch.put h3 hnew).1).mono ?_ ?_, ?_⟩
      · have := sum_groups hu hpl (h + 2)
        omega
      · have := sum_groups hu hpl (h + 1)
        omega
      · rw [e1]
    | leaf l =>
      obtain ⟨c1, h2, hr⟩ := bind_ok hr
      rw [e1] at hr
      refine ⟨((Touch.delete h2 hold).1.trans (batchWithLeaf_touch (h + 1) p kvs c1 c' r hu hp hne hN hr)).mono ?_ ?_, ?_⟩
      · omega
      · omega
      · rw [batchWithLeaf_key hr]
    | null =>
      obtain ⟨_, he, hr⟩ := bind_ok hr
      have : nk.path = [] := by
        cases hq : nk.path with
        | nil => rfl
        | cons a t => rw [hq] at he; cases he
      rw [hnk] at this
      subst this
      have e2 : NodeKey.newEmptyPath ver = ⟨ver, []⟩ := rfl
      rw [e2] at hr
      split at hr
      · obtain ⟨c1, h2, hr⟩ := bind_ok hr
        refine ⟨((Touch.delete h2 hold).1.trans (batchCreate_touch (h + 1) [] kvs c1 c' r hu hp hne hN hr)).mono ?_ ?_, ?_⟩
        · omega
        · omega
        · rw [batchCreate_key hr]
      · refine ⟨(batchCreate_touch (h + 1) [] kvs c c' r hu hp hne hN hr).mono ?_ ?_, ?_⟩
        · omega
        · omega
        · rw [batchCreate_key hr]

theorem _root_.Verif.OMap.insertL_length {K V : Type} [DecidableEq K] (lt : K → K → Bool) (k : K) (v : V) (l : List (K × V)) :
    (OMap.insertL lt k v l).length ≤ l.length + 1 ∧ ∀ e ∈ OMap.insertL lt k v l, e = (k, v) ∨ e ∈ l := by
  induction l with
  | nil => simp [OMap.insertL]
  | cons x t ih =>
    unfold OMap.insertL
    split
    · exact ⟨by simp, by simp⟩
    · split
      · refine ⟨by simp, fun e he => ?_⟩
        rcases List.mem_cons.1 he with h | h
        · exact .inl h
        · exact .inr (by simp [h])
      · refine ⟨by simpa using ih.1, fun e he => ?_⟩
        rcases List.mem_cons.1 he with h | h
        · exact .inr (by simp [h])
        · exact (ih.2 e h).imp id (List.mem_cons_of_mem _)

theorem _root_.Verif.OMap.extend_length {K V : Type} [DecidableEq K] (lt : K → K → Bool) (l : List (K × V)) : ∀ m : OMap K V,
    (m.extend lt l).entries.length ≤ m.entries.length + l.length ∧ ∀ e ∈ (m.extend lt l).entries, e ∈ m.entries ∨ e ∈ l := by
  induction l with
  | nil => intro m; exact ⟨Nat.le_refl _, fun e h => .inl h⟩
  | cons x t ih =>
    intro m
    obtain ⟨h1, h2⟩ := ih (m.insert lt x.1 x.2)
    obtain ⟨h3, h4⟩ := OMap.insertL_length lt x.1 x.2 m.entries
    have e : m.extend lt (x :: t) = (m.insert lt x.1 x.2).extend lt t := rfl
    have e2 : (m.insert lt x.1 x.2).entries = OMap.insertL lt x.1 x.2 m.entries := rfl
    rw [e2] at h1 h2
    rw [e, List.length_cons]
    refine ⟨by omega, fun y hy => ?_⟩
    rcases h2 y hy with h | h
    · rcases h4 y h with h | h
      · exact .inr (by simp [h])
      · exact .inl h
    · exact .inr (by simp [h])

theorem sortDedup_length (s : List (Key × Value)) : (Tree.sortDedup s).length ≤ s.length ∧ ∀ e ∈ Tree.sortDedup s, e ∈ s := by
  obtain ⟨h1, h2⟩ := OMap.extend_length keyLt s (.empty : OMap Key Value)
  exact ⟨by simpa [OMap.empty, Tree.sortDedup] using h1, fun e he => (h2 e he).elim (fun h => by cases h) id⟩

theorem putValue_touch {N S : NodeKey → Prop} (kvs : List (Key × Value)) : ∀ c : TreeCache D,
    Touch N S 0 0 c (kvs.foldl (fun c e => c.putValue ver e.1 (some e.2)) c) := by
  induction kvs with
  | nil => intro c; exact .refl _ _ _
  | cons e t ih =>
    intro c
    rw [List.foldl_cons]
    exact Touch.trans (c := c) (c' := c.putValue ver e.1 (some e.2)) (n := 0) (m := 0) ⟨fun _ h => .inl h, Nat.le_refl _, fun _ h => .inl h, Nat.le_refl _, rfl, rfl, rfl, rfl⟩ (ih (c.putValue ver e.1 (some e.2)))

theorem batchPutSet_settled {H : Hasher D} {mig : Bool} {hc : Option (Tree.HashCache D)} {s : List (Key × Value)} (hN : ∀ nk, nk.path = [] → N nk)
    (h : Settled N S a b ver c) (h1 : ∀ e ∈ s, ∀ nk, NewAt ver e.1 nk → N nk) (h2 : ∀ e ∈ s, ∀ nk, OldAt e.1 nk → S ⟨ver, nk⟩)
    (hr : Tree.batchPutSet H mig hc ver s c = .ok c') : Settled N S (a + 66 * s.length + 1) (b + 65 * s.length) (ver + 1) c' := by
  unfold Tree.batchPutSet at hr
  obtain ⟨_, -, hr⟩ := bind_ok hr
  simp only at hr
  obtain ⟨⟨c1, nk, node⟩, g1, hr⟩ := bind_ok hr
  simp only at hr
  have t0 := putValue_touch (N := N) (S := fun nk => S ⟨ver, nk⟩) (ver := ver) (Tree.sortDedup s) c
  have hmem : ∀ e ∈ hashKvs H s, ∃ e' ∈ s, e.1 = e'.1 := by
    intro e he
    obtain ⟨e', he', rfl⟩ := List.mem_map.1 he
    exact ⟨e', (sortDedup_length s).2 e' he', rfl⟩
  obtain ⟨t1, hp⟩ := batchInsertAt_touch (N := N) (S := fun nk => S ⟨ver, nk⟩) 64 [] _ _ _ c1 (nk, node) (under_hashKvs H s) rfl
    (t0.root.trans h.root) (fun e he nk' hk => by obtain ⟨e', he', e1⟩ := hmem e he; rw [e1] at hk; exact h1 e' he' nk' hk)
    (fun e he nk' hk => by obtain ⟨e', he', e1⟩ := hmem e he; rw [e1] at hk; exact h2 e' he' nk' hk) g1
  have hl : (hashKvs H s).length ≤ s.length := by rw [hashKvs, List.length_map]; exact (sortDedup_length s).1
  have t := (t0.trans t1).mono (n' := 66 * s.length) (m' := 65 * s.length) (by omega) (by omega)
  have h3 := h.touch t
  exact Settled.freeze hN (c := c1.setRootNodeKey nk)
    ⟨h3.frozen, h3.cached, h3.size, h3.stale, h3.staleCached, h3.staleSize, hp, h3.next⟩ hr

theorem batchPutSets_settled {H : Hasher D} {mig : Bool} (hN : ∀ nk, nk.path = [] → N nk)
    (sets : List (List (Key × Value) × Option (Tree.HashCache D))) :
    ∀ (ver a b : Nat) (c c' : TreeCache D), Settled N S a b ver c →
      (∀ i s e, (sets.map Prod.fst)[i]? = some s → e ∈ s → ∀ nk, nk.version = ver + i → Beside nk.path e.1 → N nk) →
      (∀ i s e, (sets.map Prod.fst)[i]? = some s → e ∈ s → ∀ nk, Beside nk.path e.1 → S ⟨ver + i, nk⟩) →
      Tree.batchPutSets H mig ver sets c = .ok c' →
      ∃ ver', Settled N S (a + 66 * ((sets.map Prod.fst).map List.length).sum + sets.length)
        (b + 65 * ((sets.map Prod.fst).map List.length).sum) ver' c' := by
  induction sets with
  | nil => intro ver a b c c' h _ _ hr; cases hr; exact ⟨ver, h⟩
  | cons x t ih =>
    obtain ⟨s, hc⟩ := x
    intro ver a b c c' h h1 h2 hr
    unfold Tree.batchPutSets at hr
    obtain ⟨c1, g1, hr⟩ := bind_ok hr
    have t1 := batchPutSet_settled hN h (fun e he nk hk => h1 0 s e rfl he nk hk.1 hk.2) (fun e he nk hk => h2 0 s e rfl he nk hk) g1
    obtain ⟨ver', h3⟩ := ih (ver + 1) _ _ c1 c' t1
      (fun i s e hi he nk hk => h1 (i + 1) s e hi he nk (by rw [hk]; omega))
      (fun i s e hi he nk hk => by have := h2 (i + 1) s e hi he nk hk; rwa [← Nat.add_assoc, Nat.add_right_comm] at this) hr
    refine ⟨ver', ?_⟩
    have e1 : a + 66 * s.length + 1 + 66 * ((t.map Prod.fst).map List.length).sum + t.length
        = a + 66 * ((((s, hc) :: t).map Prod.fst).map List.length).sum + ((s, hc) :: t).length := by
      simp only [List.map_cons, List.sum_cons, List.length_cons]; omega
    have e2 : b + 65 * s.length + 65 * ((t.map Prod.fst).map List.length).sum
        = b + 65 * ((((s, hc) :: t).map Prod.fst).map List.length).sum := by
      simp only [List.map_cons, List.sum_cons]; omega
    rw [← e1, ← e2]
    exact h3

end Verif.Jmt
