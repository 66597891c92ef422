import Verif.Proofs.Refine
import Verif.Proofs.NodeHash
import Verif.Spec.Locality
/-! Which nodes an update writes and gives up, over any store. -/

set_option autoImplicit false

namespace Verif.Jmt
variable {D : Type}
open Verif.Spec

/-- From `c` to `c'` at most `n` nodes were added to the cache, all in `N`, and at most `m` were marked as stale, all in `S`. -/
structure Touch (N S : NodeKey → Prop) (n m : Nat) (c c' : TreeCache D) : Prop where
  nodes : ∀ nk, (c'.nodeCache.get nk).isSome → (c.nodeCache.get nk).isSome ∨ N nk
  size : c'.nodeCache.size ≤ c.nodeCache.size + n
  stale : ∀ nk, nk ∈ c'.staleNodeIndexCache → nk ∈ c.staleNodeIndexCache ∨ S nk
  staleSize : c'.staleNodeIndexCache.size ≤ c.staleNodeIndexCache.size + m
  frozenNodes : c'.frozen.nodeCache = c.frozen.nodeCache
  frozenStale : c'.frozen.staleNodeIndexCache = c.frozen.staleNodeIndexCache
  root : c'.rootNodeKey.path = c.rootNodeKey.path
  next : c'.nextVersion = c.nextVersion

namespace Touch
variable {N S : NodeKey → Prop} {n m n' m' : Nat} {c c' c'' : TreeCache D}

theorem refl (N S : NodeKey → Prop) (c : TreeCache D) : Touch N S 0 0 c c :=
  ⟨fun _ h => .inl h, Nat.le_refl _, fun _ h => .inl h, Nat.le_refl _, rfl, rfl, rfl, rfl⟩

theorem trans (h : Touch N S n m c c') (h' : Touch N S n' m' c' c'') : Touch N S (n + n') (m + m') c c'' where
  nodes nk hk := (h'.nodes nk hk).elim (h.nodes nk) .inr
  size := by have := h.size; have := h'.size; omega
  stale nk hk := (h'.stale nk hk).elim (h.stale nk) .inr
  staleSize := by have := h.staleSize; have := h'.staleSize; omega
  frozenNodes := h'.frozenNodes.trans h.frozenNodes
  frozenStale := h'.frozenStale.trans h.frozenStale
  root := h'.root.trans h.root
  next := h'.next.trans h.next

theorem mono (h : Touch N S n m c c') (hn : n ≤ n') (hm : m ≤ m') : Touch N S n' m' c c' :=
  { h with size := by have := h.size; omega, staleSize := by have := h.staleSize; omega }

theorem weaken {N' S' : NodeKey → Prop} (h : Touch N S n m c c') (hN : ∀ nk, N nk → N' nk) (hS : ∀ nk, S nk → S' nk) : Touch N' S' n m c c' :=
  { h with nodes := fun nk hk => (h.nodes nk hk).imp id (hN nk), stale := fun nk hk => (h.stale nk hk).imp id (hS nk) }

theorem put {nk : NodeKey} {x : Node D} (h : c.putNode nk x = .ok c') (hN : N nk) :
    Touch N S 1 0 c c' ∧ (c'.nodeCache.get nk).isSome ∧ ∀ nk', (c.nodeCache.get nk').isSome → (c'.nodeCache.get nk').isSome := by
  unfold TreeCache.putNode at h
  cases e : c.nodeCache.get nk with
  | some y => rw [e] at h; cases h
  | none =>
    rw [e] at h
    cases h
    refine ⟨⟨?_, ?_, fun _ h => .inl h, Nat.le_refl _, rfl, rfl, rfl, rfl⟩, by simp, ?_⟩
    · intro nk' hk
      simp only [FMap.get_set] at hk
      by_cases e' : nk' = nk
      · subst e'; exact .inr hN
      · rw [if_neg e'] at hk; exact .inl hk
    · simp only [FMap.size, FMap.set, FMap.erase, List.length_cons]
      have := List.length_filter_le (fun e : NodeKey × Node D => decide (e.1 ≠ nk)) c.nodeCache.entries
      omega
    · intro nk' hk
      simp only [FMap.get_set]
      split
      · rfl
      · exact hk

theorem delete {nk : NodeKey} {b : Bool} (h : c.deleteNode nk b = .ok c') (hS : S nk) :
    Touch N S 0 1 c c' ∧ ∀ nk', nk' ≠ nk → (c.nodeCache.get nk').isSome → (c'.nodeCache.get nk').isSome := by
  unfold TreeCache.deleteNode at h
  cases e : c.nodeCache.get nk with
  | some y =>
    rw [e] at h
    simp only at h
    by_cases hz : (b && c.numNewLeaves == 0) = true
    · rw [if_pos hz] at h; cases h
    rw [if_neg hz] at h
    cases h
    refine ⟨⟨?_, ?_, fun _ h => .inl h, Nat.le_succ _, rfl, rfl, rfl, rfl⟩, ?_⟩
    · intro nk' hk
      simp only [FMap.get_erase] at hk
      split at hk
      · cases hk
      · exact .inl hk
    · simp only [FMap.size, FMap.erase]
      exact List.length_filter_le _ _
    · intro nk' hne hk
      simp only [FMap.get_erase, if_neg hne]
      exact hk
  | none =>
    rw [e] at h
    simp only at h
    by_cases hc : c.staleNodeIndexCache.contains nk = true
    · rw [if_pos hc] at h; cases h
    · rw [if_neg hc] at h
      cases h
      refine ⟨⟨fun _ h => .inl h, Nat.le_refl _, ?_, ?_, rfl, rfl, rfl, rfl⟩, fun _ _ h => h⟩
      · intro nk' hk
        rw [FSet.mem_insert] at hk
        rcases hk with rfl | hk
        · exact .inr hS
        · exact .inl hk
      · simp only [FSet.size, FSet.insert]
        split <;> simp

/-- A node of the cache is dropped. -/
theorem drop {nk : NodeKey} {b : Bool} (h : c.deleteNode nk b = .ok c') (hc : (c.nodeCache.get nk).isSome) : Touch N S 0 0 c c' := by
  unfold TreeCache.deleteNode at h
  obtain ⟨y, e⟩ := Option.isSome_iff_exists.1 hc
  rw [e] at h
  simp only at h
  by_cases hz : (b && c.numNewLeaves == 0) = true
  · rw [if_pos hz] at h; cases h
  rw [if_neg hz] at h
  cases h
  refine ⟨?_, ?_, fun _ h => .inl h, Nat.le_refl _, rfl, rfl, rfl, rfl⟩
  · intro nk' hk
    simp only [FMap.get_erase] at hk
    split at hk
    · cases hk
    · exact .inl hk
  · simp only [FMap.size, FMap.erase]
    exact List.length_filter_le _ _

end Touch

theorem bind_ok {α β : Type} {x : Res α} {f : α → Res β} {b : β} (h : x >>= f = .ok b) : ∃ a, x = .ok a ∧ f a = .ok b := by
  cases x with
  | error e => cases h
  | ok a => exact ⟨a, rfl, h⟩

theorem genChild_eq {nk k : NodeKey} {v : Version} {i : Nibble} (h : nk.genChild v i = .ok k) : k = ⟨v, nk.path ++ [i]⟩ := by
  unfold NodeKey.genChild at h
  split at h
  · cases h; rfl
  · cases h

theorem _root_.Verif.Spec.Beside.on {p : List Nibble} {k : Key} (h : p <+: k.nibbles) : Beside p k := ⟨p, h, .inl rfl⟩
theorem _root_.Verif.Spec.Beside.snoc {p : List Nibble} {k : Key} (h : p <+: k.nibbles) (i : Nibble) : Beside (p ++ [i]) k := ⟨p, h, .inr ⟨i, rfl⟩⟩

/-- The keys of nodes written by an update of `key` at version `ver`, and of those given up. -/
def NewAt (ver : Version) (key : Key) (nk : NodeKey) : Prop := nk.version = ver ∧ Beside nk.path key
def OldAt (key : Key) (nk : NodeKey) : Prop := Beside nk.path key

/-- What `insert_at` did at the path `p` with `r` nibbles left. -/
def Post (ver : Version) (key : Key) (p : List Nibble) (r : Nat) (c c' : TreeCache D) : PutResult (NodeKey × Node D) → Prop
  | .notChanged => Touch (NewAt ver key) (OldAt key) (r + 1) (r + 1) c c'
  | .removed => Touch (NewAt ver key) (OldAt key) (r + 1) (r + 1) c c'
  | .updated (nk, _) => Touch (NewAt ver key) (OldAt key) (r + 2) (r + 2) c c' ∧ nk = ⟨ver, p⟩ ∧ (c'.nodeCache.get nk).isSome

theorem createLeafNode_touch {ver : Version} {key k : Key} {vh : D} {nk : NodeKey} {c c' : TreeCache D} {r : NodeKey × Node D}
    (h : Tree.createLeafNode nk k vh c = .ok (c', r)) (hN : NewAt ver key nk) :
    Touch (NewAt ver key) (OldAt key) 1 0 c c' ∧ r.1 = nk ∧ (c'.nodeCache.get nk).isSome := by
  unfold Tree.createLeafNode at h
  obtain ⟨c1, h1, h⟩ := bind_ok h
  cases h
  obtain ⟨t, h2, -⟩ := Touch.put (S := OldAt key) h1 hN
  exact ⟨t, rfl, h2⟩

theorem chainUp_touch {H : Hasher D} {ver : Version} {key : Key} (count : Nat) :
    ∀ (p s : List Nibble) (node : InternalNode D) (c c' : TreeCache D) (nk' : NodeKey) (node' : InternalNode D), s.length = count →
      p ++ s <+: key.nibbles → (c.nodeCache.get ⟨ver, p ++ s⟩).isSome →
      Tree.chainUp H ver count (p ++ s) ⟨ver, p ++ s⟩ node c = .ok (c', (nk', node')) →
      Touch (NewAt ver key) (OldAt key) count 0 c c' ∧ nk' = ⟨ver, p⟩ ∧ (c'.nodeCache.get nk').isSome := by
  induction count with
  | zero =>
    intro p s node c c' nk' node' hs hp hc h
    have : s = [] := List.length_eq_zero_iff.1 hs
    subst this
    rw [List.append_nil] at *
    unfold Tree.chainUp at h
    cases h
    exact ⟨.refl _ _ _, rfl, hc⟩
  | succ count ih =>
    intro p s node c c' nk' node' hs hp hc h
    have hne : s ≠ [] := by rintro rfl; cases hs
    have hlast : (p ++ s).getLast? = some (s.getLast hne) := by
      rw [List.getLast?_append, List.getLast?_eq_some_getLast hne]; rfl
    have hdrop : (p ++ s).dropLast = p ++ s.dropLast := List.dropLast_append_of_ne_nil hne
    unfold Tree.chainUp at h
    rw [hlast] at h
    simp only [hdrop] at h
    obtain ⟨internal, -, h⟩ := bind_ok h
    obtain ⟨c1, h2, h⟩ := bind_ok h
    have hp' : p ++ s.dropLast <+: key.nibbles := by
      refine List.IsPrefix.trans ?_ hp
      rw [List.prefix_append_right_inj]
      exact List.dropLast_prefix s
    obtain ⟨t, h3, -⟩ := Touch.put (N := NewAt ver key) (S := OldAt key) h2 ⟨rfl, .on hp'⟩
    obtain ⟨t', h4, h5⟩ := ih p s.dropLast internal c1 c' nk' node' (by simp [hs]) hp' h3 h
    exact ⟨(t.trans t').mono (by omega) (by omega), h4, h5⟩

theorem insertAtLeafNode_touch {H : Hasher D} {m : Bool} {ver : Version} {key : Key} {nk : NodeKey} {existing : LeafNode D} {p rest : List Nibble}
    {value : Option D} {c c' : TreeCache D} {res : PutResult (NodeKey × Node D)} (hk : p ++ rest = key.nibbles) (hp : nk.path = p)
    (h : Tree.insertAtLeafNode H m nk existing ver key p rest value c = .ok (c', res)) : Post ver key p rest.length c c' res := by
  have hpre : p <+: key.nibbles := ⟨rest, hk⟩
  have hold : OldAt key nk := by unfold OldAt; rw [hp]; exact .on hpre
  unfold Tree.insertAtLeafNode at h
  simp only at h
  obtain ⟨-, -, h⟩ := bind_ok h
  generalize List.drop (skipCommonPrefix p existing.keyHash.nibbles) existing.keyHash.nibbles = er at h
  by_cases he : (rest.drop (skipCommonPrefix rest er)).isEmpty = true
  · rw [if_pos he] at h
    obtain ⟨-, -, h⟩ := bind_ok h
    obtain ⟨c1, h1, h⟩ := bind_ok h
    obtain ⟨t1, -⟩ := Touch.delete (N := NewAt ver key) h1 hold
    cases value with
    | none => cases h; exact t1.mono (by omega) (by omega)
    | some vh =>
      obtain ⟨⟨c2, r⟩, h2, h⟩ := bind_ok h
      cases h
      obtain ⟨t2, h3, h4⟩ := createLeafNode_touch (ver := ver) (key := key) h2 ⟨rfl, by
        show Beside nk.path key
        rw [hp]; exact .on hpre⟩
      obtain ⟨rk, rn⟩ := r
      cases h3
      exact ⟨(t1.trans t2).mono (by omega) (by omega), by rw [← hp], h4⟩
  · rw [if_neg he] at h
    cases value with
    | none => cases h; exact (Touch.refl _ _ _).mono (by omega) (by omega)
    | some vh =>
      obtain ⟨c1, h1, h⟩ := bind_ok h
      obtain ⟨t1, -⟩ := Touch.delete (N := NewAt ver key) h1 hold
      have hlen : skipCommonPrefix rest er < rest.length := by
        by_contra hcon
        exact he (by rw [List.drop_eq_nil_of_le (by omega)]; rfl)
      generalize skipCommonPrefix rest er = nc at h hlen
      have hcp : p ++ rest.take nc <+: key.nibbles := by
        rw [← hk, List.prefix_append_right_inj]
        exact List.take_prefix _ _
      split at h
      · rename_i ei _ ni _ _ _
        obtain ⟨-, -, h⟩ := bind_ok h
        obtain ⟨k1, g1, h⟩ := bind_ok h
        obtain ⟨c2, h2, h⟩ := bind_ok h
        obtain ⟨k2, g2, h⟩ := bind_ok h
        obtain ⟨⟨c3, r3⟩, h3, h⟩ := bind_ok h
        simp only at h
        obtain ⟨internal, -, h⟩ := bind_ok h
        obtain ⟨c4, h4, h⟩ := bind_ok h
        obtain ⟨⟨c5, nk5, top⟩, h5, h⟩ := bind_ok h
        cases h
        obtain rfl := genChild_eq g1
        obtain rfl := genChild_eq g2
        obtain ⟨t2, -⟩ := Touch.put (N := NewAt ver key) (S := OldAt key) h2 ⟨rfl, .snoc hcp _⟩
        obtain ⟨t3, -⟩ := createLeafNode_touch (ver := ver) (key := key) h3 ⟨rfl, .snoc hcp _⟩
        obtain ⟨t4, g4, -⟩ := Touch.put (N := NewAt ver key) (S := OldAt key) h4 ⟨rfl, .on hcp⟩
        obtain ⟨t5, g5, g6⟩ := chainUp_touch (H := H) (ver := ver) (key := key) nc p (rest.take nc) internal c4 c5 nk5 top
          (by rw [List.length_take]; omega) hcp g4 h5
        exact ⟨((((t1.trans t2).trans t3).trans t4).trans t5).mono (by omega) (by omega), g5, g6⟩
      · cases h

theorem finishRest_touch {ver : Version} {key : Key} {nk : NodeKey} {p : List Nibble} {children : Children D} {n m : Nat}
    {c0 c c' : TreeCache D} {res : PutResult (NodeKey × Node D)} (hpre : p <+: key.nibbles) (hp : nk.path = p)
    (t : Touch (NewAt ver key) (OldAt key) n m c0 c) (h : Tree.finishInternal.rest nk ver children c = .ok (c', res)) :
    match res with
    | .notChanged => False
    | .removed => children.iterSorted = [] ∧ Touch (NewAt ver key) (OldAt key) n (m + 1) c0 c'
    | .updated (nk', _) => nk' = ⟨ver, p⟩ ∧ (c'.nodeCache.get nk').isSome ∧ Touch (NewAt ver key) (OldAt key) (n + 1) (m + 2) c0 c' ∧
        ((∀ i x, children.iterSorted = [(i, x)] → (c.nodeCache.get ⟨x.version, p ++ [i]⟩).isSome) →
          Touch (NewAt ver key) (OldAt key) (n + 1) (m + 1) c0 c') := by
  have hold : OldAt key nk := by unfold OldAt; rw [hp]; exact .on hpre
  have hnew : NewAt ver key (nk.setVersion ver) := by
    refine ⟨rfl, ?_⟩
    show Beside nk.path key
    rw [hp]; exact .on hpre
  have hset : nk.setVersion ver = ⟨ver, p⟩ := by rw [← hp]; rfl
  unfold Tree.finishInternal.rest at h
  obtain ⟨c1, h1, h⟩ := bind_ok h
  obtain ⟨t1, keep⟩ := Touch.delete (N := NewAt ver key) h1 hold
  have tt := t.trans t1
  have mk : ∀ {c' : TreeCache D} {res : PutResult (NodeKey × Node D)}, (do
      let newInternal ← InternalNode.new children
      let c ← c1.putNode (nk.setVersion ver) (.internal newInternal)
      pure (c, .updated (nk.setVersion ver, .internal newInternal)) : Res (TreeCache D × PutResult (NodeKey × Node D))) = .ok (c', res) →
      ∃ x, res = .updated (⟨ver, p⟩, x) ∧ (c'.nodeCache.get ⟨ver, p⟩).isSome ∧ Touch (NewAt ver key) (OldAt key) (n + 1) (m + 1) c0 c' := by
    intro c' res h
    obtain ⟨x, -, h⟩ := bind_ok h
    obtain ⟨c2, h2, h⟩ := bind_ok h
    cases h
    obtain ⟨t2, h3, -⟩ := Touch.put (N := NewAt ver key) (S := OldAt key) h2 hnew
    rw [hset] at h3 ⊢
    exact ⟨_, rfl, h3, (tt.trans t2).mono (by omega) (by omega)⟩
  simp only at h
  split at h
  · rename_i he
    cases h
    exact ⟨he, tt.mono (by omega) (by omega)⟩
  · rename_i cn x he
    split at h
    · obtain ⟨ck, g1, h⟩ := bind_ok h
      obtain ⟨cnode, -, h⟩ := bind_ok h
      obtain ⟨c2, h2, h⟩ := bind_ok h
      obtain ⟨c3, h3, h⟩ := bind_ok h
      cases h
      obtain rfl := genChild_eq g1
      rw [hp] at h2
      obtain ⟨t2, -⟩ := Touch.delete (N := NewAt ver key) (S := OldAt key) h2 (.snoc hpre _)
      obtain ⟨t3, g3, -⟩ := Touch.put (N := NewAt ver key) (S := OldAt key) h3 hnew
      refine ⟨hset, g3, ((tt.trans t2).trans t3).mono (by omega) (by omega), fun hc => ?_⟩
      have h4 := keep ⟨x.version, p ++ [cn]⟩ (by
        rintro rfl
        have := congrArg List.length hp
        simp at this) (hc cn x he)
      exact ((tt.trans (Touch.drop h2 h4)).trans t3).mono (by omega) (by omega)
    · obtain ⟨x, rfl, g1, g2⟩ := mk h
      exact ⟨rfl, g1, g2.mono (by omega) (by omega), fun _ => g2⟩
  · obtain ⟨x, rfl, g1, g2⟩ := mk h
    exact ⟨rfl, g1, g2.mono (by omega) (by omega), fun _ => g2⟩

theorem finishInternal_touch {H : Hasher D} {ver : Version} {key : Key} {nk : NodeKey} {p : List Nibble} {internal : InternalNode D} {i : Nibble}
    {r : Nat} {c0 c c' : TreeCache D} {res res' : PutResult (NodeKey × Node D)} (hpre : p <+: key.nibbles) (hp : nk.path = p)
    (t : Post ver key (p ++ [i]) r c0 c res) (h : Tree.finishInternal H nk internal ver i res c = .ok (c', res')) :
    Post ver key p (r + 1) c0 c' res' := by
  unfold Tree.finishInternal at h
  cases res with
  | notChanged => cases h; exact Touch.mono t (by omega) (by omega)
  | removed =>
    simp only at h
    have := finishRest_touch hpre hp t h
    cases res' with
    | notChanged => exact this.elim
    | removed => exact this.2.mono (by omega) (by omega)
    | updated a =>
      obtain ⟨nk', x⟩ := a
      exact ⟨this.2.2.1.mono (by omega) (by omega), this.1, this.2.1⟩
  | updated a =>
    obtain ⟨nk1, newNode⟩ := a
    obtain ⟨t, rfl, hc⟩ := t
    simp only at h
    obtain ⟨ty, -, h⟩ := bind_ok h
    have hget : ∀ (y : Child D), (internal.children.insert i y).children i = some y := fun y => by simp [Children.insert]
    have := finishRest_touch hpre hp t h
    cases res' with
    | notChanged => exact this.elim
    | removed =>
      have hm := (InternalNode.mem_iterSorted _ i _).2 (hget ⟨newNode.hash H, ver, ty⟩)
      rw [this.1] at hm
      cases hm
    | updated a =>
      obtain ⟨nk', x⟩ := a
      refine ⟨this.2.2.2 ?_, this.1, this.2.1⟩
      intro j y hj
      have hm := (InternalNode.mem_iterSorted _ i _).2 (hget ⟨newNode.hash H, ver, ty⟩)
      rw [hj] at hm
      simp only [List.mem_singleton, Prod.mk.injEq] at hm
      obtain ⟨rfl, rfl⟩ := hm
      exact hc

theorem insertNull_touch {ver : Version} {key : Key} {value : Option D} {nk : NodeKey} {p : List Nibble} {e : Bool} {r : Nat} {c c' : TreeCache D}
    {res : PutResult (NodeKey × Node D)} (hpre : p <+: key.nibbles) (hp : nk.path = p)
    (h : Tree.insertAt.insertNull ver key value nk e c = .ok (c', res)) : Post ver key p r c c' res := by
  have hold : OldAt key nk := by unfold OldAt; rw [hp]; exact .on hpre
  have fin : ∀ {c1 : TreeCache D} {vh : D}, p = [] → Touch (NewAt ver key) (OldAt key) 0 1 c c1 →
      (do let (c, r) ← Tree.createLeafNode (.newEmptyPath ver) key vh c1
          pure (c, .updated r) : Res (TreeCache D × PutResult (NodeKey × Node D))) = .ok (c', res) → Post ver key p r c c' res := by
    rintro c1 vh rfl t1 h
    obtain ⟨⟨c2, r⟩, h2, h⟩ := bind_ok h
    cases h
    obtain ⟨t2, h3, h4⟩ := createLeafNode_touch (ver := ver) (key := key) h2 ⟨rfl, .on hpre⟩
    obtain ⟨rk, rn⟩ := r
    cases h3
    exact ⟨(t1.trans t2).mono (by omega) (by omega), rfl, h4⟩
  unfold Tree.insertAt.insertNull at h
  obtain ⟨_, h0, h⟩ := bind_ok h
  have hp0 : p = [] := by
    rw [← hp]
    by_cases hh : nk.path.isEmpty = true
    · simpa using hh
    · simp only [Bool.not_eq_true] at hh
      rw [hh] at h0; cases h0
  simp only at h
  split at h
  · obtain ⟨c1, h1, h⟩ := bind_ok h
    have t1 := (Touch.delete (N := NewAt ver key) h1 hold).1
    cases value with
    | none => cases h; exact t1.mono (by omega) (by omega)
    | some vh => exact fin hp0 t1 h
  · obtain ⟨c1, h1, h⟩ := bind_ok h
    cases h1
    have t1 : Touch (NewAt ver key) (OldAt key) 0 1 c c := (Touch.refl _ _ _).mono (by omega) (by omega)
    cases value with
    | none => cases h; exact t1.mono (by omega) (by omega)
    | some vh => exact fin hp0 t1 h

theorem insertAt_touch {H : Hasher D} {m : Bool} {ver : Version} {key : Key} {value : Option D} (rest : List Nibble) :
    ∀ (p : List Nibble) (nk : NodeKey) (c c' : TreeCache D) (res : PutResult (NodeKey × Node D)), p ++ rest = key.nibbles → nk.path = p →
      Tree.insertAt H m ver key value rest p nk c = .ok (c', res) → Post ver key p rest.length c c' res := by
  induction rest with
  | nil =>
    intro p nk c c' res hk hp h
    have hpre : p <+: key.nibbles := ⟨_, hk⟩
    unfold Tree.insertAt at h
    split at h
    · cases h
    · exact insertAtLeafNode_touch hk hp h
    · exact insertNull_touch hpre hp h
    · exact insertNull_touch hpre hp h
  | cons i rest ih =>
    intro p nk c c' res hk hp h
    have hpre : p <+: key.nibbles := ⟨_, hk⟩
    have hk' : (p ++ [i]) ++ rest = key.nibbles := by rw [← hk]; simp
    unfold Tree.insertAt at h
    split at h
    · rename_i internal _
      simp only at h
      have step : ∃ c1 r1, Post ver key (p ++ [i]) rest.length c c1 r1 ∧ Tree.finishInternal H nk internal ver i r1 c1 = .ok (c', res) := by
        cases hc : internal.child i with
        | some ch =>
          rw [hc] at h
          obtain ⟨ck, g1, h⟩ := bind_ok h
          obtain rfl := genChild_eq g1
          obtain ⟨⟨c1, r1⟩, h1, h⟩ := bind_ok h
          exact ⟨c1, r1, ih (p ++ [i]) _ c c1 r1 hk' (by rw [hp]) h1, h⟩
        | none =>
          rw [hc] at h
          cases value with
          | none =>
            exact ⟨c, .notChanged, (Touch.refl _ _ _).mono (by omega) (by omega), h⟩
          | some vh =>
            obtain ⟨ck, g1, h⟩ := bind_ok h
            obtain rfl := genChild_eq g1
            obtain ⟨⟨c2, r2⟩, h2, h⟩ := bind_ok h
            obtain ⟨t2, h3, h4⟩ := createLeafNode_touch (ver := ver) (key := key) h2 ⟨rfl, by rw [hp]; exact .snoc hpre i⟩
            obtain ⟨rk, rn⟩ := r2
            cases h3
            exact ⟨c2, .updated (_, rn), ⟨t2.mono (by omega) (by omega), by rw [hp], h4⟩, h⟩
      obtain ⟨c1, r1, h1, h2⟩ := step
      exact finishInternal_touch hpre hp h1 h2
    · exact insertAtLeafNode_touch hk hp h
    · exact insertNull_touch hpre hp h
    · exact insertNull_touch hpre hp h

theorem put_touch {H : Hasher D} {m : Bool} {ver : Version} {key : Key} {value : Option D} {c c' : TreeCache D} (hr : c.rootNodeKey.path = [])
    (h : Tree.put H m key value ver c = .ok c') : Touch (NewAt ver key) (OldAt key) 66 66 c c' := by
  unfold Tree.put at h
  obtain ⟨⟨c1, r⟩, h1, h⟩ := bind_ok h
  have t := insertAt_touch key.nibbles [] _ c c1 r rfl hr h1
  have hl : key.nibbles.length = 64 := by simp [Key.nibbles]
  rw [hl] at t
  cases r with
  | notChanged => cases h; exact Touch.mono t (by omega) (by omega)
  | updated a =>
    obtain ⟨nk, x⟩ := a
    cases h
    obtain ⟨t, rfl, -⟩ := t
    exact { t with root := by rw [hr]; rfl }
  | removed =>
    simp only at h
    have t' : Touch (NewAt ver key) (OldAt key) (64 + 1) (64 + 1) c (c1.setRootNodeKey (.newEmptyPath ver)) :=
      { (show Touch (NewAt ver key) (OldAt key) (64 + 1) (64 + 1) c c1 from t) with root := by rw [hr]; rfl }
    obtain ⟨t2, -⟩ := Touch.put (N := NewAt ver key) (S := OldAt key) h ⟨rfl, .on List.nil_prefix⟩
    exact (t'.trans t2).mono (by omega) (by omega)

theorem putSet_touch {H : Hasher D} {m : Bool} {ver : Version} {N S : NodeKey → Prop} (set : Tree.ValueSet) :
    ∀ (c c' : TreeCache D), c.rootNodeKey.path = [] → (∀ e ∈ set, ∀ nk, NewAt ver e.1 nk → N nk) → (∀ e ∈ set, ∀ nk, OldAt e.1 nk → S nk) →
      Tree.putSet H m ver set c = .ok c' → Touch N S (66 * set.length) (66 * set.length) c c' := by
  induction set with
  | nil => intro c c' _ _ _ h; cases h; exact .refl _ _ _
  | cons e t ih =>
    intro c c' hr hN hS h
    obtain ⟨key, value⟩ := e
    unfold Tree.putSet at h
    simp only at h
    obtain ⟨c1, h1, h⟩ := bind_ok h
    have t1 : Touch N S 66 66 c c1 := by
      have := put_touch (c := c.putValue ver key value) hr h1
      have := this.weaken (hN (key, value) (by simp)) (hS (key, value) (by simp))
      exact ⟨this.nodes, this.size, this.stale, this.staleSize, this.frozenNodes, this.frozenStale, this.root, this.next⟩
    have t2 := ih c1 c' (by rw [t1.root, hr]) (fun e he => hN e (by simp [he])) (fun e he => hS e (by simp [he])) h
    refine (t1.trans t2).mono ?_ ?_ <;> simp only [List.length_cons] <;> omega

end Verif.Jmt
