import Verif.Proofs.Run
/-! Updates with fewer node hashes supplied: the result is the same, or a hash is missing. -/

set_option autoImplicit false

namespace Verif.Jmt
variable {D : Type}
open VTree

/-- The panic of `get_hash`. -/
def noHash : Err := .panic "can not be found in hash cache"

/-- The same result, or the panic of `get_hash`. -/
def SameOrNone {α : Type} (x y : Res α) : Prop := x = y ∨ x = .error noHash

theorem SameOrNone.rfl {α : Type} {x : Res α} : SameOrNone x x := .inl (Eq.refl _)

theorem SameOrNone.bind {α β : Type} {x y : Res α} {f g : α → Res β} (h : SameOrNone x y) (hf : ∀ a, SameOrNone (f a) (g a)) : SameOrNone (x >>= f) (y >>= g) := by
  rcases h with rfl | rfl
  · cases x with
    | ok a => exact hf a
    | error e => exact .inl (Eq.refl _)
  · exact .inr (Eq.refl _)

theorem bindOk {α β : Type} {x : Res α} {f : α → Res β} {b : β} (h : (x >>= f) = .ok b) : ∃ a, x = .ok a ∧ f a = .ok b := by
  cases x with
  | ok a => exact ⟨a, rfl, h⟩
  | error e => cases h

/-- One cache has all entries of the other. -/
def SubCache (a b : Option (Tree.HashCache D)) : Prop :=
  a = b ∨ ∃ x y, a = some x ∧ b = some y ∧ ∀ p h, x.get p = some h → y.get p = some h

theorem getHash_sameOrNone {a b : Option (Tree.HashCache D)} (h : SubCache a b) (H : Hasher D) (nk : NodeKey) (n : Node D) :
    SameOrNone (Tree.getHash H a nk n) (Tree.getHash H b nk n) := by
  rcases h with rfl | ⟨x, y, rfl, rfl, h⟩
  · exact .rfl
  · unfold Tree.getHash
    dsimp only
    cases hx : x.get nk.path with
    | none => exact .inr rfl
    | some d => rw [h _ _ hx]; exact .rfl

theorem batchChildren_sameOrNone {a b : Option (Tree.HashCache D)} (h : SubCache a b) (H : Hasher D) (ver : Version)
    {f g : Nibble → List (Key × D) → TreeCache D → Res (TreeCache D × (NodeKey × Node D))} (hf : ∀ i k c, SameOrNone (f i k c) (g i k c))
    (groups : List (Nibble × List (Key × D))) (ch : Children D) (c : TreeCache D) :
    SameOrNone (Tree.batchChildren H a ver f groups ch c) (Tree.batchChildren H b ver g groups ch c) := by
  induction groups generalizing ch c with
  | nil => exact .rfl
  | cons e t ih =>
    obtain ⟨i, k⟩ := e
    unfold Tree.batchChildren
    refine (hf i k c).bind fun r => ?_
    refine (getHash_sameOrNone h H _ _).bind fun d => ?_
    exact SameOrNone.rfl.bind fun ty => ih _ _

theorem batchCreate_sameOrNone {a b : Option (Tree.HashCache D)} (h : SubCache a b) (H : Hasher D) (m : Bool) (ver : Version) (d : Nat) :
    ∀ (nk : NodeKey) (kvs : List (Key × D)) (c : TreeCache D),
      SameOrNone (Tree.batchCreateSubtree H m a ver d nk kvs c) (Tree.batchCreateSubtree H m b ver d nk kvs c) := by
  induction d with
  | zero =>
    intro nk kvs c
    match kvs with
    | [] => exact .rfl
    | [_] => exact .rfl
    | _ :: _ :: _ => exact .rfl
  | succ d ih =>
    intro nk kvs c
    have main : ∀ l : List (Key × D), SameOrNone
        (Tree.batchChildren H a ver (fun i g c => do
            let childKey ← nk.genChild ver i
            Tree.batchCreateSubtree H m a ver d childKey g c) (nibbleGroups l (rootNibbleHeight - (d + 1))) Children.new c >>= fun r => do
          let internal ← InternalNode.newMigration r.2 m
          let c ← r.1.putNode nk (Node.internal internal)
          pure (c, (nk, Node.internal internal)))
        (Tree.batchChildren H b ver (fun i g c => do
            let childKey ← nk.genChild ver i
            Tree.batchCreateSubtree H m b ver d childKey g c) (nibbleGroups l (rootNibbleHeight - (d + 1))) Children.new c >>= fun r => do
          let internal ← InternalNode.newMigration r.2 m
          let c ← r.1.putNode nk (Node.internal internal)
          pure (c, (nk, Node.internal internal))) := by
      intro l
      refine (batchChildren_sameOrNone h H ver (fun i g c => ?_) _ _ _).bind fun r => .rfl
      exact SameOrNone.rfl.bind fun k => ih _ _ _
    match kvs with
    | [] => exact main []
    | [_] => exact .rfl
    | x :: y :: l => exact main (x :: y :: l)

theorem batchWithLeaf_sameOrNone {a b : Option (Tree.HashCache D)} (h : SubCache a b) (H : Hasher D) (m : Bool) (ver : Version) (leaf : LeafNode D)
    (d : Nat) : ∀ (nk : NodeKey) (kvs : List (Key × D)) (c : TreeCache D),
      SameOrNone (Tree.batchWithLeaf H m a ver leaf d nk kvs c) (Tree.batchWithLeaf H m b ver leaf d nk kvs c) := by
  induction d with
  | zero =>
    intro nk kvs c
    unfold Tree.batchWithLeaf
    exact .rfl
  | succ d ih =>
    intro nk kvs c
    unfold Tree.batchWithLeaf
    cases Tree.batchWithLeaf.single leaf kvs with
    | some x => exact .rfl
    | none =>
      dsimp only
      refine (batchChildren_sameOrNone h H ver (fun i g c => ?_) _ _ _).bind fun r => .rfl
      refine SameOrNone.rfl.bind fun k => ?_
      split
      · exact ih _ _ _
      · exact batchCreate_sameOrNone h H m ver d _ _ _

theorem batchInsertAt_sameOrNone {a b : Option (Tree.HashCache D)} (h : SubCache a b) (H : Hasher D) (m : Bool) (ver : Version)
    (d : Nat) : ∀ (nk : NodeKey) (kvs : List (Key × D)) (c : TreeCache D),
      SameOrNone (Tree.batchInsertAt H m a ver d nk kvs c) (Tree.batchInsertAt H m b ver d nk kvs c) := by
  induction d with
  | zero =>
    intro nk kvs c
    unfold Tree.batchInsertAt
    refine SameOrNone.rfl.bind fun _ => SameOrNone.rfl.bind fun n => ?_
    cases n with
    | internal n => exact .rfl
    | leaf l => exact SameOrNone.rfl.bind fun c => batchWithLeaf_sameOrNone h H m ver l 0 _ _ _
    | null =>
      refine SameOrNone.rfl.bind fun _ => ?_
      dsimp only
      split <;> exact SameOrNone.rfl.bind fun c => batchCreate_sameOrNone h H m ver _ _ _ _
  | succ d ih =>
    intro nk kvs c
    unfold Tree.batchInsertAt
    refine SameOrNone.rfl.bind fun _ => SameOrNone.rfl.bind fun n => ?_
    cases n with
    | internal n =>
      refine SameOrNone.rfl.bind fun c => ?_
      refine (batchChildren_sameOrNone h H ver (fun i g c => ?_) _ _ _).bind fun r => .rfl
      cases n.child i with
      | some x => exact SameOrNone.rfl.bind fun k => ih _ _ _
      | none => exact SameOrNone.rfl.bind fun k => batchCreate_sameOrNone h H m ver d _ _ _
    | leaf l => exact SameOrNone.rfl.bind fun c => batchWithLeaf_sameOrNone h H m ver l _ _ _ _
    | null =>
      refine SameOrNone.rfl.bind fun _ => ?_
      dsimp only
      split <;> exact SameOrNone.rfl.bind fun c => batchCreate_sameOrNone h H m ver _ _ _ _

theorem batchPutSet_sameOrNone {a b : Option (Tree.HashCache D)} (h : SubCache a b) (H : Hasher D) (m : Bool) (ver : Version) (s : List (Key × Value))
    (c : TreeCache D) : SameOrNone (Tree.batchPutSet H m a ver s c) (Tree.batchPutSet H m b ver s c) :=
  SameOrNone.rfl.bind fun _ => (batchInsertAt_sameOrNone h H m ver _ _ _ _).bind fun _ => .rfl

theorem batchPutSets_sameOrNone (H : Hasher D) (m : Bool) (sets : List (List (Key × Value))) :
    ∀ (as bs : List (Option (Tree.HashCache D))) (ver : Version) (c : TreeCache D), as.length = bs.length →
      (∀ (i : Nat) a b, as[i]? = some a → bs[i]? = some b → SubCache a b) →
      SameOrNone (Tree.batchPutSets H m ver (sets.zip as) c) (Tree.batchPutSets H m ver (sets.zip bs) c) := by
  induction sets with
  | nil => intro as bs ver c _ _; exact .rfl
  | cons s sets ih =>
    intro as bs ver c hl h
    match as, bs, hl with
    | [], [], _ => exact .rfl
    | a :: as, b :: bs, hl =>
      simp only [List.zip_cons_cons, Tree.batchPutSets]
      refine (batchPutSet_sameOrNone (h 0 a b rfl rfl) H m ver s c).bind fun c => ?_
      exact ih as bs _ c (by simpa using hl) fun i a b ha hb => h (i + 1) a b (by simpa using ha) (by simpa using hb)

/-! What is looked up for the children of a node. -/

theorem batchChildren_found {x : Tree.HashCache D} {H : Hasher D} {ver : Version} {p : List Nibble}
    {f : Nibble → List (Key × D) → TreeCache D → Res (TreeCache D × (NodeKey × Node D))}
    (hf : ∀ i k c r, f i k c = .ok r → r.2.1.path = p ++ [i]) (groups : List (Nibble × List (Key × D))) {ch : Children D} {c : TreeCache D}
    {r : TreeCache D × Children D} (h : Tree.batchChildren H (some x) ver f groups ch c = .ok r) :
    ∀ i ∈ groups.map Prod.fst, (x.get (p ++ [i])).isSome = true := by
  induction groups generalizing ch c with
  | nil => intro i hi; cases hi
  | cons e t ih =>
    obtain ⟨i, k⟩ := e
    unfold Tree.batchChildren at h
    obtain ⟨⟨c1, nk, n⟩, h1, h⟩ := bindOk h
    obtain ⟨d, h2, h⟩ := bindOk h
    obtain ⟨ty, h3, h⟩ := bindOk h
    have hp := hf _ _ _ _ h1
    dsimp only at hp
    intro j hj
    rcases List.mem_cons.1 hj with rfl | hj
    · unfold Tree.getHash at h2
      dsimp only at h2
      rw [← hp]
      cases hx : x.get nk.path with
      | none => rw [hx] at h2; cases h2
      | some _ => rfl
    · exact ih h j hj

theorem genChild_path_snoc {nk k : NodeKey} {v : Version} {i : Nibble} (h : nk.genChild v i = .ok k) : k.path = nk.path ++ [i] := by
  unfold NodeKey.genChild at h
  split at h
  · cases h; rfl
  · cases h

theorem batchCreate_path {x : Option (Tree.HashCache D)} {H : Hasher D} {m : Bool} {ver : Version} {d : Nat} {nk : NodeKey} {kvs : List (Key × D)}
    {c : TreeCache D} {r : TreeCache D × (NodeKey × Node D)} (h : Tree.batchCreateSubtree H m x ver d nk kvs c = .ok r) : r.2.1 = nk := by
  unfold Tree.batchCreateSubtree at h
  split at h
  · obtain ⟨c1, _, h⟩ := bindOk h
    cases h; rfl
  · split at h
    · cases h
    · obtain ⟨_, _, h⟩ := bindOk h
      obtain ⟨_, _, h⟩ := bindOk h
      obtain ⟨_, _, h⟩ := bindOk h
      cases h; rfl

theorem batchWithLeaf_path {x : Option (Tree.HashCache D)} {H : Hasher D} {m : Bool} {ver : Version} {l : LeafNode D} {d : Nat} {nk : NodeKey}
    {kvs : List (Key × D)} {c : TreeCache D} {r : TreeCache D × (NodeKey × Node D)}
    (h : Tree.batchWithLeaf H m x ver l d nk kvs c = .ok r) : r.2.1 = nk := by
  unfold Tree.batchWithLeaf at h
  split at h
  · obtain ⟨c1, _, h⟩ := bindOk h
    cases h; rfl
  · split at h
    · cases h
    · obtain ⟨_, _, h⟩ := bindOk h
      obtain ⟨_, _, h⟩ := bindOk h
      obtain ⟨_, _, h⟩ := bindOk h
      obtain ⟨_, _, h⟩ := bindOk h
      cases h; rfl

theorem batchInsertAt_path {x : Option (Tree.HashCache D)} {H : Hasher D} {m : Bool} {ver : Version} {d : Nat} {nk : NodeKey}
    {kvs : List (Key × D)} {c : TreeCache D} {r : TreeCache D × (NodeKey × Node D)}
    (h : Tree.batchInsertAt H m x ver d nk kvs c = .ok r) : r.2.1.path = nk.path := by
  unfold Tree.batchInsertAt at h
  obtain ⟨_, _, h⟩ := bindOk h
  obtain ⟨n, _, h⟩ := bindOk h
  cases n with
  | internal n =>
    obtain ⟨_, _, h⟩ := bindOk h
    dsimp only at h
    split at h
    · cases h
    · obtain ⟨_, _, h⟩ := bindOk h
      obtain ⟨_, _, h⟩ := bindOk h
      obtain ⟨_, _, h⟩ := bindOk h
      cases h; rfl
  | leaf l =>
    obtain ⟨_, _, h⟩ := bindOk h
    rw [batchWithLeaf_path h]; rfl
  | null =>
    obtain ⟨_, h0, h⟩ := bindOk h
    have hp : nk.path = [] := by
      unfold ensure at h0
      split at h0
      · rename_i h1; exact List.isEmpty_iff.1 h1
      · cases h0
    dsimp only at h
    split at h <;> (obtain ⟨_, _, h⟩ := bindOk h; rw [batchCreate_path h, hp]; rfl)

/-- If the new node is not a leaf, then the hashes of its children with updates have been looked up. -/
theorem batchCreate_looked {x : Tree.HashCache D} {H : Hasher D} {m : Bool} {ver : Version} {d : Nat} {nk : NodeKey} {kvs : List (Key × D)}
    {c : TreeCache D} {r : TreeCache D × (NodeKey × Node D)} (h : Tree.batchCreateSubtree H m (some x) ver d nk kvs c = .ok r) :
    r.2.2.isLeaf = true ∨ ∀ i ∈ (nibbleGroups kvs (rootNibbleHeight - d)).map Prod.fst, (x.get (nk.path ++ [i])).isSome = true := by
  unfold Tree.batchCreateSubtree at h
  split at h
  · obtain ⟨c1, _, h⟩ := bindOk h
    cases h; exact .inl rfl
  · split at h
    · cases h
    · obtain ⟨_, h1, _⟩ := bindOk h
      refine .inr (batchChildren_found (fun i k c r hr => ?_) _ h1)
      obtain ⟨k, hk, hr⟩ := bindOk hr
      rw [batchCreate_path hr, genChild_path_snoc hk]

theorem batchWithLeaf_looked {x : Tree.HashCache D} {H : Hasher D} {m : Bool} {ver : Version} {l : LeafNode D} {d : Nat} {nk : NodeKey}
    {kvs : List (Key × D)} {c : TreeCache D} {r : TreeCache D × (NodeKey × Node D)}
    (h : Tree.batchWithLeaf H m (some x) ver l d nk kvs c = .ok r) :
    r.2.2.isLeaf = true ∨ ∀ i ∈ (nibbleGroups kvs (rootNibbleHeight - d)).map Prod.fst, (x.get (nk.path ++ [i])).isSome = true := by
  unfold Tree.batchWithLeaf at h
  split at h
  · obtain ⟨c1, _, h⟩ := bindOk h
    cases h; exact .inl rfl
  · split at h
    · cases h
    · obtain ⟨_, h1, _⟩ := bindOk h
      refine .inr (batchChildren_found (fun i k c r hr => ?_) _ h1)
      obtain ⟨k, hk, hr⟩ := bindOk hr
      split at hr
      · rw [batchWithLeaf_path hr, genChild_path_snoc hk]
      · rw [batchCreate_path hr, genChild_path_snoc hk]

theorem batchInsertAt_looked {x : Tree.HashCache D} {H : Hasher D} {m : Bool} {ver : Version} {d : Nat} {nk : NodeKey}
    {kvs : List (Key × D)} {c : TreeCache D} {r : TreeCache D × (NodeKey × Node D)}
    (h : Tree.batchInsertAt H m (some x) ver d nk kvs c = .ok r) :
    r.2.2.isLeaf = true ∨ ∀ i ∈ (nibbleGroups kvs (rootNibbleHeight - d)).map Prod.fst, (x.get (nk.path ++ [i])).isSome = true := by
  unfold Tree.batchInsertAt at h
  obtain ⟨_, _, h⟩ := bindOk h
  obtain ⟨n, _, h⟩ := bindOk h
  cases n with
  | internal n =>
    obtain ⟨_, _, h⟩ := bindOk h
    dsimp only at h
    split at h
    · cases h
    · obtain ⟨_, h1, _⟩ := bindOk h
      refine .inr (batchChildren_found (fun i k c r hr => ?_) _ h1)
      split at hr
      · obtain ⟨k, hk, hr⟩ := bindOk hr
        rw [batchInsertAt_path hr, genChild_path_snoc hk]
      · obtain ⟨k, hk, hr⟩ := bindOk hr
        rw [batchCreate_path hr, genChild_path_snoc hk]
  | leaf l =>
    obtain ⟨_, _, h⟩ := bindOk h
    have := batchWithLeaf_looked h
    exact this
  | null =>
    obtain ⟨_, h0, h⟩ := bindOk h
    have hp : nk.path = [] := by
      unfold ensure at h0
      split at h0
      · rename_i h1; exact List.isEmpty_iff.1 h1
      · cases h0
    dsimp only at h
    split at h <;> (obtain ⟨_, _, h⟩ := bindOk h; have := batchCreate_looked h; rw [hp]; exact this)

theorem SameOrNone.ok {α : Type} {x y : Res α} {a : α} (h : SameOrNone x y) (e : x = .ok a) : y = .ok a := by
  rcases h with rfl | rfl
  · exact e
  · cases e

theorem isLeaf_setVersion (t : VTree D) (v : Version) : (t.setVersion v).isLeaf = t.isLeaf := by cases t <;> rfl

/-- If the loop succeeds with caches `as` that lack some hashes, then every round that makes a tree of two or more keys has found the
hashes of the changed children of the root. -/
theorem batchPutSets_looked {H : Hasher D} {St0 : Version → NodeKey → Prop} {v0 first lo : Version} (m : Bool)
    (sets : List (List (Key × Value))) (hist : List Commit) (c : TreeCache D) (t : VTree D) (h : CacheInv H St0 v0 first lo hist c t)
    (hk : RootThere c t) (hne : ∀ s ∈ sets, s ≠ []) (as bs : List (Option (Tree.HashCache D))) (ha : as.length = sets.length)
    (hb : bs.length = sets.length) (hsub : ∀ (i : Nat) a b, as[i]? = some a → bs[i]? = some b → SubCache a b)
    (hok : ∀ i hc, bs[i]? = some hc → HcOk H hc (v0 + hist.length + i) [] (treeAt H v0 (hist ++ sets.map (.batch m)) (v0 + hist.length + i)))
    {r : TreeCache D} (hr : Tree.batchPutSets H m (v0 + hist.length) (sets.zip as) c = .ok r) (i : Nat) {x : Tree.HashCache D}
    (hi : as[i]? = some (some x)) {s : List (Key × Value)} (hsi : sets[i]? = some s) :
    (treeAt H v0 (hist ++ sets.map (.batch m)) (v0 + hist.length + i)).isLeaf = true ∨ ∀ e ∈ s, (x.get [e.1.nibble 0]).isSome = true := by
  induction sets generalizing hist c t as bs i with
  | nil => cases hsi
  | cons s0 sets ih =>
    obtain ⟨c1, e1, e2, e3, e4, e5, e6, e7⟩ := batchPutSet_spec H m (v0 + hist.length) s0 c t t h.cur hk (hne s0 (by simp))
    obtain ⟨c2, f1, f2, f3, f4⟩ := h.step (.batch m s0) e2 e3 (quiet_batch H m (hne s0 (by simp)) h.wf0) e4 e5 (e6 (by rw [h.vempty]; exact FMap.nodupKeys_empty)) (by
      intro v k
      rw [e7, h.vempty]
      simp [Commit.updates])
    have happ : hist ++ (s0 :: sets).map (Commit.batch m) = hist ++ [.batch m s0] ++ sets.map (.batch m) := by simp
    match as, bs, ha, hb with
    | a :: as, b :: bs, ha, hb =>
      have hl := f2.run.last (by simp)
      have e : v0 + (hist ++ [Commit.batch m s0]).length - 1 = v0 + hist.length := by simp
      rw [e] at hl
      have hokb : HcOk H b (v0 + hist.length) [] (binsert (v0 + hist.length) m 64 (hashKvs H s0) t) := by
        have h0 := hok 0 b rfl
        rw [happ, Nat.add_zero, treeAt_append (by omega) (by simp)] at h0
        intro i q n hn
        exact h0 i q n (by rw [← at?_congr_cons hl]; exact hn)
      simp only [List.zip_cons_cons, Tree.batchPutSets] at hr
      obtain ⟨c2', h1, hr⟩ := bindOk hr
      have hc2 : c2' = c2 := by
        have := (batchPutSet_sameOrNone (hsub 0 a b rfl rfl) H m _ _ _).ok h1
        rw [e1 b hokb, f1] at this
        exact (Except.ok.inj this).symm
      subst hc2
      cases i with
      | zero =>
        obtain rfl : a = some x := by simpa using hi
        obtain rfl : s0 = s := by simpa using hsi
        obtain ⟨c1, g1, g2, g3, g4, g5, g6, g7, g8, g9⟩ :=
          foldl_putValue (v0 + hist.length) (Tree.sortDedup s0) (OMap.sorted_nodup keyLt_strict (sortDedup_sorted s0)) c
        have hk1 : RootThere c1 t := by
          rcases hk with hk | hk
          · exact .inl hk
          · right
            rw [g2]
            simp only [TreeCache.getNodeOption, g4, g5, g6] at hk ⊢
            exact hk
        obtain ⟨c3, k1, _⟩ := batchRoot_spec H m (v0 + hist.length) (hashKvs H s0) c1 t t (g7 H t t h.cur) hk1 (under_hashKvs H s0)
          (hashKvs_ne_nil H (hne s0 (by simp)))
        obtain ⟨_, _, h1⟩ := bindOk h1
        dsimp only at h1
        rw [g1] at h1
        obtain ⟨r0, h1, _⟩ := bindOk h1
        have hr0 := (batchInsertAt_sameOrNone (hsub 0 _ b rfl rfl) H m _ _ _ _ _).ok h1
        have hk2 := k1 b hokb
        unfold hashKvs at hk2
        rw [show rootNibbleHeight = 64 from rfl, hk2] at hr0
        have hp := batchInsertAt_path h1
        have hl1 := batchInsertAt_looked h1
        rw [← hp, ← Except.ok.inj hr0] at hl1
        rcases hl1 with hl1 | hl1
        · left
          rw [toNode_isLeaf] at hl1
          rw [happ, Nat.add_zero, treeAt_append (by omega) (by simp), ← isLeaf_setVersion _ 0, ← hl, isLeaf_setVersion]
          exact hl1
        · right
          intro e he
          refine hl1 _ (((nibbleGroups_spec (under_hashKvs H s0) (by simp)).2.2 _).2 ?_)
          have hm : ∃ y, lastOf s0 e.1 = some y := by
            clear * - he
            induction s0 with
            | nil => cases he
            | cons a l ih =>
              simp only [lastOf]
              rcases List.mem_cons.1 he with rfl | he
              · cases lastOf l e.1 <;> simp
              · obtain ⟨y, hy⟩ := ih he
                rw [hy]; simp
          obtain ⟨y, hy⟩ := hm
          have : (e.1, H.value y) ∈ grp (hashKvs H s0) 0 (e.1.nibble 0) :=
            mem_grp.2 ⟨List.mem_map.2 ⟨(e.1, y), sortDedup_mem.2 hy, rfl⟩, rfl⟩
          exact List.ne_nil_of_mem this
      | succ i =>
        have e' : v0 + (hist ++ [Commit.batch m s0]).length + i = v0 + hist.length + (i + 1) := by simp; omega
        have := ih (hist ++ [.batch m s0]) c2' _ f2 f3 (fun s' hs => hne s' (by simp [hs])) as bs (by simpa using ha) (by simpa using hb)
          (fun i a b ha hb => hsub (i + 1) a b (by simpa using ha) (by simpa using hb)) (by
            intro i hc' hi
            have := hok (i + 1) hc' (by simpa using hi)
            rw [happ] at this
            have e : v0 + (hist ++ [Commit.batch m s0]).length + i = v0 + hist.length + (i + 1) := by simp; omega
            rw [e]; exact this) (by
            rw [← hr]; congr 1; simp; omega) i (by simpa using hi) (by simpa using hsi)
        rw [happ, ← e']
        exact this

/-- The hashes that are supplied are right, but some may be missing. -/
def HashesPartly (H : Hasher D) (b : TreeUpdateBatch D) (first : Version) (hashes : List (Tree.HashCache D)) : Prop :=
  ∀ i hc, hashes[i]? = some hc → ∀ nk n d, b.nodeBatch.nodes.get nk = some n → nk.version = first + i → nk.path ≠ [] →
    hc.get nk.path = some d → d = n.hash H

/-- The hashes of the nodes of a batch, before those supplied. -/
def fullCache (H : Hasher D) (b : TreeUpdateBatch D) (ver : Version) (hc : Tree.HashCache D) : Tree.HashCache D :=
  ⟨b.nodeBatch.nodes.entries.filterMap (fun e => if e.1.version = ver ∧ e.1.path ≠ [] then some (e.1.path, e.2.hash H) else none) ++ hc.entries⟩

theorem lookupL_append {K V : Type} [DecidableEq K] (a b : List (K × V)) (k : K) :
    FMap.lookupL (a ++ b) k = (FMap.lookupL a k).or (FMap.lookupL b k) := by
  induction a with
  | nil => rfl
  | cons e t ih =>
    obtain ⟨k', v⟩ := e
    simp only [List.cons_append, FMap.lookupL]
    split
    · rfl
    · exact ih

theorem fullCache_new {H : Hasher D} {b : TreeUpdateBatch D} {ver : Version} (p : List Nibble) :
    FMap.lookupL (b.nodeBatch.nodes.entries.filterMap
      (fun e => if e.1.version = ver ∧ e.1.path ≠ [] then some (e.1.path, e.2.hash H) else none)) p =
      if p = [] then none else (b.nodeBatch.nodes.get ⟨ver, p⟩).map (fun n => n.hash H) := by
  unfold FMap.get
  induction b.nodeBatch.nodes.entries with
  | nil => simp [FMap.lookupL]
  | cons e t ih =>
    obtain ⟨⟨v, q⟩, n⟩ := e
    simp only [List.filterMap_cons, FMap.lookupL, NodeKey.mk.injEq]
    by_cases h : v = ver ∧ q ≠ []
    · rw [if_pos h]
      simp only [FMap.lookupL, ih, h.1, true_and]
      by_cases hq : q = p
      · subst hq; simp [h.2]
      · simp [hq]
    · rw [if_neg h]
      dsimp only
      rw [ih]
      by_cases hp : p = []
      · simp [hp]
      · have : ¬ (v = ver ∧ q = p) := by rintro ⟨rfl, rfl⟩; exact h ⟨rfl, hp⟩
        simp [this]

theorem fullCache_sub {H : Hasher D} {b : TreeUpdateBatch D} {first : Version} {hashes : List (Tree.HashCache D)}
    (h : HashesPartly H b first hashes) {i : Nat} {hc : Tree.HashCache D} (hi : hashes[i]? = some hc) :
    SubCache (some hc) (some (fullCache H b (first + i) hc)) := by
  refine .inr ⟨_, _, rfl, rfl, fun p d hd => ?_⟩
  unfold fullCache FMap.get
  rw [lookupL_append, fullCache_new]
  by_cases hp : p = []
  · rw [if_pos hp]; exact hd
  · rw [if_neg hp]
    cases hn : b.nodeBatch.nodes.get ⟨first + i, p⟩ with
    | none => exact hd
    | some n => simp [h i hc hi _ n d hn rfl hp hd]

/-- The caches of a call, with the missing hashes. -/
def fullHashes (H : Hasher D) (b : TreeUpdateBatch D) (first : Version) (hashes : List (Tree.HashCache D)) : List (Tree.HashCache D) :=
  hashes.mapIdx (fun i hc => fullCache H b (first + i) hc)

theorem fullHashes_right (H : Hasher D) (b : TreeUpdateBatch D) (first : Version) (hashes : List (Tree.HashCache D)) :
    HashesRight H b first (fullHashes H b first hashes) := by
  intro i hc hi nk n hn hv hp
  unfold fullHashes at hi
  rw [List.getElem?_mapIdx, Option.map_eq_some_iff] at hi
  obtain ⟨hc0, _, rfl⟩ := hi
  unfold fullCache FMap.get
  rw [lookupL_append, fullCache_new, if_neg hp, ← hv]
  have : b.nodeBatch.nodes.get ⟨nk.version, nk.path⟩ = some n := hn
  rw [this]; rfl

theorem fullHashes_sub {H : Hasher D} {b : TreeUpdateBatch D} {first : Version} {hashes : List (Tree.HashCache D)}
    (h : HashesPartly H b first hashes) (i : Nat) (x y : Option (Tree.HashCache D)) (hx : (hashes.map some)[i]? = some x)
    (hy : ((fullHashes H b first hashes).map some)[i]? = some y) : SubCache x y := by
  rw [List.getElem?_map, Option.map_eq_some_iff] at hx hy
  obtain ⟨hc, hi, rfl⟩ := hx
  obtain ⟨hc', hi', rfl⟩ := hy
  unfold fullHashes at hi'
  rw [List.getElem?_mapIdx, hi] at hi'
  obtain rfl := Option.some.inj hi'
  exact fullCache_sub h hi

theorem batchPutValueSets_sameOrNone {H : Hasher D} {b : TreeUpdateBatch D} {first : Version} {hashes : List (Tree.HashCache D)}
    (h : HashesPartly H b first hashes) (m : Bool) (r : Reader D) (sets : List (List (Key × Value))) :
    SameOrNone (Tree.batchPutValueSets H m r sets (some hashes) first) (Tree.batchPutValueSets H m r sets (some (fullHashes H b first hashes)) first) := by
  unfold Tree.batchPutValueSets
  refine (batchPutSets_sameOrNone H m sets _ _ first _ (by simp [fullHashes]) (fullHashes_sub h)).bind fun c => ?_
  simp only [List.length_map, fullHashes, List.length_mapIdx]
  exact .rfl

theorem HashesRight.hcOk {H : Hasher D} {v0 lo : Version} {hist new : List Commit} {s : Store D} (h : StoreInv H v0 hist lo s) {roots : List D}
    {b : TreeUpdateBatch D} (hb : BatchSpec H v0 hist new lo s roots b) {hashes : List (Tree.HashCache D)} (hl : hashes.length = new.length)
    (hr : HashesRight H b (v0 + hist.length) hashes) (i : Nat) (hc : Option (Tree.HashCache D)) (hi : (hashes.map some)[i]? = some hc) :
    HcOk H hc (v0 + hist.length + i) [] (treeAt H v0 (hist ++ new) (v0 + hist.length + i)) := by
  rw [List.getElem?_map, Option.map_eq_some_iff] at hi
  obtain ⟨hc, hi, rfl⟩ := hi
  intro j q n hn
  have hlt : i < new.length := by
    rw [← hl]; exact (List.getElem?_eq_some_iff.1 hi).1
  have hlo := h.inv.loLt
  have hle := h.inv.le
  have hlo' := hb.inv.loLt
  have hst := hb.inv.nodes (v0 + hist.length + i) (by omega) (by simp; omega) (v0 + hist.length + i) (j :: q) n (by
    rw [stored_of_ne H (by rintro h0; rw [h0] at hn; simp at hn)]; exact hn)
  have hsn : s.nodes.get ⟨v0 + hist.length + i, j :: q⟩ = none := by
    cases hh : s.nodes.get ⟨v0 + hist.length + i, j :: q⟩ with
    | none => rfl
    | some n' => have := h.inv.dom _ _ _ hh; omega
  rw [hsn, Option.or_none] at hst
  have := hr i hc hi _ n hst rfl (by simp)
  simp only [Tree.getHash, List.nil_append] at this ⊢
  rw [this]

/-- With some of the hashes, `batch_put_value_sets` has the same result or does not find one. It finds all only if those of the changed
children of the root are there, in every round that makes a tree of two or more keys. -/
theorem batchPutValueSets_partly {H : Hasher D} {v0 lo : Version} {hist : List Commit} {s : Store D} (h : StoreInv H v0 hist lo s)
    (m : Bool) (sets : List (List (Key × Value))) (hs : Resumable v0 hist (sets.map (.batch m))) {roots : List D} {b : TreeUpdateBatch D}
    (hb : Tree.batchPutValueSets H m s.reader sets none (v0 + hist.length) = .ok (roots, b)) {hashes : List (Tree.HashCache D)}
    (hl : hashes.length = sets.length) (hr : HashesPartly H b (v0 + hist.length) hashes) :
    SameOrNone (Tree.batchPutValueSets H m s.reader sets (some hashes) (v0 + hist.length)) (.ok (roots, b)) ∧
    ∀ r, Tree.batchPutValueSets H m s.reader sets (some hashes) (v0 + hist.length) = .ok r →
      ∀ (i : Nat) x st, hashes[i]? = some x → sets[i]? = some st →
        (treeAt H v0 (hist ++ sets.map (.batch m)) (v0 + hist.length + i)).isLeaf = true ∨ ∀ e ∈ st, (x.get [e.1.nibble 0]).isSome = true := by
  obtain ⟨roots', b', e1, e2, e3⟩ := batchPutValueSets_resume h m sets hs
  obtain ⟨rfl, rfl⟩ : roots' = roots ∧ b' = b := by rw [e1] at hb; cases hb; exact ⟨rfl, rfl⟩
  have hfull := e3 (fullHashes H b' (v0 + hist.length) hashes) (by simpa [fullHashes] using hl) (fullHashes_right H b' _ _)
  constructor
  · rw [← hfull]
    exact batchPutValueSets_sameOrNone hr m s.reader sets
  · intro r hrun i x st hi hst
    have hsets : sets ≠ [] := by rintro rfl; cases hst
    obtain ⟨t, h1, h2, h3, h4, h5⟩ := h.start
    obtain ⟨c, hrun, _⟩ := bindOk hrun
    exact batchPutSets_looked m sets hist _ t h1 (h3 (by
      by_cases hh : hist = []
      · rcases (hs.first hh).first with hs | hs
        · exact .inr hs
        · match sets, hsets with
          | x :: l, _ => exact absurd rfl ((hs (.batch m x) (by simp)).1 m x)
      · exact .inl hh)) (fun x hx => hs.batches m x (by simp [hx])) (hashes.map some) ((fullHashes H b' (v0 + hist.length) hashes).map some)
      (by simpa using hl) (by simpa [fullHashes] using hl) (fullHashes_sub hr)
      (fun j hc hj => HashesRight.hcOk h e2 (by simpa [fullHashes] using hl) (fullHashes_right H b' _ _) j hc hj) hrun i
      (by rw [List.getElem?_map, hi]; rfl) hst

end Verif.Jmt
