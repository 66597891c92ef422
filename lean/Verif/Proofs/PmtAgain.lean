import Verif.Proofs.PmtFailing
/-! Calls made again after database errors: they leave what one call without errors leaves. -/

set_option autoImplicit false

namespace Verif.Pmt

variable {K : Keccak} {a b c : Db}

/-- Tries that cannot be told apart: the set of the hash nodes passed may have been built in another order. -/
structure Trie.Like (t u : Trie) : Prop where
  root : t.root = u.root
  rootHash : t.rootHash = u.rootHash
  cache : t.cache = u.cache
  genKeys : t.genKeys = u.genKeys
  passed : ∀ h, h ∈ t.passingKeys ↔ h ∈ u.passingKeys

theorem Trie.Like.refl (t : Trie) : t.Like t := ⟨rfl, rfl, rfl, rfl, fun _ => Iff.rfl⟩

theorem Trie.Like.trans {t u v : Trie} (h : t.Like u) (g : u.Like v) : t.Like v :=
  ⟨h.root.trans g.root, h.rootHash.trans g.rootHash, h.cache.trans g.cache, h.genKeys.trans g.genKeys, fun x => (h.passed x).trans (g.passed x)⟩

theorem Db.Alike.trans (h : Db.Alike a b) (g : Db.Alike b c) : Db.Alike a c :=
  ⟨h.light.trans g.light, fun x => (h.get x).trans (g.get x), h.left, g.right⟩

theorem Db.Alike.insertSame (h : Db.Alike a b) (l : List (H256 × Bytes)) : Db.Alike (a.insertBatch l) (b.insertBatch l) := by
  unfold Db.insertBatch
  induction l generalizing a b with
  | nil => exact h
  | cons e l ih =>
    rw [List.foldl_cons, List.foldl_cons]
    refine ih ⟨h.light, fun x => ?_, h.left.set _ _, h.right.set _ _⟩
    have := h.get x
    unfold Db.get at this ⊢
    unfold Db.insert
    simp only [FMap.get_set, this]

/-- Systems that cannot be told apart. -/
structure Sys.Like (s u : Sys) : Prop where
  db : Db.Alike s.db u.db
  tries : Both Trie.Like s.tries u.tries
  roots : s.roots = u.roots

theorem Sys.Like.trans {s u v : Sys} (h : s.Like u) (g : u.Like v) : s.Like v := by
  refine ⟨h.db.trans g.db, ⟨h.tries.1.trans g.tries.1, fun i x z hx hz => ?_⟩, h.roots.trans g.roots⟩
  obtain ⟨y, hy, hxy⟩ := h.tries.some hx
  exact hxy.trans (g.tries.2 i y z hy hz)

theorem Sys.Like.self {s : Sys} (h : s.db.storage.NodupKeys) : s.Like s :=
  ⟨⟨rfl, fun _ => rfl, h, h⟩, ⟨rfl, fun i x y hx hy => by rw [hx] at hy; cases hy; exact .refl _⟩, rfl⟩

theorem Sys.Like.right {s u : Sys} (h : s.Like u) : u.Like u := .self h.db.right

/-- The same error, or the same answer and systems that cannot be told apart. -/
def Sys.LikeOut {R : Type} (x y : Res (Sys × R)) : Prop :=
  match x, y with
  | .ok (s, r), .ok (u, r') => s.Like u ∧ r = r'
  | .error e, .error e' => e = e'
  | _, _ => False

/-! ### Calls on systems that cannot be told apart -/

theorem Trie.Like.insert {t u : Trie} (h : t.Like u) (d : Db) (k v : Bytes) :
    (∃ e, t.insert d k v = .error e ∧ u.insert d k v = .error e) ∨
    ∃ t' u' r, t.insert d k v = .ok (t', r) ∧ u.insert d k v = .ok (u', r) ∧ t'.Like u' := by
  unfold Trie.insert
  split
  · exact .inr ⟨_, _, _, rfl, rfl, h⟩
  · rw [h.root]
    rcases insertAt d v (hops d (path k)) u.root (path k) with ⟨ps, (m | m) | n⟩
    · exact .inr ⟨_, _, _, rfl, rfl, ⟨rfl, h.rootHash, h.cache, h.genKeys, fun x => by simp [h.passed]⟩⟩
    · exact .inl ⟨_, rfl, rfl⟩
    · exact .inr ⟨_, _, _, rfl, rfl, ⟨rfl, h.rootHash, h.cache, h.genKeys, fun x => by simp [h.passed]⟩⟩

theorem Trie.Like.remove {t u : Trie} (h : t.Like u) (d : Db) (k : Bytes) :
    (∃ e, t.remove d k = .error e ∧ u.remove d k = .error e) ∨
    ∃ t' u' r, t.remove d k = .ok (t', r) ∧ u.remove d k = .ok (u', r) ∧ t'.Like u' := by
  unfold Trie.remove
  rw [h.root]
  rcases deleteAt d (hops d (path k)) u.root (path k) with ⟨ps, (m | m) | ⟨n, b⟩⟩
  · exact .inr ⟨_, _, _, rfl, rfl, ⟨rfl, h.rootHash, h.cache, h.genKeys, fun x => by simp [h.passed]⟩⟩
  · exact .inl ⟨_, rfl, rfl⟩
  · exact .inr ⟨_, _, _, rfl, rfl, ⟨rfl, h.rootHash, h.cache, h.genKeys, fun x => by simp [h.passed]⟩⟩

theorem Trie.Like.addWritten {t u : Trie} (h : t.Like u) (w : Written) : (t.addWritten w).Like (u.addWritten w) :=
  ⟨h.root, h.rootHash, by unfold Trie.addWritten; rw [h.cache], by unfold Trie.addWritten; rw [h.genKeys], h.passed⟩

theorem Trie.Like.getProof {t u : Trie} (h : t.Like u) (d : Db) (k : Bytes) :
    (∃ e, t.getProof K d k = .error e ∧ u.getProof K d k = .error e) ∨
    ∃ t' u' r, t.getProof K d k = .ok (t', r) ∧ u.getProof K d k = .ok (u', r) ∧ t'.Like u' := by
  unfold Trie.getProof
  rw [h.root]
  rcases pathAt d (hops d (path k)) u.root (path k) with (m | m) | l
  · exact .inr ⟨_, _, _, rfl, rfl, h⟩
  · exact .inl ⟨_, rfl, rfl⟩
  · dsimp only
    generalize encodeAll K _ = q
    rcases q with e | ⟨bs, w⟩
    · exact .inl ⟨e, rfl, rfl⟩
    · exact .inr ⟨_, _, _, rfl, rfl, h.addWritten w⟩

theorem Trie.Like.writeRoot {t u : Trie} (h : t.Like u) :
    (∃ e, t.writeRoot K = .error e ∧ u.writeRoot K = .error e) ∨
    ∃ t' u' x, t.writeRoot K = .ok (t', x) ∧ u.writeRoot K = .ok (u', x) ∧ t'.Like u' := by
  unfold Trie.writeRoot
  rw [h.root]
  rcases writeNode K u.root with e | ⟨x | d, w⟩
  · exact .inl ⟨e, rfl, rfl⟩
  · exact .inr ⟨_, _, _, rfl, rfl, h.addWritten w⟩
  · have := h.addWritten w
    exact .inr ⟨_, _, _, rfl, rfl, ⟨this.root, this.rootHash, by dsimp only; rw [this.cache], this.genKeys, this.passed⟩⟩

theorem Trie.Like.commit {t u : Trie} (h : t.Like u) (hd : Db.Alike a b) :
    (∃ e, t.commit K a = .error e ∧ u.commit K b = .error e) ∨
    ∃ t' u' a' b' r, t.commit K a = .ok (t', a', r) ∧ u.commit K b = .ok (u', b', r) ∧ t'.Like u' ∧ Db.Alike a' b' := by
  unfold Trie.commit
  rcases h.writeRoot (K := K) with ⟨e, e1, e2⟩ | ⟨t1, u1, x, e1, e2, h1⟩ <;> rw [e1, e2]
  · exact .inl ⟨e, rfl, rfl⟩
  · simp only [Res.ok_bind]
    have hd1 : Db.Alike ((a.insertBatch t1.cache).removeBatch (t1.passingKeys.filter (fun k => !(t1.genKeys.contains k))))
        ((b.insertBatch u1.cache).removeBatch (u1.passingKeys.filter (fun k => !(u1.genKeys.contains k)))) := by
      rw [h1.cache, h1.genKeys]
      refine (hd.insertSame _).removeBatch fun y => ?_
      simp only [List.mem_filter, h1.passed]
    rw [hd1.recover]
    generalize Pmt.recover _ x = r
    have h2 : ({ t1 with cache := [], rootHash := x, genKeys := [], passingKeys := [] } : Trie).Like
        { u1 with cache := [], rootHash := x, genKeys := [], passingKeys := [] } := ⟨h1.root, rfl, rfl, rfl, fun _ => Iff.rfl⟩
    rcases r with (m | m) | (_ | n)
    · exact .inr ⟨_, _, _, _, _, rfl, rfl, h2, hd1⟩
    · exact .inl ⟨_, rfl, rfl⟩
    · exact .inl ⟨_, rfl, rfl⟩
    · exact .inr ⟨_, _, _, _, _, rfl, rfl, ⟨rfl, rfl, rfl, rfl, fun _ => Iff.rfl⟩, hd1⟩

theorem Sys.Like.step {s u : Sys} (h : s.Like u) (op : Op) : Sys.LikeOut (s.step K op) (u.step K op) := by
  cases op with
  | new => exact ⟨⟨h.db, h.tries.append (.refl _), h.roots⟩, rfl⟩
  | openAt j =>
    simp only [Sys.step, h.roots]
    cases u.roots[j]? with
    | none => exact ⟨h, rfl⟩
    | some x => exact ⟨⟨h.db, h.tries.append (.refl _), rfl⟩, rfl⟩
  | insert i k v =>
    simp only [Sys.step]
    rcases ht : s.tries[i]? with _ | t
    · rw [h.tries.none.1 ht]
      exact ⟨h, rfl⟩
    · obtain ⟨t', ht', hl⟩ := h.tries.some ht
      rw [ht']
      simp only [Sys.insert, h.db.trieInsert]
      rcases hl.insert u.db k v with ⟨e, e1, e2⟩ | ⟨t1, u1, _ | m, e1, e2, hl1⟩ <;> rw [e1, e2]
      · rfl
      · exact ⟨⟨h.db, h.tries.set i hl1, h.roots⟩, rfl⟩
      · exact ⟨⟨h.db, h.tries.set i hl1, h.roots⟩, rfl⟩
  | remove i k =>
    simp only [Sys.step]
    rcases ht : s.tries[i]? with _ | t
    · rw [h.tries.none.1 ht]
      exact ⟨h, rfl⟩
    · obtain ⟨t', ht', hl⟩ := h.tries.some ht
      rw [ht']
      simp only [Sys.remove, h.db.trieRemove]
      rcases hl.remove u.db k with ⟨e, e1, e2⟩ | ⟨t1, u1, m | b, e1, e2, hl1⟩ <;> rw [e1, e2]
      · rfl
      · exact ⟨⟨h.db, h.tries.set i hl1, h.roots⟩, rfl⟩
      · exact ⟨⟨h.db, h.tries.set i hl1, h.roots⟩, rfl⟩
  | proof i k =>
    simp only [Sys.step]
    rcases ht : s.tries[i]? with _ | t
    · rw [h.tries.none.1 ht]
      exact ⟨h, rfl⟩
    · obtain ⟨t', ht', hl⟩ := h.tries.some ht
      rw [ht']
      simp only [Sys.proof, h.db.trieProof]
      rcases hl.getProof (K := K) u.db k with ⟨e, e1, e2⟩ | ⟨t1, u1, m | b, e1, e2, hl1⟩ <;> rw [e1, e2]
      · rfl
      · exact ⟨⟨h.db, h.tries.set i hl1, h.roots⟩, rfl⟩
      · exact ⟨⟨h.db, h.tries.set i hl1, h.roots⟩, rfl⟩
  | commit i =>
    simp only [Sys.step]
    rcases ht : s.tries[i]? with _ | t
    · rw [h.tries.none.1 ht]
      exact ⟨h, rfl⟩
    · obtain ⟨t', ht', hl⟩ := h.tries.some ht
      rw [ht']
      simp only [Sys.commit]
      rcases hl.commit (K := K) h.db with ⟨e, e1, e2⟩ | ⟨t1, u1, a', b', m | x, e1, e2, hl1, hd⟩ <;> rw [e1, e2]
      · rfl
      · exact ⟨⟨hd, h.tries.set i hl1, h.roots⟩, rfl⟩
      · exact ⟨⟨hd, h.tries.set i hl1, by dsimp only; rw [h.roots]⟩, rfl⟩

/-! ### Made again -/

theorem Trie.insertF_failed {t t' : Trie} {bad : H256 → Bool} {k v : Bytes} {m : String} (h : t.insertF a bad k v = .ok (t', some m)) :
    ∃ ps, t' = { t with passingKeys := ps ++ t.passingKeys } ∧ ∀ x ∈ ps, v ≠ [] ∧ x ∈ (insertAt a v (hops a (path k)) t.root (path k)).1 := by
  rcases t.insertF_or (db := a) (bad := bad) k v with e | ⟨ps, e, hv, hp⟩
  · rw [e] at h
    unfold Trie.insert at h
    split at h
    · cases h
      exact ⟨[], rfl, fun _ hx => by cases hx⟩
    · rename_i hv
      dsimp only at h
      split at h
      · cases h
      · cases h
        exact ⟨_, rfl, fun x hx => ⟨by simpa using hv, hx⟩⟩
      · cases h
  · rw [e] at h
    cases h
    exact ⟨ps, rfl, fun x hx => ⟨hv, hp x hx⟩⟩

theorem Trie.insert_again {t t' t2 : Trie} {bad : H256 → Bool} {k v : Bytes} {m : String} {r : Option String} (h : t.insertF a bad k v = .ok (t', some m))
    (h2 : t.insert a k v = .ok (t2, r)) : ∃ t3, t'.insert a k v = .ok (t3, r) ∧ t3.Like t2 := by
  obtain ⟨ps, rfl, hp⟩ := Trie.insertF_failed h
  unfold Trie.insert at h2 ⊢
  split
  · rename_i hv
    rw [if_pos hv] at h2
    cases h2
    refine ⟨_, rfl, ⟨rfl, rfl, rfl, rfl, fun x => ?_⟩⟩
    simp only [List.mem_append]
    exact ⟨fun hx => hx.elim (fun hx => absurd (List.isEmpty_iff.1 hv) (hp x hx).1) id, .inr⟩
  · rename_i hv
    rw [if_neg hv] at h2
    dsimp only at h2 ⊢
    rcases hr : insertAt a v (hops a (path k)) t.root (path k) with ⟨q, (e | e) | n⟩ <;> rw [hr] at h2 hp
    · cases h2
      refine ⟨_, rfl, ⟨rfl, rfl, rfl, rfl, fun x => ?_⟩⟩
      simp only [List.mem_append]
      have := fun hx => (hp x hx).2
      tauto
    · cases h2
    · cases h2
      refine ⟨_, rfl, ⟨rfl, rfl, rfl, rfl, fun x => ?_⟩⟩
      simp only [List.mem_append]
      have := fun hx => (hp x hx).2
      tauto

theorem Trie.removeF_failed {t t' : Trie} {bad : H256 → Bool} {k : Bytes} {m : String} (h : t.removeF a bad k = .ok (t', .error m)) :
    ∃ ps, t' = { t with passingKeys := ps ++ t.passingKeys } ∧ ∀ x ∈ ps, x ∈ (deleteAt a (hops a (path k)) t.root (path k)).1 := by
  rcases t.removeF_or (db := a) (bad := bad) k with e | ⟨ps, e, hp⟩
  · rw [e] at h
    unfold Trie.remove at h
    dsimp only at h
    split at h
    · cases h
    · cases h
      exact ⟨_, rfl, fun x hx => hx⟩
    · cases h
  · rw [e] at h
    cases h
    exact ⟨ps, rfl, hp⟩

theorem Trie.remove_again {t t' t2 : Trie} {bad : H256 → Bool} {k : Bytes} {m : String} {r : Except String Bool} (h : t.removeF a bad k = .ok (t', .error m))
    (h2 : t.remove a k = .ok (t2, r)) : ∃ t3, t'.remove a k = .ok (t3, r) ∧ t3.Like t2 := by
  obtain ⟨ps, rfl, hp⟩ := Trie.removeF_failed h
  unfold Trie.remove at h2 ⊢
  dsimp only at h2 ⊢
  rcases hr : deleteAt a (hops a (path k)) t.root (path k) with ⟨q, (e | e) | ⟨n, b⟩⟩ <;> rw [hr] at h2 hp
  · cases h2
    refine ⟨_, rfl, ⟨rfl, rfl, rfl, rfl, fun x => ?_⟩⟩
    simp only [List.mem_append]
    have := hp x
    tauto
  · cases h2
  · cases h2
    refine ⟨_, rfl, ⟨rfl, rfl, rfl, rfl, fun x => ?_⟩⟩
    simp only [List.mem_append]
    have := hp x
    tauto

theorem lookupL_append {α β : Type} [DecidableEq α] (l l' : List (α × β)) (k : α) :
    FMap.lookupL (l ++ l') k = (FMap.lookupL l k).or (FMap.lookupL l' k) := by
  induction l with
  | nil => simp [FMap.lookupL]
  | cons e l ih =>
    obtain ⟨x, y⟩ := e
    simp only [List.cons_append, FMap.lookupL]
    split
    · rfl
    · exact ih

theorem mem_of_lookupL {α β : Type} [DecidableEq α] {l : List (α × β)} {k : α} {v : β} (h : FMap.lookupL l k = some v) : (k, v) ∈ l := by
  induction l with
  | nil => cases h
  | cons e l ih =>
    obtain ⟨x, y⟩ := e
    simp only [FMap.lookupL] at h
    split at h
    · rename_i e; subst e; cases h; exact List.mem_cons_self
    · exact List.mem_cons_of_mem _ (ih h)

theorem insertBatch_get (l : List (H256 × Bytes)) (d : Db) (h : H256) : (d.insertBatch l).get h = (FMap.lookupL l.reverse h).or (d.get h) := by
  unfold Db.insertBatch
  induction l generalizing d with
  | nil => rfl
  | cons e l ih =>
    rw [List.foldl_cons, ih, List.reverse_cons, lookupL_append]
    have : (d.insert e.1 e.2).get h = (FMap.lookupL [e] h).or (d.get h) := by
      obtain ⟨x, y⟩ := e
      unfold Db.insert Db.get
      rw [FMap.get_set]
      simp only [FMap.lookupL]
      by_cases hx : x = h
      · simp [hx]
      · simp [hx, Ne.symm hx]
    rw [this]
    cases FMap.lookupL l.reverse h <;> rfl

theorem Trie.commitF_failed {t t' : Trie} {d' : Db} {bad : H256 → Bool} {m : String} (h : t.commitF K a bad = .ok (t', d', .error m)) :
    ∃ t1 x, t.writeRoot K = .ok (t1, x) ∧ t' = { t1 with cache := [], rootHash := x, genKeys := [], passingKeys := [] } ∧
      d' = (a.insertBatch t1.cache).removeBatch (t1.passingKeys.filter (fun k => !(t1.genKeys.contains k))) := by
  rcases t.commitF_or (K := K) (db := a) (bad := bad) with e | ⟨t1, x, hw, e⟩
  · rw [e] at h
    unfold Trie.commit at h
    rcases hw : t.writeRoot K with y | ⟨t1, x⟩
    · rw [hw] at h; cases h
    · rw [hw] at h
      simp only [Res.ok_bind] at h
      split at h
      · cases h
      · cases h
        exact ⟨t1, x, rfl, rfl, rfl⟩
      · cases h
      · cases h
  · rw [e] at h
    cases h
    exact ⟨t1, x, hw, rfl, rfl⟩

/-- The nodes written are those of the root; all of them but a short root are recorded as written. -/
theorem Trie.writeRoot_parts {t t1 : Trie} {x : H256} (h : t.writeRoot K = .ok (t1, x)) :
    ∃ w g, t1 = { t with cache := t.cache ++ w, genKeys := g ++ t.genKeys } ∧ (∀ e ∈ w, e.1 ∈ g ∨ e.1 = x) ∧
      ∀ u : Trie, u.root = t.root → u.writeRoot K = .ok ({ u with cache := u.cache ++ w, genKeys := g ++ u.genKeys }, x) := by
  unfold Trie.writeRoot at h ⊢
  rcases hw : writeNode K t.root with e | ⟨y | d, w⟩
  · rw [hw] at h; cases h
  · rw [hw] at h
    cases h
    refine ⟨w, w.map Prod.fst, rfl, fun e he => .inl (List.mem_map.2 ⟨e, he, rfl⟩), fun u hu => ?_⟩
    rw [show writeNode K u.root = _ from (congrArg _ hu).trans hw]
    rfl
  · rw [hw] at h
    cases h
    refine ⟨w ++ [(K d, d)], w.map Prod.fst, ?_, fun e he => ?_, fun u hu => ?_⟩
    · unfold Trie.addWritten
      simp
    · rcases List.mem_append.1 he with he | he
      · exact .inl (List.mem_map.2 ⟨e, he, rfl⟩)
      · rw [List.mem_singleton.1 he]; exact .inr rfl
    · rw [show writeNode K u.root = _ from (congrArg _ hu).trans hw]
      simp only [Res.ok_bind]
      unfold Trie.addWritten
      simp [pure, Except.pure]

theorem Trie.commit_again {t t' t2 : Trie} {d' d2 : Db} {bad : H256 → Bool} {m : String} {r : Except String H256} (hn : a.storage.NodupKeys)
    (h : t.commitF K a bad = .ok (t', d', .error m)) (h2 : t.commit K a = .ok (t2, d2, r)) :
    ∃ t3 d3, t'.commit K d' = .ok (t3, d3, r) ∧ t3.Like t2 ∧ Db.Alike d3 d2 := by
  obtain ⟨t1, x, hw, rfl, rfl⟩ := Trie.commitF_failed h
  obtain ⟨w, g, ht1, hg, hu⟩ := Trie.writeRoot_parts hw
  have hroot : t1.root = t.root := (Trie.writeRoot_root hw).1
  have hw' := hu { t1 with cache := [], rootHash := x, genKeys := [], passingKeys := [] } hroot
  unfold Trie.commit at h2 ⊢
  rw [hw] at h2
  rw [hw']
  simp only [Res.ok_bind] at h2 ⊢
  have hnd : ((a.insertBatch t1.cache).removeBatch (t1.passingKeys.filter (fun k => !(t1.genKeys.contains k)))).storage.NodupKeys := by
    refine (removeBatch_storage _ _).2.1 ?_
    rw [(insertBatch_storage _ _).1]
    exact hn.extend _
  have hcache : t1.cache = t.cache ++ w := by rw [ht1]
  have hgen : ∀ y ∈ g, y ∈ t1.genKeys := by rw [ht1]; exact fun y hy => List.mem_append_left _ hy
  generalize hd : (a.insertBatch t1.cache).removeBatch (t1.passingKeys.filter (fun k => !(t1.genKeys.contains k))) = d at h2 hnd ⊢
  have hsome : d.get x ≠ none := by
    intro he
    have : recover d x = .ok none := by unfold recover; rw [he]
    rw [this] at h2
    cases h2
  have key : Db.Alike (d.insertBatch w) d := by
    refine ⟨(insertBatch_storage _ _).2, fun y => ?_, by rw [(insertBatch_storage _ _).1]; exact hnd.extend _, hnd⟩
    rw [insertBatch_get]
    rcases hl : FMap.lookupL w.reverse y with _ | v
    · rfl
    · have hins : (a.insertBatch t1.cache).get y = some v := by
        rw [insertBatch_get, hcache, List.reverse_append, lookupL_append, hl]
        rfl
      have hrem := (removeBatch_storage (t1.passingKeys.filter (fun k => !(t1.genKeys.contains k))) (a.insertBatch t1.cache)).2.2 y
      rw [hd, hins] at hrem
      rw [hrem]
      have hmem := mem_of_lookupL hl
      rw [List.mem_reverse] at hmem
      split
      · rename_i hc
        exfalso
        rcases hg _ hmem with hy | hy
        · have := (List.mem_filter.1 hc.2).2
          rw [List.contains_iff_mem.2 (hgen y hy)] at this
          cases this
        · rw [if_pos hc] at hrem
          have hy : y = x := hy
          rw [hy] at hrem
          exact hsome hrem
      · rfl
  have e0 : (d.insertBatch ([] ++ w)).removeBatch (([] : List H256).filter (fun k => !((g ++ []).contains k))) = d.insertBatch w := rfl
  rw [e0]
  have hrec := congrFun key.recover x
  rw [hrec]
  rcases hrr : recover d x with (e | e) | (_ | n) <;> rw [hrr] at h2
  · cases h2
    exact ⟨_, _, rfl, ⟨rfl, rfl, rfl, rfl, fun _ => Iff.rfl⟩, key⟩
  · cases h2
  · cases h2
  · cases h2
    exact ⟨_, _, rfl, ⟨rfl, rfl, rfl, rfl, fun _ => Iff.rfl⟩, key⟩

theorem Sys.call_again {s s1 : Sys} {op : Op} {r : Ret} (hn : s.db.storage.NodupKeys) (h : s.step K op = .ok (s1, r)) (bad : H256 → Bool) :
    (s.stepR K (.call op bad) = .ok (s1, r) ∧ Spec.IsDbError r = false) ∨
    ∃ s' u, s.stepR K (.call op bad) = .ok (s', .failed "database error") ∧ s'.db.storage.NodupKeys ∧ s'.step K op = .ok (u, r) ∧ u.Like s1 := by
  -- what is done when the call returned an error
  have main : ∀ {s' : Sys} {m : String}, s.stepR K (.call op bad) = .ok (s', .failed m) →
      s'.db.storage.NodupKeys ∧ ∃ u, s'.step K op = .ok (u, r) ∧ u.Like s1 := by
    intro s' m h1
    cases op with
    | new => cases h1
    | openAt j =>
      simp only [Sys.stepR, Sys.step] at h1
      split at h1 <;> cases h1
    | insert i k v =>
      rcases ht : s.tries[i]? with _ | t
      · simp only [Sys.stepR, ht] at h1; cases h1
      have hi := (List.getElem?_eq_some_iff.1 ht).1
      simp only [Sys.stepR, ht] at h1
      simp only [Sys.step, ht, Sys.insert] at h
      rcases h1' : t.insertF s.db bad k v with e | ⟨t', _ | m'⟩ <;> rw [h1'] at h1 <;> cases h1
      rcases h' : t.insert s.db k v with e | ⟨t2, r'⟩
      · rw [h'] at h; cases h
      obtain ⟨t3, e3, hl⟩ := Trie.insert_again h1' h'
      rw [h'] at h
      have hget : (s.tries.set i t')[i]? = some t' := by rw [List.getElem?_set_self hi]
      have hbase : ({ s with tries := (s.tries.set i t').set i t3 } : Sys).Like (s.put i t2) := by
        refine ⟨⟨rfl, fun _ => rfl, hn, hn⟩, ?_, rfl⟩
        rw [List.set_set]
        exact (Sys.Like.self hn).tries.set i hl
      refine ⟨hn, ?_⟩
      simp only [Sys.step, Sys.put, hget, Sys.insert, e3]
      cases r' with
      | none => cases h; exact ⟨_, rfl, hbase⟩
      | some m => cases h; exact ⟨_, rfl, hbase⟩
    | remove i k =>
      rcases ht : s.tries[i]? with _ | t
      · simp only [Sys.stepR, ht] at h1; cases h1
      have hi := (List.getElem?_eq_some_iff.1 ht).1
      simp only [Sys.stepR, ht] at h1
      simp only [Sys.step, ht, Sys.remove] at h
      rcases h1' : t.removeF s.db bad k with e | ⟨t', m' | x⟩ <;> rw [h1'] at h1 <;> cases h1
      rcases h' : t.remove s.db k with e | ⟨t2, r'⟩
      · rw [h'] at h; cases h
      obtain ⟨t3, e3, hl⟩ := Trie.remove_again h1' h'
      rw [h'] at h
      have hget : (s.tries.set i t')[i]? = some t' := by rw [List.getElem?_set_self hi]
      have hbase : ({ s with tries := (s.tries.set i t').set i t3 } : Sys).Like (s.put i t2) := by
        refine ⟨⟨rfl, fun _ => rfl, hn, hn⟩, ?_, rfl⟩
        rw [List.set_set]
        exact (Sys.Like.self hn).tries.set i hl
      refine ⟨hn, ?_⟩
      simp only [Sys.step, Sys.put, hget, Sys.remove, e3]
      cases r' with
      | error m => cases h; exact ⟨_, rfl, hbase⟩
      | ok m => cases h; exact ⟨_, rfl, hbase⟩
    | commit i =>
      rcases ht : s.tries[i]? with _ | t
      · simp only [Sys.stepR, ht] at h1; cases h1
      have hi := (List.getElem?_eq_some_iff.1 ht).1
      simp only [Sys.stepR, ht] at h1
      simp only [Sys.step, ht, Sys.commit] at h
      rcases h1' : t.commitF K s.db bad with e | ⟨t', d', m' | x⟩ <;> rw [h1'] at h1 <;> cases h1
      rcases h' : t.commit K s.db with e | ⟨t2, d2, r'⟩
      · rw [h'] at h; cases h
      obtain ⟨t3, d3, e3, hl, hd⟩ := Trie.commit_again hn h1' h'
      rw [h'] at h
      have hget : (s.tries.set i t')[i]? = some t' := by rw [List.getElem?_set_self hi]
      have hbase : ∀ rts, (⟨d3, (s.tries.set i t').set i t3, rts⟩ : Sys).Like ⟨d2, s.tries.set i t2, rts⟩ := by
        intro rts
        refine ⟨hd, ?_, rfl⟩
        rw [List.set_set]
        exact (Sys.Like.self hn).tries.set i hl
      refine ⟨?_, ?_⟩
      · obtain ⟨t1, x, -, -, rfl⟩ := Trie.commitF_failed h1'
        refine (removeBatch_storage _ _).2.1 ?_
        rw [(insertBatch_storage _ _).1]
        exact hn.extend _
      · simp only [Sys.step, hget, Sys.commit, e3]
        cases r' with
        | error m => cases h; exact ⟨_, rfl, hbase _⟩
        | ok x => cases h; exact ⟨_, rfl, hbase _⟩
    | proof i k =>
      rcases ht : s.tries[i]? with _ | t
      · simp only [Sys.stepR, ht] at h1; cases h1
      have hi := (List.getElem?_eq_some_iff.1 ht).1
      simp only [Sys.stepR, ht] at h1
      have hset : s.put i t = s := by
        unfold Sys.put
        rw [show s.tries.set i t = s.tries by
          apply List.ext_getElem?
          intro j
          rw [List.getElem?_set]
          split
          · rename_i e; subst e; rw [ht]
          · rfl]
      have h1' : s' = s.put i t := by
        rcases t.getProofF_or (K := K) (db := s.db) (bad := bad) k with e | e
        · rw [e] at h1
          unfold Trie.getProof at h1
          rcases hp : pathAt s.db (hops s.db (Trie.path k)) t.root (Trie.path k) with (m' | m') | l <;> rw [hp] at h1 <;> dsimp only at h1
          · cases h1; rfl
          · cases h1
          · generalize Trie.encodeAll K _ = q at h1
            rcases q with e | ⟨bs, w⟩
            · cases h1
            · cases h1
        · rw [e] at h1
          cases h1
          rfl
      rw [h1', hset]
      refine ⟨hn, s1, h, .self ?_⟩
      simp only [Sys.step, ht, Sys.proof] at h
      rcases hp : t.getProof K s.db k with e | ⟨t', m | l⟩ <;> rw [hp] at h
      · cases h
      · cases h; exact hn
      · cases h; exact hn
  rcases s.stepR_or (K := K) (bad := bad) op with e | ⟨i, tr, tr', db', ht, e, -⟩
  · rw [h] at e
    cases hr : Spec.IsDbError r with
    | false => exact .inl ⟨e, rfl⟩
    | true =>
      cases r with
      | failed m =>
        obtain ⟨h1, u, h2, h3⟩ := main e
        have hm : m = "database error" := by simpa [Spec.IsDbError] using hr
        rw [hm] at e
        exact .inr ⟨_, u, e, h1, h2, h3⟩
      | _ => cases hr
  · obtain ⟨h1, u, h2, h3⟩ := main e
    exact .inr ⟨_, u, e, h1, h2, h3⟩

theorem Sys.again_like {s s1 : Sys} {op : Op} {r : Ret} (hn : s.db.storage.NodupKeys) (h : s.step K op = .ok (s1, r)) (hn1 : s1.db.storage.NodupKeys)
    (bads : List (H256 → Bool)) : ∃ u, Sys.again K op bads s = .ok (u, r) ∧ u.Like s1 := by
  induction bads generalizing s s1 with
  | nil => exact ⟨s1, h, .self hn1⟩
  | cons bad bads ih =>
    unfold Sys.again
    rcases Sys.call_again hn h bad with ⟨e, hr⟩ | ⟨s', u, e, hn', h2, h3⟩ <;> rw [e]
    · refine ⟨s1, ?_, .self hn1⟩
      cases r with
      | failed m =>
        have hm : m ≠ "database error" := by simpa [Spec.IsDbError] using hr
        simp only [if_neg hm]
      | _ => rfl
    · simp only [if_true]
      obtain ⟨v, e1, e2⟩ := ih hn' h2 h3.db.left
      exact ⟨v, e1, e2.trans h3⟩

theorem Sys.runAgain_like {s u u' : Sys} {ops : List (Op × List (H256 → Bool))} {rs : List Ret} (h : s.Like u) (hrun : u.run K (ops.map Prod.fst) = .ok (u', rs)) :
    ∃ s', s.runAgain K ops = .ok (s', rs) ∧ s'.Like u' := by
  induction ops generalizing s u rs with
  | nil => cases hrun; exact ⟨s, rfl, h⟩
  | cons x ops ih =>
    obtain ⟨op, bads⟩ := x
    obtain ⟨u1, r, rs', e1, e2, rfl⟩ := Sys.run_cons hrun
    have hs := h.step (K := K) op
    rw [e1] at hs
    rcases hs1 : s.step K op with e | ⟨s1, r1⟩ <;> rw [hs1] at hs
    · exact hs.elim
    obtain ⟨hl, rfl⟩ := hs
    obtain ⟨v, e3, e4⟩ := Sys.again_like h.db.left hs1 hl.db.left bads
    obtain ⟨s', e5, e6⟩ := ih (e4.trans hl) e2
    refine ⟨s', ?_, e6⟩
    unfold Sys.runAgain
    rw [e3]
    simp only [e5]

end Verif.Pmt
