import Verif.Pmt.Order
import Verif.Proofs.PmtCommit
/-! The operations on a trie read the database by `get` and `len` only; the order of the entries does not matter. -/

set_option autoImplicit false

namespace Verif.Pmt

theorem nodup_of_keys {A B : Type} {l : List (A × B)} (h : (l.map Prod.fst).Nodup) : l.Nodup := by
  induction l with
  | nil => exact List.nodup_nil
  | cons e t ih =>
    rw [List.map_cons, List.nodup_cons] at h
    exact List.nodup_cons.2 ⟨fun he => h.1 (List.mem_map.2 ⟨e, he, rfl⟩), ih h.2⟩

/-- Two maps without repeated keys and with the same answers have the same entries. -/
theorem FMap.perm_of_get {A B : Type} [DecidableEq A] {m m' : FMap A B} (h : m.NodupKeys) (h' : m'.NodupKeys) (hg : ∀ k, m.get k = m'.get k) :
    m.entries.Perm m'.entries := by
  refine (List.perm_ext_iff_of_nodup (nodup_of_keys h) (nodup_of_keys h')).2 ?_
  rintro ⟨k, x⟩
  rw [FMap.mem_iff_get h, FMap.mem_iff_get h', hg]

/-- Two databases that cannot be told apart. -/
structure Db.Alike (a b : Db) : Prop where
  light : a.light = b.light
  get : ∀ h, a.get h = b.get h
  left : a.storage.NodupKeys
  right : b.storage.NodupKeys

variable {a b : Db}

theorem Db.Alike.len (h : Db.Alike a b) : a.len = b.len := (FMap.perm_of_get h.left h.right h.get).length_eq

theorem Db.Alike.new (light : Bool) : Db.Alike (Db.new light) (Db.new light) := ⟨rfl, fun _ => rfl, FMap.nodupKeys_empty, FMap.nodupKeys_empty⟩

theorem Db.Alike.recover (h : Db.Alike a b) : recover a = recover b := by
  funext x; unfold Pmt.recover; rw [h.get]

theorem Db.Alike.fetch (h : Db.Alike a b) : fetch a = fetch b := by
  funext x; unfold Pmt.fetch; rw [h.recover]

theorem Db.Alike.hops (h : Db.Alike a b) : hops a = hops b := by
  funext x; unfold Pmt.hops; rw [h.len]

theorem Db.Alike.getAt (h : Db.Alike a b) (fuel : Nat) : getAt a fuel = getAt b fuel := by
  induction fuel with
  | zero => rfl
  | succ fuel ih => unfold Pmt.getAt; simp only [h.fetch, ih]

theorem Db.Alike.insertAt (h : Db.Alike a b) (value : Bytes) (fuel : Nat) : insertAt a value fuel = insertAt b value fuel := by
  induction fuel with
  | zero => rfl
  | succ fuel ih => unfold Pmt.insertAt; simp only [h.fetch, ih]

theorem Db.Alike.degenerateExtAt (h : Db.Alike a b) (fuel : Nat) : degenerateExtAt a fuel = degenerateExtAt b fuel := by
  induction fuel with
  | zero => rfl
  | succ fuel ih => unfold Pmt.degenerateExtAt; simp only [h.fetch, ih]

theorem Db.Alike.afterDelete (h : Db.Alike a b) : afterDelete a = afterDelete b := by
  have hd : degenerate a = degenerate b := by
    funext n; unfold Pmt.degenerate; simp only [h.degenerateExtAt, h.len]
  funext x; unfold Pmt.afterDelete; rw [hd]

theorem Db.Alike.deleteStep (h : Db.Alike a b) (hop : H256 → Nibbles → Out (Node × Bool)) (n : Node) (p : Nibbles) :
    deleteStep a hop n p = deleteStep b hop n p := by
  induction n generalizing p with
  | empty => rfl
  | leaf k v => rfl
  | hash x => simp only [Pmt.deleteStep, h.afterDelete]
  | ext pre sub ih => simp only [Pmt.deleteStep, h.afterDelete, ih]
  | branch ch v ih =>
    cases p with
    | nil => rfl
    | cons x t => simp only [Pmt.deleteStep, h.afterDelete, ih]

theorem Db.Alike.deleteAt (h : Db.Alike a b) (fuel : Nat) : deleteAt a fuel = deleteAt b fuel := by
  induction fuel with
  | zero => funext n p; exact h.deleteStep _ n p
  | succ fuel ih => funext n p; unfold Pmt.deleteAt; rw [h.deleteStep]; simp only [h.fetch, ih]

theorem Db.Alike.pathAt (h : Db.Alike a b) (fuel : Nat) : pathAt a fuel = pathAt b fuel := by
  induction fuel with
  | zero => rfl
  | succ fuel ih => unfold Pmt.pathAt; simp only [h.fetch, ih]

theorem Db.Alike.trieGet (h : Db.Alike a b) (t : Trie) (key : Bytes) : t.get a key = t.get b key := by
  unfold Trie.get; rw [h.hops, h.getAt]

theorem Db.Alike.trieContains (h : Db.Alike a b) (t : Trie) (key : Bytes) : t.contains a key = t.contains b key := by
  unfold Trie.contains; rw [h.hops, h.getAt]

theorem Db.Alike.trieInsert (h : Db.Alike a b) (t : Trie) (key value : Bytes) : t.insert a key value = t.insert b key value := by
  unfold Trie.insert; rw [h.hops, h.insertAt]

theorem Db.Alike.trieRemove (h : Db.Alike a b) (t : Trie) (key : Bytes) : t.remove a key = t.remove b key := by
  unfold Trie.remove; rw [h.hops, h.deleteAt]

theorem Db.Alike.trieProof (h : Db.Alike a b) (K : Keccak) (t : Trie) (key : Bytes) : t.getProof K a key = t.getProof K b key := by
  unfold Trie.getProof; rw [h.hops, h.pathAt]

theorem Db.Alike.round (h : Db.Alike a b) (it : Iter) : it.round a = it.round b := by
  unfold Iter.round; rw [h.recover]

theorem Db.Alike.next (h : Db.Alike a b) (fuel : Nat) (it : Iter) : Iter.next a fuel it = Iter.next b fuel it := by
  induction fuel generalizing it with
  | zero => rfl
  | succ fuel ih => unfold Iter.next; simp only [h.round, ih]

theorem Db.Alike.collect (h : Db.Alike a b) (fuel calls : Nat) (it : Iter) : Iter.collect a fuel calls it = Iter.collect b fuel calls it := by
  induction calls generalizing it with
  | zero => rfl
  | succ calls ih => unfold Iter.collect; simp only [h.next, ih]

/-! ### Writing -/

theorem insertBatch_storage (l : List (H256 × Bytes)) (db : Db) : (db.insertBatch l).storage = db.storage.extend l ∧ (db.insertBatch l).light = db.light := by
  unfold Db.insertBatch FMap.extend
  induction l generalizing db with
  | nil => exact ⟨rfl, rfl⟩
  | cons e t ih => rw [List.foldl_cons, List.foldl_cons]; exact ih (db.insert e.1 e.2)

theorem removeBatch_storage (l : List H256) (db : Db) : (db.removeBatch l).light = db.light ∧ (db.storage.NodupKeys → (db.removeBatch l).storage.NodupKeys) ∧
    ∀ h, (db.removeBatch l).get h = if db.light = true ∧ h ∈ l then none else db.get h := by
  unfold Db.removeBatch
  induction l generalizing db with
  | nil => exact ⟨rfl, id, fun h => by simp⟩
  | cons x t ih =>
    rw [List.foldl_cons]
    obtain ⟨i1, i2, i3⟩ := ih (db.remove x)
    have hl : (db.remove x).light = db.light := by unfold Db.remove; split <;> rfl
    refine ⟨i1.trans hl, ?_, ?_⟩
    · intro hn
      apply i2
      unfold Db.remove
      split
      · exact hn.erase x
      · exact hn
    · intro h
      rw [i3, hl]
      have : (db.remove x).get h = if db.light = true ∧ h = x then none else db.get h := by
        unfold Db.remove Db.get
        split
        · rename_i hb; simp [hb]
        · rename_i hb; simp [hb]
      rw [this]
      by_cases hb : db.light = true <;> by_cases h1 : h = x <;> by_cases h2 : h ∈ t <;> simp [hb, h1, h2]

theorem Db.Alike.insertBatch (h : Db.Alike a b) {o : Order} (ho : o.Ok) (w : List (H256 × Bytes)) :
    Db.Alike (a.insertBatch (o.inserted (FMap.empty.extend w))) (b.insertBatch w) := by
  obtain ⟨a1, a2⟩ := insertBatch_storage (o.inserted (FMap.empty.extend w)) a
  obtain ⟨b1, b2⟩ := insertBatch_storage w b
  refine ⟨by rw [a2, b2, h.light], ?_, by rw [a1]; exact h.left.extend _, by rw [b1]; exact h.right.extend _⟩
  intro x
  have hnd : ((FMap.empty : FMap H256 Bytes).extend w).NodupKeys := FMap.nodupKeys_empty.extend w
  have hp := ho.inserted ((FMap.empty : FMap H256 Bytes).extend w)
  have hnd' : (o.inserted ((FMap.empty : FMap H256 Bytes).extend w)).map Prod.fst |>.Nodup := (hp.map Prod.fst).nodup_iff.2 hnd
  rw [← insertBatch_cache w x]
  unfold Db.get
  rw [a1, (insertBatch_storage _ b).1, FMap.get_extend _ _ hnd', FMap.get_extend _ _ hnd]
  have e1 : (⟨o.inserted ((FMap.empty : FMap H256 Bytes).extend w)⟩ : FMap H256 Bytes).get x = ((FMap.empty : FMap H256 Bytes).extend w).get x := by
    apply Option.ext
    intro y
    rw [← FMap.mem_iff_get (m := ⟨o.inserted _⟩) hnd', ← FMap.mem_iff_get hnd]
    exact hp.mem_iff
  rw [e1]
  congr 1
  exact h.get x

theorem Db.Alike.removeBatch (h : Db.Alike a b) {l l' : List H256} (hl : ∀ x, x ∈ l ↔ x ∈ l') : Db.Alike (a.removeBatch l) (b.removeBatch l') := by
  obtain ⟨a1, a2, a3⟩ := removeBatch_storage l a
  obtain ⟨b1, b2, b3⟩ := removeBatch_storage l' b
  refine ⟨by rw [a1, b1, h.light], ?_, a2 h.left, b2 h.right⟩
  intro x
  rw [a3, b3, h.light, h.get]
  simp only [hl]

/-! ### Programs -/

/-- Two systems that cannot be told apart. -/
structure Sys.Alike (a b : Sys) : Prop where
  db : Db.Alike a.db b.db
  tries : a.tries = b.tries
  roots : a.roots = b.roots

/-- The same error, or the same answer and systems that cannot be told apart. -/
def Sys.SameOut {R : Type} (x y : Res (Sys × R)) : Prop :=
  match x, y with
  | .ok (a, r), .ok (b, r') => Sys.Alike a b ∧ r = r'
  | .error e, .error e' => e = e'
  | _, _ => False

theorem Db.Alike.commitIn (h : Db.Alike a b) {o : Order} (ho : o.Ok) (K : Keccak) (t : Trie) :
    (∃ e, t.commitIn K o a = .error e ∧ t.commit K b = .error e) ∨
    ∃ t' a' b' r, t.commitIn K o a = .ok (t', a', r) ∧ t.commit K b = .ok (t', b', r) ∧ Db.Alike a' b' := by
  unfold Trie.commitIn Trie.commit
  cases hw : t.writeRoot K with
  | error e => exact .inl ⟨e, rfl, rfl⟩
  | ok x =>
    obtain ⟨t1, hh⟩ := x
    have h1 := (h.insertBatch ho t1.cache).removeBatch (ho.removed (t1.passingKeys.filter (fun k => !(t1.genKeys.contains k))))
    simp only [bind, Except.bind]
    rw [h1.recover]
    generalize Pmt.recover _ hh = r
    rcases r with (m | m) | (_ | n)
    · exact .inr ⟨_, _, _, _, rfl, rfl, h1⟩
    · exact .inl ⟨_, rfl, rfl⟩
    · exact .inl ⟨_, rfl, rfl⟩
    · exact .inr ⟨_, _, _, _, rfl, rfl, h1⟩

theorem Sys.Alike.stepIn {a b : Sys} (h : Sys.Alike a b) {o : Order} (ho : o.Ok) (K : Keccak) (op : Op) :
    Sys.SameOut (a.stepIn K o op) (b.step K op) := by
  obtain ⟨da, ta, ra⟩ := a
  obtain ⟨db, tb, rb⟩ := b
  obtain ⟨hd, rfl, rfl⟩ := h
  have hd : Db.Alike da db := hd
  cases op with
  | new => exact ⟨⟨hd, rfl, rfl⟩, rfl⟩
  | openAt j =>
    simp only [Sys.stepIn, Sys.step]
    cases ra[j]? with
    | none => exact ⟨⟨hd, rfl, rfl⟩, rfl⟩
    | some x => exact ⟨⟨hd, rfl, rfl⟩, rfl⟩
  | insert i key value =>
    simp only [Sys.stepIn, Sys.step]
    cases ta[i]? with
    | none => exact ⟨⟨hd, rfl, rfl⟩, rfl⟩
    | some t =>
      simp only [Sys.insert, hd.trieInsert]
      rcases t.insert db key value with e | ⟨t', _ | m⟩
      · rfl
      · exact ⟨⟨hd, rfl, rfl⟩, rfl⟩
      · exact ⟨⟨hd, rfl, rfl⟩, rfl⟩
  | remove i key =>
    simp only [Sys.stepIn, Sys.step]
    cases ta[i]? with
    | none => exact ⟨⟨hd, rfl, rfl⟩, rfl⟩
    | some t =>
      simp only [Sys.remove, hd.trieRemove]
      rcases t.remove db key with e | ⟨t', m | x⟩
      · rfl
      · exact ⟨⟨hd, rfl, rfl⟩, rfl⟩
      · exact ⟨⟨hd, rfl, rfl⟩, rfl⟩
  | proof i key =>
    simp only [Sys.stepIn, Sys.step]
    cases ta[i]? with
    | none => exact ⟨⟨hd, rfl, rfl⟩, rfl⟩
    | some t =>
      simp only [Sys.proof, hd.trieProof]
      rcases t.getProof K db key with e | ⟨t', m | x⟩
      · rfl
      · exact ⟨⟨hd, rfl, rfl⟩, rfl⟩
      · exact ⟨⟨hd, rfl, rfl⟩, rfl⟩
  | commit i =>
    simp only [Sys.stepIn, Sys.step]
    cases ta[i]? with
    | none => exact ⟨⟨hd, rfl, rfl⟩, rfl⟩
    | some t =>
      simp only [Sys.commit]
      rcases hd.commitIn ho K t with ⟨e, e1, e2⟩ | ⟨t', a', b', r, e1, e2, e3⟩
      · rw [e1, e2]; rfl
      · rw [e1, e2]
        cases r with
        | error m => exact ⟨⟨e3, rfl, rfl⟩, rfl⟩
        | ok x => exact ⟨⟨e3, rfl, rfl⟩, rfl⟩

theorem Sys.Alike.runIn {a b : Sys} (h : Sys.Alike a b) (K : Keccak) (ops : List (Order × Op)) (ho : ∀ x ∈ ops, x.1.Ok) :
    Sys.SameOut (a.runIn K ops) (b.run K (ops.map Prod.snd)) := by
  induction ops generalizing a b with
  | nil => exact ⟨h, rfl⟩
  | cons x ops ih =>
    obtain ⟨o, op⟩ := x
    have hs := h.stepIn (ho (o, op) (by simp)) K op
    simp only [Sys.runIn, List.map_cons, Sys.run]
    generalize a.stepIn K o op = p at hs ⊢
    generalize b.step K op = q at hs ⊢
    rcases p with e | ⟨a', r⟩ <;> rcases q with e' | ⟨b', r'⟩
    · exact hs
    · exact hs.elim
    · exact hs.elim
    · obtain ⟨h', rfl⟩ := hs
      have hr := ih h' (fun x hx => ho x (by simp [hx]))
      simp only
      generalize a'.runIn K ops = p at hr ⊢
      generalize b'.run K (ops.map Prod.snd) = q at hr ⊢
      rcases p with e | ⟨a2, rs⟩ <;> rcases q with e' | ⟨b2, rs'⟩
      · exact hr
      · exact hr.elim
      · exact hr.elim
      · obtain ⟨h2, rfl⟩ := hr
        exact ⟨h2, rfl⟩

end Verif.Pmt
