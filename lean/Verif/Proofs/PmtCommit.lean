import Verif.Proofs.PmtDelete
/-!
Writing nodes, proofs and commits on nodes standing for trees.
-/

set_option autoImplicit false

namespace Verif.Pmt

open PT

variable {K : Keccak} {S : Bytes → Prop} {db : Db}

/-- How a node is referred to by its parent. -/
def encodedOf (K : Keccak) (b : Bytes) : Encoded := if b.length < 32 then .inline b else .hash (K b)

theorem encodedOf_item (b : Bytes) : (encodedOf K b).item = itemOf K b := by
  unfold encodedOf itemOf
  split <;> rfl

/-- An entry written is the encoding of a tree, under its hash. -/
def EntryOk (K : Keccak) (e : H256 × Bytes) : Prop := e.1 = K e.2 ∧ ∃ s, Ok s (2 ^ 60) ∧ e.2 = enc K s

/-- Stored before, or written. -/
def Plus (S : Bytes → Prop) (w : Written) (b : Bytes) : Prop := S b ∨ b ∈ w.map Prod.snd

theorem plus_append_left {w w' : Written} {b : Bytes} (h : Plus S w b) : Plus S (w ++ w') b := by
  rcases h with h | h
  · exact .inl h
  · exact .inr (by simp only [List.map_append, List.mem_append]; exact .inl h)

theorem plus_append_right {w w' : Written} {b : Bytes} (h : Plus S w' b) : Plus S (w ++ w') b := by
  rcases h with h | h
  · exact .inl h
  · exact .inr (by simp only [List.map_append, List.mem_append]; exact .inr h)

theorem writeData_eq (b : Bytes) (w : Written) : ∃ w', writeData K b w = (encodedOf K b, w ++ w') ∧
    (32 ≤ b.length → b ∈ w'.map Prod.snd) ∧ ∀ e ∈ w', e = (K b, b) := by
  unfold writeData encodedOf
  split
  · exact ⟨[], by simp, fun h => by omega, by simp⟩
  · exact ⟨[(K b, b)], rfl, fun _ => by simp, by simp⟩

/-- The outcome of writing a node. -/
def Wrote (K : Keccak) (S : Bytes → Prop) (t : PT) (w : Written) : Prop :=
  (∀ e ∈ w, EntryOk K e) ∧ Below K (Plus S w) t

theorem writeChildren_rep {f : Fin 16 → Res (Encoded × Written)} {ts : Nib → PT}
    (h : ∀ i, ∃ w, f i = .ok (encodedOf K (enc K (ts i)), w) ∧ Wrote K S (ts i) w ∧ (32 ≤ (enc K (ts i)).length → Plus S w (enc K (ts i))))
    (l : List (Fin 16)) : ∃ w, writeChildren f l = .ok (l.map (fun i => itemOf K (enc K (ts i))), w) ∧ (∀ e ∈ w, EntryOk K e) ∧
      ∀ i ∈ l, Below K (Plus S w) (ts i) ∧ (32 ≤ (enc K (ts i)).length → Plus S w (enc K (ts i))) := by
  induction l with
  | nil => exact ⟨[], rfl, by simp, by simp⟩
  | cons i t ih =>
    obtain ⟨w, h1, h2, h3⟩ := h i
    obtain ⟨ws, g1, g2, g3⟩ := ih
    refine ⟨w ++ ws, ?_, ?_, ?_⟩
    · unfold writeChildren
      rw [h1]
      simp only [Res.ok_bind, g1, encodedOf_item]
      rfl
    · intro e he
      rcases List.mem_append.1 he with he | he
      · exact h2.1 e he
      · exact g2 e he
    · intro j hj
      rcases List.mem_cons.1 hj with rfl | hj
      · exact ⟨h2.2.mono (fun b hb => plus_append_left hb), fun hl => plus_append_left (h3 hl)⟩
      · exact ⟨(g3 j hj).1.mono (fun b hb => plus_append_right hb), fun hl => plus_append_right ((g3 j hj).2 hl)⟩

theorem Wrote.data {t : PT} {w : Written} (hok : Ok t (2 ^ 60)) (h : Wrote K S t w) : ∃ w', writeData K (enc K t) w
    = (encodedOf K (enc K t), w') ∧ Wrote K S t w' ∧ (32 ≤ (enc K t).length → Plus S w' (enc K t)) := by
  obtain ⟨w', h1, h2, h3⟩ := writeData_eq (K := K) (enc K t) w
  refine ⟨w ++ w', h1, ⟨?_, h.2.mono (fun b hb => plus_append_left hb)⟩, fun hl => plus_append_right (.inr (h2 hl))⟩
  intro e he
  rcases List.mem_append.1 he with he | he
  · exact h.1 e he
  · rw [h3 e he]
    exact ⟨rfl, t, hok, rfl⟩

/-- `encode_raw` on a node other than a hash node. -/
theorem encodeRaw_rep {n : Node} {t : PT} (h : Rep K S n t) (hok : Ok t (2 ^ 60)) (hn : ¬ IsHash n)
    (ih : ∀ (m : Node) (s : PT), sizeOf m < sizeOf n ∨ True → Rep K S m s → Ok s (2 ^ 60) →
      (∃ p, n = .ext p m) ∨ (∃ cs v i, n = .branch cs v ∧ m = cs i) →
      ∃ w, writeNode K m = .ok (encodedOf K (enc K s), w) ∧ Wrote K S s w ∧ (32 ≤ (enc K s).length → Plus S w (enc K s))) :
    ∃ w, encodeRaw K n = .ok (enc K t, w) ∧ Wrote K S t w := by
  cases h with
  | hash => exact absurd trivial hn
  | empty => exact ⟨[], rfl, by simp, trivial⟩
  | leaf k v =>
    refine ⟨[], ?_, by simp, trivial⟩
    simp only [encodeRaw, encodeCompact_leaf, Res.ok_bind]
    rfl
  | ext p h =>
    rename_i m s
    obtain ⟨w, h1, h2, h3⟩ := ih m s (.inr trivial) h (ok_sub hok) (.inl ⟨_, rfl⟩)
    refine ⟨w, ?_, h2.1, h3, h2.2⟩
    simp only [encodeRaw, encodeCompact_ext hok.1, Res.ok_bind, h1, encodedOf_item]
    rfl
  | branch v h =>
    rename_i cs ts
    obtain ⟨w, h1, h2, h3⟩ := writeChildren_rep (K := K) (S := S) (f := fun i => writeNode K (cs i)) (ts := ts)
      (fun i => ih (cs i) (ts i) (.inr trivial) (h i) (ok_child hok i) (.inr ⟨cs, v, i, rfl, rfl⟩)) (List.finRange 16)
    refine ⟨w, ?_, h2, fun i => ⟨(h3 i (List.mem_finRange i)).2, (h3 i (List.mem_finRange i)).1⟩⟩
    simp only [encodeRaw, h1, Res.ok_bind]
    rfl

/-- `write_node` is `encode_raw` and then writing the data, except on hash nodes. -/
theorem writeNode_eq (n : Node) (hn : ¬ IsHash n) : writeNode K n = match encodeRaw K n with
    | .error e => .error e
    | .ok (b, w) => .ok (writeData K b w) := by
  cases n with
  | hash => exact absurd trivial hn
  | empty => rfl
  | leaf k v =>
    simp only [writeNode, encodeRaw]
    rcases Nibbles.encodeCompact k with e | c <;> rfl
  | ext p m =>
    simp only [writeNode, encodeRaw]
    rcases Nibbles.encodeCompact p with e | c
    · rfl
    · simp only [Res.ok_bind]
      rcases writeNode K m with e | ⟨x, w⟩ <;> rfl
  | branch cs v =>
    simp only [writeNode, encodeRaw]
    rcases writeChildren (fun i => writeNode K (cs i)) (List.finRange 16) with e | ⟨x, w⟩ <;> rfl

theorem writeNode_rep {n : Node} {t : PT} (h : Rep K S n t) (hok : Ok t (2 ^ 60)) :
    ∃ w, writeNode K n = .ok (encodedOf K (enc K t), w) ∧ Wrote K S t w ∧ (32 ≤ (enc K t).length → Plus S w (enc K t)) := by
  have fin : ∀ {n : Node} {t : PT}, Ok t (2 ^ 60) → ¬ IsHash n → (∃ w, encodeRaw K n = .ok (enc K t, w) ∧ Wrote K S t w) →
      ∃ w, writeNode K n = .ok (encodedOf K (enc K t), w) ∧ Wrote K S t w ∧ (32 ≤ (enc K t).length → Plus S w (enc K t)) := by
    rintro n t hok hn ⟨w, h1, h2⟩
    obtain ⟨w', g1, g2, g3⟩ := h2.data hok
    refine ⟨w', ?_, g2, g3⟩
    rw [writeNode_eq n hn, h1]
    simp only [g1]
  induction h with
  | hash hl h =>
    rename_i t
    refine ⟨[], ?_, ⟨by simp, h.2.mono (fun b hb => .inl hb)⟩, fun _ => .inl h.1⟩
    unfold encodedOf
    rw [if_neg (by omega)]
    rfl
  | empty => exact fin hok id (encodeRaw_rep .empty hok id (fun m s _ _ _ hm => by rcases hm with ⟨_, hm⟩ | ⟨_, _, _, hm, _⟩ <;> cases hm))
  | leaf k v =>
    exact fin hok id (encodeRaw_rep (.leaf k v) hok id (fun m s _ _ _ hm => by rcases hm with ⟨_, hm⟩ | ⟨_, _, _, hm, _⟩ <;> cases hm))
  | ext p h ih =>
    rename_i m s
    refine fin hok id ?_
    obtain ⟨w, h1, h2, h3⟩ := ih (ok_sub hok)
    refine ⟨w, ?_, h2.1, h3, h2.2⟩
    simp only [encodeRaw, encodeCompact_ext hok.1, Res.ok_bind, h1, encodedOf_item]
    rfl
  | branch v h ih =>
    rename_i cs ts
    refine fin hok id ?_
    obtain ⟨w, h1, h2, h3⟩ := writeChildren_rep (K := K) (S := S) (f := fun i => writeNode K (cs i)) (ts := ts)
      (fun i => ih i (ok_child hok i)) (List.finRange 16)
    refine ⟨w, ?_, h2, fun i => ⟨(h3 i (List.mem_finRange i)).2, (h3 i (List.mem_finRange i)).1⟩⟩
    simp only [encodeRaw, h1, Res.ok_bind]
    rfl

theorem encodeRaw_ok {n : Node} {t : PT} (h : Rep K S n t) (hok : Ok t (2 ^ 60)) (hn : ¬ IsHash n) :
    ∃ w, encodeRaw K n = .ok (enc K t, w) ∧ Wrote K S t w :=
  encodeRaw_rep h hok hn (fun _ _ _ h hok _ => writeNode_rep h hok)

/-! ### The database -/

/-- The database holds, under their hashes, byte strings that were inserted, and none is missing. -/
structure DbInv (K : Keccak) (db : Db) : Prop where
  archive : db.light = false
  sound : ∀ h b, db.get h = some b → h = K b ∧ b ∈ db.log
  complete : ∀ b ∈ db.log, (db.get (K b)).isSome
  encs : ∀ b ∈ db.log, ∃ s, Ok s (2 ^ 60) ∧ b = enc K s

/-- No two different byte strings of the list have the same hash. -/
def NoClash (K : Keccak) (l : List Bytes) : Prop := ∀ a ∈ l, ∀ b ∈ l, K a = K b → a = b

/-- What has been inserted. -/
def InLog (db : Db) (b : Bytes) : Prop := b ∈ db.log

theorem DbInv.reads (h : DbInv K db) (hc : NoClash K db.log) : Reads K (InLog db) db := by
  intro b hb
  obtain ⟨c, hc'⟩ := Option.isSome_iff_exists.1 (h.complete b hb)
  obtain ⟨h1, h2⟩ := h.sound _ _ hc'
  rw [hc', hc b hb c h2 h1]

theorem DbInv.new : DbInv K (Db.new false) := by
  refine ⟨rfl, ?_, ?_, ?_⟩
  · intro h b hb; cases hb
  · intro b hb; cases hb
  · intro b hb; cases hb

theorem DbInv.insert (h : DbInv K db) {e : H256 × Bytes} (he : EntryOk K e) : DbInv K (db.insert e.1 e.2) := by
  have hget : ∀ x, (db.insert e.1 e.2).get x = if x = e.1 then some e.2 else db.get x := fun x => FMap.get_set _ _ _ _
  refine ⟨h.archive, ?_, ?_, ?_⟩
  · intro x b hb
    rw [hget] at hb
    split at hb
    · next hx => cases hb; exact ⟨hx.trans he.1, by simp [Db.insert]⟩
    · have := h.sound x b hb
      exact ⟨this.1, by simp [Db.insert, this.2]⟩
  · intro b hb
    rw [hget]
    split
    · rfl
    · next hx =>
      simp only [Db.insert, List.mem_cons] at hb
      rcases hb with rfl | hb
      · exact absurd he.1.symm hx
      · exact h.complete b hb
  · intro b hb
    simp only [Db.insert, List.mem_cons] at hb
    rcases hb with rfl | hb
    · exact he.2
    · exact h.encs b hb

theorem insertBatch_log (l : List (H256 × Bytes)) (b : Bytes) : b ∈ (db.insertBatch l).log ↔ b ∈ db.log ∨ b ∈ l.map Prod.snd := by
  unfold Db.insertBatch
  induction l generalizing db with
  | nil => simp
  | cons e t ih =>
    rw [List.foldl_cons, ih]
    simp only [Db.insert, List.mem_cons, List.map_cons]
    constructor
    · rintro ((rfl | h) | h)
      · exact .inr (.inl rfl)
      · exact .inl h
      · exact .inr (.inr h)
    · rintro (h | rfl | h)
      · exact .inl (.inr h)
      · exact .inl (.inl rfl)
      · exact .inr h

theorem DbInv.insertBatch (h : DbInv K db) {l : List (H256 × Bytes)} (hl : ∀ e ∈ l, EntryOk K e) : DbInv K (db.insertBatch l) := by
  unfold Db.insertBatch
  induction l generalizing db with
  | nil => exact h
  | cons e t ih =>
    rw [List.foldl_cons]
    exact ih (h.insert (hl e (by simp))) (fun x hx => hl x (by simp [hx]))

theorem removeBatch_archive (h : db.light = false) (l : List H256) : db.removeBatch l = db := by
  unfold Db.removeBatch
  induction l with
  | nil => rfl
  | cons x t ih =>
    rw [List.foldl_cons]
    have : db.remove x = db := by simp [Db.remove, h]
    rw [this, ih]

/-- Moving the entries of a hash map to the database is the same as making the insertions one by one. -/
theorem insertBatch_cache (w : List (H256 × Bytes)) (h : H256) :
    (db.insertBatch ((FMap.empty : FMap H256 Bytes).extend w).entries).get h = (db.insertBatch w).get h := by
  have get_batch : ∀ (l : List (H256 × Bytes)) (db : Db), (db.insertBatch l).get h = ((db.storage).extend l).get h := by
    intro l
    unfold Db.insertBatch FMap.extend
    induction l with
    | nil => intro db; rfl
    | cons e t ih => intro db; rw [List.foldl_cons, List.foldl_cons, ih]; rfl
  rw [get_batch, get_batch]
  have ext_get : ∀ (l : List (H256 × Bytes)) (m : FMap H256 Bytes), (m.extend l).get h
      = match FMap.lookupL l.reverse h with | some v => some v | none => m.get h := by
    intro l
    unfold FMap.extend
    induction l with
    | nil => intro m; rfl
    | cons e t ih =>
      intro m
      rw [List.foldl_cons, ih, List.reverse_cons, FMap.get_set]
      have app : ∀ (a : List (H256 × Bytes)), FMap.lookupL (a ++ [e]) h
          = match FMap.lookupL a h with | some v => some v | none => if e.1 = h then some e.2 else none := by
        intro a
        induction a with
        | nil => rfl
        | cons x a iha =>
          simp only [List.cons_append, FMap.lookupL, iha]
          split <;> rfl
      rw [app]
      cases FMap.lookupL t.reverse h with
      | some v => rfl
      | none =>
        simp only
        by_cases he : e.1 = h
        · simp [he]
        · simp [he, Ne.symm he]
  have nd : ((FMap.empty : FMap H256 Bytes).extend w).NodupKeys := FMap.nodupKeys_empty.extend w
  rw [FMap.get_extend _ _ nd, ext_get w, ext_get w]
  cases FMap.lookupL w.reverse h <;> rfl

end Verif.Pmt
