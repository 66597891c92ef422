import Verif.Proofs.PmtProof
/-!
Databases from which nodes are missing: what a failed operation and a commit after it leave readable.
-/

set_option autoImplicit false

namespace Verif.Pmt

open PT

variable {K : Keccak} {S : Bytes → Prop} {db d d' : Db}

/-- The long trees below the root for which the node has more than the hash belong to `W`. -/
def Saved (K : Keccak) (W : Bytes → Prop) : Node → PT → Prop
  | .ext _ m, .ext _ s => (¬ IsHash m → 32 ≤ (enc K s).length → W (enc K s)) ∧ Saved K W m s
  | .branch ns _, .branch cs _ => ∀ i, (¬ IsHash (ns i) → 32 ≤ (enc K (cs i)).length → W (enc K (cs i))) ∧ Saved K W (ns i) (cs i)
  | _, _ => True

theorem Saved.mono {W W' : Bytes → Prop} (hW : ∀ b, W b → W' b) {n : Node} {t : PT} (h : Saved K W n t) : Saved K W' n t := by
  induction t generalizing n with
  | empty => cases n <;> exact trivial
  | leaf k v => cases n <;> exact trivial
  | ext q s ih =>
    cases n with
    | ext p m => exact ⟨fun h1 h2 => hW _ (h.1 h1 h2), ih h.2⟩
    | _ => exact trivial
  | branch cs v ih =>
    cases n with
    | branch ns w => exact fun i => ⟨fun h1 h2 => hW _ ((h i).1 h1 h2), ih i (h i).2⟩
    | _ => exact trivial

theorem saved_hash {W : Bytes → Prop} (h : H256) (t : PT) : Saved K W (.hash h) t := by
  cases t <;> exact trivial

theorem saved_top {W : Bytes → Prop} (t : PT) : Saved K W (top K t) t := by
  have child : ∀ s : PT, Saved K W (top K s) s →
      (¬ IsHash (if (enc K s).length < 32 then top K s else .hash (K (enc K s))) → 32 ≤ (enc K s).length → W (enc K s)) ∧
      Saved K W (if (enc K s).length < 32 then top K s else .hash (K (enc K s))) s := by
    intro s ih
    by_cases hl : (enc K s).length < 32
    · rw [if_pos hl]
      exact ⟨fun _ h => by omega, ih⟩
    · rw [if_neg hl]
      exact ⟨fun h => absurd trivial h, saved_hash _ _⟩
  induction t with
  | empty => exact trivial
  | leaf k v => exact trivial
  | ext q s ih => exact child s ih
  | branch cs v ih => exact fun i => child (cs i) (ih i)

/-- What is written. -/
def InW (w : Written) (b : Bytes) : Prop := b ∈ w.map Prod.snd

theorem writeChildren_saved {f : Fin 16 → Res (Encoded × Written)} {ns : Fin 16 → Node} {ts : Nib → PT}
    (h : ∀ i, ∃ w, f i = .ok (encodedOf K (enc K (ts i)), w) ∧ Saved K (InW w) (ns i) (ts i) ∧
      (¬ IsHash (ns i) → 32 ≤ (enc K (ts i)).length → InW w (enc K (ts i))))
    (l : List (Fin 16)) : ∃ w, writeChildren f l = .ok (l.map (fun i => itemOf K (enc K (ts i))), w) ∧
      ∀ i ∈ l, Saved K (InW w) (ns i) (ts i) ∧ (¬ IsHash (ns i) → 32 ≤ (enc K (ts i)).length → InW w (enc K (ts i))) := by
  induction l with
  | nil => exact ⟨[], rfl, by simp⟩
  | cons i t ih =>
    obtain ⟨w, h1, h2, h3⟩ := h i
    obtain ⟨ws, g1, g2⟩ := ih
    have l1 : ∀ b, InW w b → InW (w ++ ws) b := fun b hb => by simp only [InW, List.map_append, List.mem_append]; exact .inl hb
    have l2 : ∀ b, InW ws b → InW (w ++ ws) b := fun b hb => by simp only [InW, List.map_append, List.mem_append]; exact .inr hb
    refine ⟨w ++ ws, ?_, ?_⟩
    · unfold writeChildren
      rw [h1]
      simp only [Res.ok_bind, g1, encodedOf_item]
      rfl
    · intro j hj
      rcases List.mem_cons.1 hj with rfl | hj
      · exact ⟨h2.mono l1, fun a b => l1 _ (h3 a b)⟩
      · exact ⟨(g2 j hj).1.mono l2, fun a b => l2 _ ((g2 j hj).2 a b)⟩

/-- Writing a node writes all its long parts. -/
theorem writeNode_saved {n : Node} {t : PT} (h : Rep K S n t) (hok : Ok t (2 ^ 60)) :
    ∃ w, writeNode K n = .ok (encodedOf K (enc K t), w) ∧ Saved K (InW w) n t ∧ (¬ IsHash n → 32 ≤ (enc K t).length → InW w (enc K t)) := by
  have fin : ∀ {n : Node} {t : PT}, ¬ IsHash n → (∃ w, encodeRaw K n = .ok (enc K t, w) ∧ Saved K (InW w) n t) →
      ∃ w, writeNode K n = .ok (encodedOf K (enc K t), w) ∧ Saved K (InW w) n t ∧ (¬ IsHash n → 32 ≤ (enc K t).length → InW w (enc K t)) := by
    rintro n t hn ⟨w, h1, h2⟩
    obtain ⟨w', g1, g2, g3⟩ := writeData_eq (K := K) (enc K t) w
    refine ⟨w ++ w', ?_, h2.mono ?_, ?_⟩
    · rw [writeNode_eq n hn, h1]
      simp only [g1]
    · intro b hb
      simp only [InW, List.map_append, List.mem_append]
      exact .inl hb
    · intro _ hl
      simp only [InW, List.map_append, List.mem_append]
      exact .inr (g2 hl)
  induction h with
  | hash hl h =>
    refine ⟨[], ?_, saved_hash _ _, fun h => absurd trivial h⟩
    unfold encodedOf
    rw [if_neg (by omega)]
    rfl
  | empty => exact fin id ⟨[], rfl, trivial⟩
  | leaf k v =>
    refine fin id ⟨[], ?_, trivial⟩
    simp only [encodeRaw, encodeCompact_leaf, Res.ok_bind]
    rfl
  | ext p h ih =>
    rename_i m s
    obtain ⟨w, h1, h2, h3⟩ := ih (ok_sub hok)
    refine fin id ⟨w, ?_, h3, h2⟩
    simp only [encodeRaw, encodeCompact_ext hok.1, Res.ok_bind, h1, encodedOf_item]
    rfl
  | branch v h ih =>
    rename_i cs ts
    obtain ⟨w, h1, h2⟩ := writeChildren_saved (K := K) (f := fun i => writeNode K (cs i)) (ns := cs) (ts := ts)
      (fun i => ih i (ok_child hok i)) (List.finRange 16)
    refine fin id ⟨w, ?_, fun i => ⟨(h2 i (List.mem_finRange i)).2, (h2 i (List.mem_finRange i)).1⟩⟩
    simp only [encodeRaw, h1, Res.ok_bind]
    rfl

/-- Everything in the first database is in the second. -/
def Within (d d' : Db) : Prop := ∀ h b, d.get h = some b → d'.get h = some b

/-- The database has the byte string. -/
def Has (K : Keccak) (d : Db) (b : Bytes) : Prop := d.get (K b) = some b

theorem fetch_ok_has (hF : Faithful K S d) {t : PT} (h : Held K S t) {n : Node} (e : fetch d (K (enc K t)) = .ok n) : Has K d (enc K t) := by
  unfold fetch recover at e
  rcases hg : d.get (K (enc K t)) with _ | c
  · rw [hg] at e; cases e
  · unfold Has
    rw [hg, hF _ h.1 c hg]

theorem getAt_ok_held {t : PT} (hF : Faithful K S d) (hok : Ok t (2 ^ 60)) (hd : Within d d') (h : Held K S t)
    (ih : ∀ (n : Node) (fuel : Nat) (p : List Nib) (v : Option Bytes), Rep K S n t → ¬ IsHash n → Saved K (Has K d') n t →
      getAt d fuel n (leafPath p) = .ok v → ∀ s ∈ chain K t p, Has K d' (enc K s))
    (fuel : Nat) (p : List Nib) (v : Option Bytes) (e : getAt d fuel (.hash (K (enc K t))) (leafPath p) = .ok v) :
    Has K d' (enc K t) ∧ ∀ s ∈ chain K t p, Has K d' (enc K s) := by
  cases fuel with
  | zero => cases e
  | succ f =>
    rw [getAt_hash] at e
    rcases fetch_faithful hF h hok with e1 | e1
    · rw [e1] at e
      exact ⟨hd _ _ (fetch_ok_has hF h e1), ih _ f p v (rep_top h.2) (top_not_hash t) (saved_top t) e⟩
    · rw [e1] at e
      cases e

/-- If a key can be read, then all stored nodes on the way are there. -/
theorem getAt_ok_chain {t : PT} (hF : Faithful K S d) (hok : Ok t (2 ^ 60)) (hd : Within d d') (n : Node) (fuel : Nat) (p : List Nib)
    (v : Option Bytes) (h : Rep K S n t) (hn : ¬ IsHash n) (hs : Saved K (Has K d') n t) (e : getAt d fuel n (leafPath p) = .ok v) :
    ∀ s ∈ chain K t p, Has K d' (enc K s) := by
  have child : ∀ {s : PT} {m : Node} {fuel : Nat} {r : List Nib} {v : Option Bytes}, Ok s (2 ^ 60) → (∀ (n : Node) (fuel : Nat) (p : List Nib) (v : Option Bytes), Rep K S n s → ¬ IsHash n →
      Saved K (Has K d') n s → getAt d fuel n (leafPath p) = .ok v → ∀ x ∈ chain K s p, Has K d' (enc K x)) →
      Rep K S m s → (¬ IsHash m → 32 ≤ (enc K s).length → Has K d' (enc K s)) → Saved K (Has K d') m s →
      getAt d fuel m (leafPath r) = .ok v → ∀ x ∈ (if (enc K s).length < 32 then [] else [s]) ++ chain K s r, Has K d' (enc K x) := by
    intro s m fuel r v hok ih h h1 h2 e x hx
    have : (32 ≤ (enc K s).length → Has K d' (enc K s)) ∧ ∀ x ∈ chain K s r, Has K d' (enc K x) := by
      by_cases hm : IsHash m
      · cases h with
        | hash hl h =>
          obtain ⟨g1, g2⟩ := getAt_ok_held hF hok hd h ih fuel r v e
          exact ⟨fun _ => g1, g2⟩
        | _ => exact hm.elim
      · exact ⟨h1 hm, ih m fuel r v h hm h2 e⟩
    rcases List.mem_append.1 hx with hx | hx
    · split at hx
      · cases hx
      · rw [List.mem_singleton.1 hx]
        exact this.1 (by omega)
    · exact this.2 x hx
  induction t generalizing n fuel p v with
  | empty => intro s hs; cases hs
  | leaf k w => intro s hs; cases hs
  | ext q s ih =>
    cases h with
    | hash => exact absurd trivial hn
    | ext _ h =>
      rename_i m
      rw [getAt_ext] at e
      simp only [chain]
      split at e
      · next hq =>
        rw [if_pos hq]
        exact child (ok_sub hok) (fun n f p v h hn hs e => ih (ok_sub hok) n f p v h hn hs e) h hs.1 hs.2 e
      · next hq =>
        rw [if_neg hq]
        intro s hs; cases hs
  | branch cs w ih =>
    cases h with
    | hash => exact absurd trivial hn
    | branch _ h =>
      rename_i ns
      cases p with
      | nil => intro s hs; cases hs
      | cons i r =>
        rw [getAt_branch_cons] at e
        simp only [chain]
        exact child (ok_child hok i) (fun n f p v h hn hs e => ih i (ok_child hok i) n f p v h hn hs e) (h i) (hs i).1 (hs i).2 e

/-! ### Commits -/

theorem removeBatch_none (l : List H256) {d : Db} {h : H256} (hd : d.get h = none) : (d.removeBatch l).get h = none := by
  unfold Db.removeBatch
  induction l generalizing d with
  | nil => exact hd
  | cons x t ih =>
    rw [List.foldl_cons]
    apply ih
    unfold Db.remove
    split
    · show (d.storage.erase x).get h = none
      rw [FMap.get_erase]
      split
      · rfl
      · exact hd
    · exact hd

/-- The database holds, under their hashes, byte strings that were inserted; some may be missing. -/
structure Holed (K : Keccak) (db : Db) : Prop where
  sound : ∀ h b, db.get h = some b → h = K b ∧ b ∈ db.log
  encs : ∀ b ∈ db.log, ∃ s, Ok s (2 ^ 60) ∧ b = enc K s

theorem Holed.insert (h : Holed K db) {e : H256 × Bytes} (he : EntryOk K e) : Holed K (db.insert e.1 e.2) := by
  have hget : ∀ x, (db.insert e.1 e.2).get x = if x = e.1 then some e.2 else db.get x := fun x => FMap.get_set _ _ _ _
  refine ⟨?_, ?_⟩
  · intro x b hb
    rw [hget] at hb
    split at hb
    · next hx => cases hb; exact ⟨hx.trans he.1, by simp [Db.insert]⟩
    · have := h.sound x b hb
      exact ⟨this.1, by simp [Db.insert, this.2]⟩
  · intro b hb
    simp only [Db.insert, List.mem_cons] at hb
    rcases hb with rfl | hb
    · exact he.2
    · exact h.encs b hb

theorem Holed.insertBatch (h : Holed K db) {l : List (H256 × Bytes)} (hl : ∀ e ∈ l, EntryOk K e) : Holed K (db.insertBatch l) := by
  unfold Db.insertBatch
  induction l generalizing db with
  | nil => exact h
  | cons e t ih =>
    rw [List.foldl_cons]
    exact ih (h.insert (hl e (by simp))) (fun x hx => hl x (by simp [hx]))

theorem insertBatch_some (l : List (H256 × Bytes)) (db : Db) {h : H256} (hh : (db.get h).isSome ∨ h ∈ l.map Prod.fst) :
    ((db.insertBatch l).get h).isSome := by
  unfold Db.insertBatch
  induction l generalizing db with
  | nil =>
    rcases hh with hh | hh
    · exact hh
    · cases hh
  | cons e t ih =>
    rw [List.foldl_cons]
    apply ih
    rw [insert_get]
    by_cases he : h = e.1
    · exact .inl (by rw [if_pos he]; rfl)
    · rw [if_neg he]
      rcases hh with hh | hh
      · exact .inl hh
      · rw [List.map_cons, List.mem_cons] at hh
        exact .inr (hh.resolve_left he)

theorem Holed.within (h : Holed K db) {l : List (H256 × Bytes)} (hl : ∀ e ∈ l, EntryOk K e) (hc : NoClash K (db.insertBatch l).log) :
    Within db (db.insertBatch l) := by
  intro x b hb
  obtain ⟨c, hc'⟩ := Option.isSome_iff_exists.1 (insertBatch_some l db (.inl (by rw [hb]; rfl)))
  have h1 := (h.insertBatch hl).sound x c hc'
  have h2 := h.sound x b hb
  have : c = b := hc c h1.2 b ((insertBatch_log l b).2 (.inl h2.2)) (h1.1.symm.trans h2.1)
  rw [hc', this]

theorem Holed.has (h : Holed K db) {l : List (H256 × Bytes)} (hl : ∀ e ∈ l, EntryOk K e) (hc : NoClash K (db.insertBatch l).log)
    {b : Bytes} (hb : InW l b) : Has K (db.insertBatch l) b := by
  obtain ⟨e, he, rfl⟩ := List.mem_map.1 hb
  have : (K e.2) ∈ l.map Prod.fst := by
    rw [← (hl e he).1]
    exact List.mem_map_of_mem he
  obtain ⟨c, hc'⟩ := Option.isSome_iff_exists.1 (insertBatch_some l db (.inr this))
  have h1 := (h.insertBatch hl).sound _ c hc'
  have : c = e.2 := hc c h1.2 e.2 ((insertBatch_log l e.2).2 (.inr hb)) h1.1.symm
  unfold Has
  rw [hc', this]

theorem Holed.faithful (h : Holed K db) (hc : NoClash K db.log) : Faithful K (InLog db) db := by
  intro b hb c hg
  have := h.sound _ _ hg
  exact hc c this.2 b hb this.1.symm

theorem insertBatch_light (l : List (H256 × Bytes)) (db : Db) : (db.insertBatch l).light = db.light := by
  unfold Db.insertBatch
  induction l generalizing db with
  | nil => rfl
  | cons e t ih => rw [List.foldl_cons, ih]; rfl

/-- Some entries of a database are lost. -/
theorem DbInv.holed (h : DbInv K db) {st : FMap H256 Bytes} (hst : ∀ x b, st.get x = some b → db.get x = some b) :
    Holed K { db with storage := st } := ⟨fun x b hb => h.sound x b (hst x b hb), h.encs⟩

/-- `commit` on a database from which nodes are missing: only an unloaded root can be missed; keys that could be read are read with the same
result, others are read right or not at all. -/
theorem Trie.commit_holed (ha : d.light = false) (hd : Holed K d) {tr : Trie} {m : Spec.Map} (h : HandleInv K False d tr m) :
    (∃ x msg, tr.root = .hash x ∧ d.get x = none ∧ tr.commit K d = .error (.panic msg)) ∨
    ∃ tr' d' x, tr.commit K d = .ok (tr', d', .ok x) ∧ (NoClash K d'.log → ∀ k, (∀ v, tr.get d k = .ok v → v = m k ∧ tr'.get d' k = .ok v) ∧
      (tr'.get d' k = .ok (m k) ∨ tr'.get d' k = missing)) := by
  obtain ⟨h0, t, h1, h2, h3, -⟩ := h
  have hlen : ∀ {d : Db} (k : Bytes), (nibsOf k).length ≤ hops d (leafPath (nibsOf k)) := fun k => by have := hops_ge (db := by assumption) (nibsOf k); omega
  -- what is known of `get` before
  have before : NoClash K d.log → ∀ k v, tr.get d k = .ok v → v = m k := by
    intro hnc k v e
    unfold Trie.get at e
    rw [path_eq] at e
    rcases getAt_faithful (hd.faithful hnc) h2 h1 (hops_ge (db := d) (nibsOf k)) with e' | e'
    · rw [e'] at e
      rw [← Except.ok.inj e, h3.get]
    · rw [e'] at e; cases e
  -- what is known of `get` after
  have after : ∀ (tr' : Trie) (d1 : Db), Holed K d1 → NoClash K d1.log → (∀ b ∈ d.log, b ∈ d1.log) → tr'.root = top K t → Below K (InLog d1) t →
      (∀ k v, tr.get d k = .ok v → ∀ s ∈ chain K t (nibsOf k), Has K d1 (enc K s)) →
      ∀ k, (∀ v, tr.get d k = .ok v → v = m k ∧ tr'.get d1 k = .ok v) ∧ (tr'.get d1 k = .ok (m k) ∨ tr'.get d1 k = missing) := by
    intro tr' d1 hd1 hnc hlog hroot hbelow hchain k
    refine ⟨fun v e => ?_, ?_⟩
    · have hv := before (hnc.subset hlog) k v e
      refine ⟨hv, ?_⟩
      unfold Trie.get
      rw [path_eq, hroot, getAt_chain h2 _ _ (hlen k) (hchain k v e), h3.get, hv]
    · unfold Trie.get
      rw [path_eq, hroot, ← h3.get]
      exact getAt_faithful (hd1.faithful hnc) h2 (.node (rep_top hbelow)) (hops_ge _)
  -- reading back the root
  have back : ∀ (tr1 : Trie) (d1 : Db), Holed K d1 → tr.writeRoot K = .ok (tr1, K (enc K t)) → d1 = d.insertBatch tr1.cache →
      ∀ c, d1.get (K (enc K t)) = some c → ∃ s, c = enc K s ∧ Ok s (2 ^ 60) ∧ tr.commit K d = .ok
        ({ tr1 with cache := [], rootHash := K (enc K t), genKeys := [], passingKeys := [], root := top K s }, d1, .ok (K (enc K t))) := by
    intro tr1 d1 hd1 e hd1e c hc
    obtain ⟨s, hs, hce⟩ := hd1.encs c (hd1.sound _ _ hc).2
    refine ⟨s, hce, hs, ?_⟩
    unfold Trie.commit
    rw [e]
    simp only [Res.ok_bind]
    rw [← hd1e, removeBatch_archive (by rw [hd1e, insertBatch_light, ha])]
    have hrec : recover d1 (K (enc K t)) = .ok (some (top K s)) := by
      unfold recover
      rw [hc]
      simp only
      rw [hce, decodeNode_enc hs]
      rfl
    rw [hrec]
  by_cases hn : IsHash tr.root
  · have hheld : Held K (InLog d) t ∧ tr.root = .hash (K (enc K t)) := by
      generalize tr.root = n at *
      cases h1 with
      | hash h => exact ⟨h, rfl⟩
      | node h =>
        cases h with
        | hash hl h => exact ⟨h, rfl⟩
        | _ => exact hn.elim
    obtain ⟨hheld, hroot⟩ := hheld
    have e : tr.writeRoot K = .ok (tr.addWritten [], K (enc K t)) := by
      unfold Trie.writeRoot
      rw [hroot]
      rfl
    have hcache : (tr.addWritten []).cache = tr.cache := by simp [Trie.addWritten]
    have hd1 := hd.insertBatch (l := (tr.addWritten []).cache) (by rw [hcache]; exact h0)
    rcases hg : (d.insertBatch (tr.addWritten []).cache).get (K (enc K t)) with _ | c
    · left
      refine ⟨K (enc K t), "The root that was just created is missing", hroot, ?_, ?_⟩
      · by_contra hne
        have := insertBatch_some (tr.addWritten []).cache d (.inl (Option.isSome_iff_ne_none.2 hne))
        rw [hg] at this
        cases this
      · unfold Trie.commit
        rw [e]
        simp only [Res.ok_bind]
        rw [removeBatch_archive (by rw [insertBatch_light, ha])]
        have : recover (d.insertBatch (tr.addWritten []).cache) (K (enc K t)) = .ok none := by
          unfold recover
          rw [hg]
        rw [this]
    · right
      obtain ⟨s, hce, hs, hcommit⟩ := back _ _ hd1 e rfl c hg
      refine ⟨_, _, _, hcommit, fun hnc => ?_⟩
      have hlog : ∀ b ∈ d.log, b ∈ (d.insertBatch (tr.addWritten []).cache).log := fun b hb => (insertBatch_log _ _).2 (.inl hb)
      have hcs : enc K s = enc K t := by
        rw [← hce]
        exact hnc c (hd1.sound _ _ hg).2 _ (hlog _ hheld.1) (hd1.sound _ _ hg).1.symm
      refine after _ _ hd1 hnc hlog (top_of_enc hs h2 hcs) (hheld.2.mono hlog) ?_
      intro k v ek
      unfold Trie.get at ek
      rw [path_eq, hroot] at ek
      have hF := hd.faithful (hnc.subset hlog)
      have hw := hd.within (l := (tr.addWritten []).cache) (by rw [hcache]; exact h0) hnc
      exact (getAt_ok_held hF h2 hw hheld (getAt_ok_chain hF h2 hw) _ _ v ek).2
  · right
    have hrep : Rep K (InLog d) tr.root t := by
      generalize tr.root = n at *
      cases h1 with
      | node h1 => exact h1
      | hash h1 => exact absurd trivial hn
    obtain ⟨w, e1, hw, -⟩ := writeNode_rep hrep h2
    obtain ⟨w', e1', hsv, hsv'⟩ := writeNode_saved hrep h2
    rw [e1] at e1'
    cases e1'
    have he : ∃ tr1, tr.writeRoot K = .ok (tr1, K (enc K t)) ∧ (∀ e ∈ tr1.cache, EntryOk K e) ∧ (∀ b, InW w b → InW tr1.cache b) ∧
        InW tr1.cache (enc K t) := by
      unfold Trie.writeRoot
      rw [e1]
      simp only [Res.ok_bind]
      have c0 : ∀ e ∈ tr.cache ++ w, EntryOk K e := by
        intro e he
        rcases List.mem_append.1 he with he | he
        · exact h0 e he
        · exact hw.1 e he
      by_cases hs : (enc K t).length < 32
      · rw [show encodedOf K (enc K t) = .inline (enc K t) from if_pos hs]
        refine ⟨_, rfl, ?_, ?_, ?_⟩
        · intro e he
          rcases List.mem_append.1 he with he | he
          · exact c0 e he
          · rw [List.mem_singleton.1 he]
            exact ⟨rfl, t, h2, rfl⟩
        · intro b hb
          simp only [InW, Trie.addWritten, List.map_append, List.mem_append] at hb ⊢
          exact .inl (.inr hb)
        · simp [InW]
      · rw [show encodedOf K (enc K t) = .hash (K (enc K t)) from if_neg hs]
        refine ⟨_, rfl, c0, ?_, ?_⟩
        · intro b hb
          simp only [InW, Trie.addWritten, List.map_append, List.mem_append] at hb ⊢
          exact .inr hb
        · have := hsv' hn (by omega)
          simp only [InW, Trie.addWritten, List.map_append, List.mem_append] at this ⊢
          exact .inr this
    obtain ⟨tr1, e, hc1, hc2, hc3⟩ := he
    have hd1 := hd.insertBatch hc1
    obtain ⟨c, hg⟩ := Option.isSome_iff_exists.1 (insertBatch_some tr1.cache d (h := K (enc K t)) (.inr (by
      obtain ⟨x, hx, hx'⟩ := List.mem_map.1 hc3
      rw [← hx', ← (hc1 x hx).1]
      exact List.mem_map_of_mem hx)))
    obtain ⟨s, hce, hs, hcommit⟩ := back _ _ hd1 e rfl c hg
    refine ⟨_, _, _, hcommit, fun hnc => ?_⟩
    have hlog : ∀ b ∈ d.log, b ∈ (d.insertBatch tr1.cache).log := fun b hb => (insertBatch_log _ _).2 (.inl hb)
    have hcs : enc K s = enc K t := by
      rw [← hce]
      exact hnc c (hd1.sound _ _ hg).2 _ ((insertBatch_log _ _).2 (.inr hc3)) (hd1.sound _ _ hg).1.symm
    refine after _ _ hd1 hnc hlog (top_of_enc hs h2 hcs) ?_ ?_
    · refine hw.2.mono fun b hb => ?_
      rcases hb with hb | hb
      · exact hlog b hb
      · exact (insertBatch_log _ _).2 (.inr (hc2 b hb))
    · intro k v ek
      unfold Trie.get at ek
      rw [path_eq] at ek
      exact getAt_ok_chain (hd.faithful (hnc.subset hlog)) h2 (hd.within hc1 hnc) _ _ _ v hrep hn
        (hsv.mono fun b hb => hd.has hc1 hnc (hc2 b hb)) ek

end Verif.Pmt
