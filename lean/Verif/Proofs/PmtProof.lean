import Verif.Proofs.PmtRun
/-!
Proofs: a tree is determined by its encoding and the stored encodings below it; reading from incomplete databases; the nodes of a proof.
-/

set_option autoImplicit false

namespace Verif.Pmt

open PT

variable {K : Keccak} {S : Bytes → Prop} {db : Db}

/-! ### Encodings determine trees -/

/-- No two different byte strings of the set have the same hash. -/
def Separate (K : Keccak) (S : Bytes → Prop) : Prop := ∀ a, S a → ∀ b, S b → K a = K b → a = b

theorem top_of_enc {t u : PT} (ht : Ok t (2 ^ 60)) (hu : Ok u (2 ^ 60)) (h : enc K t = enc K u) : top K t = top K u := by
  have h1 := decodeNode_enc (K := K) ht
  rw [h, decodeNode_enc hu] at h1
  exact (Except.ok.inj h1).symm

theorem top_inj (hS : Separate K S) {t u : PT} (ht : Ok t (2 ^ 60)) (hu : Ok u (2 ^ 60)) (bt : Below K S t) (bu : Below K S u)
    (h : top K t = top K u) : t = u := by
  have child : ∀ {s s' : PT}, (Ok s (2 ^ 60)) → (Ok s' (2 ^ 60)) → ((32 ≤ (enc K s).length → S (enc K s)) ∧ Below K S s) →
      ((32 ≤ (enc K s').length → S (enc K s')) ∧ Below K S s') → (Ok s' (2 ^ 60) → Below K S s' → top K s = top K s' → s = s') →
      (if (enc K s).length < 32 then top K s else .hash (K (enc K s))) = (if (enc K s').length < 32 then top K s' else .hash (K (enc K s'))) →
      s = s' := by
    intro s s' hs hs' bs bs' ih e
    by_cases h1 : (enc K s).length < 32 <;> by_cases h2 : (enc K s').length < 32
    · rw [if_pos h1, if_pos h2] at e
      exact ih hs' bs'.2 e
    · rw [if_pos h1, if_neg h2] at e
      exact absurd (by rw [e]; trivial) (top_not_hash (K := K) s)
    · rw [if_neg h1, if_pos h2] at e
      exact absurd (by rw [← e]; trivial) (top_not_hash (K := K) s')
    · rw [if_neg h1, if_neg h2] at e
      injection e with e
      exact ih hs' bs'.2 (top_of_enc hs hs' (hS _ (bs.1 (by omega)) _ (bs'.1 (by omega)) e))
  induction t generalizing u with
  | empty => cases u <;> first | rfl | (simp [top] at h)
  | leaf k v =>
    cases u with
    | leaf k' v' =>
      simp only [top, Node.leaf.injEq, leafPath_inj] at h
      rw [h.1, h.2]
    | _ => simp [top] at h
  | ext p s ih =>
    cases u with
    | ext p' s' =>
      simp only [top, Node.ext.injEq, toNibs_inj] at h
      rw [h.1, child (ok_sub ht) (ok_sub hu) bt bu (fun h1 h2 h3 => ih (ok_sub ht) h1 bt.2 h2 h3) h.2]
    | _ => simp [top] at h
  | branch cs v ih =>
    cases u with
    | branch cs' v' =>
      simp only [top, Node.branch.injEq] at h
      rw [h.2]
      congr 1
      funext i
      exact child (ok_child ht i) (ok_child hu i) (bt i) (bu i) (fun h1 h2 h3 => ih i (ok_child ht i) h1 (bt i).2 h2 h3) (congrFun h.1 i)
    | _ => simp [top] at h

theorem enc_inj (hS : Separate K S) {t u : PT} (ht : Ok t (2 ^ 60)) (hu : Ok u (2 ^ 60)) (bt : Below K S t) (bu : Below K S u)
    (h : enc K t = enc K u) : t = u := top_inj hS ht hu bt bu (top_of_enc ht hu h)

/-! ### Incomplete databases -/

/-- What is found under the hash of a stored byte string is that byte string. -/
def Faithful (K : Keccak) (S : Bytes → Prop) (db : Db) : Prop := ∀ b, S b → ∀ c, db.get (K b) = some c → c = b

theorem fetch_faithful (hR : Faithful K S db) {t : PT} (h : Held K S t) (hok : Ok t (2 ^ 60)) :
    fetch db (K (enc K t)) = .ok (top K t) ∨ fetch db (K (enc K t)) = missing := by
  unfold fetch recover
  rcases hg : db.get (K (enc K t)) with _ | c
  · exact .inr rfl
  · rw [hR _ h.1 c hg]
    simp only
    rw [decodeNode_enc hok]
    exact .inl rfl

theorem getAt_faithful_held {t : PT} (hR : Faithful K S db) (hok : Ok t (2 ^ 60)) (h : Held K S t)
    (ih : ∀ (n : Node) (fuel : Nat) (p : List Nib), Rep K S n t → ¬ IsHash n → p.length ≤ fuel →
      getAt db fuel n (leafPath p) = .ok (t.get p) ∨ getAt db fuel n (leafPath p) = missing)
    (fuel : Nat) (p : List Nib) (hf : p.length + 1 ≤ fuel) : getAt db fuel (.hash (K (enc K t))) (leafPath p) = .ok (t.get p) ∨
      getAt db fuel (.hash (K (enc K t))) (leafPath p) = missing := by
  cases fuel with
  | zero => omega
  | succ f =>
    rw [getAt_hash]
    rcases fetch_faithful hR h hok with e | e
    · rw [e]
      exact ih _ f p (rep_top h.2) (top_not_hash t) (by omega)
    · rw [e]
      exact .inr rfl

theorem getAt_faithful_node {t : PT} (hR : Faithful K S db) (hok : Ok t (2 ^ 60)) (n : Node) (fuel : Nat) (p : List Nib) (h : Rep K S n t)
    (hn : ¬ IsHash n) (hf : p.length ≤ fuel) :
    getAt db fuel n (leafPath p) = .ok (t.get p) ∨ getAt db fuel n (leafPath p) = missing := by
  induction t generalizing n fuel p with
  | empty =>
    cases h with
    | empty => cases fuel <;> exact .inl rfl
    | hash => exact absurd trivial hn
  | leaf k v =>
    cases h with
    | leaf =>
      have : getAt db fuel (.leaf (leafPath k) v) (leafPath p) = .ok (if leafPath k = leafPath p then some v else none) := by
        cases fuel <;> rfl
      rw [this]
      simp only [leafPath_inj, PT.get]
      exact .inl trivial
    | hash => exact absurd trivial hn
  | ext q s ih =>
    cases h with
    | hash => exact absurd trivial hn
    | ext _ h =>
      rename_i m
      have hok' := ok_sub hok
      rw [getAt_ext]
      simp only [PT.get]
      split
      · next hq =>
        obtain ⟨r, rfl⟩ := lcp_eq_length.1 hq
        rw [List.drop_left' rfl]
        have hq0 : 0 < q.length := List.length_pos_iff.2 hok.1
        rw [List.length_append] at hf
        by_cases hm : IsHash m
        · cases h with
          | hash hl h => exact getAt_faithful_held hR hok' h (fun n f p h hn hf => ih hok' n f p h hn hf) fuel r (by omega)
          | _ => exact hm.elim
        · exact ih hok' m fuel r h hm (by omega)
      · exact .inl rfl
  | branch cs v ih =>
    cases h with
    | hash => exact absurd trivial hn
    | branch _ h =>
      rename_i ns
      cases p with
      | nil => rw [getAt_branch_nil]; exact .inl rfl
      | cons i r =>
        rw [getAt_branch_cons]
        have hok' := ok_child hok i
        have h := h i
        simp only [List.length_cons] at hf
        by_cases hm : IsHash (ns i)
        · generalize ns i = m at *
          generalize hc : cs i = c at *
          cases h with
          | hash hl h =>
            subst hc
            exact getAt_faithful_held hR hok' h (fun n f p h hn hf => ih i hok' n f p h hn hf) fuel r (by omega)
          | _ => exact hm.elim
        · exact ih i hok' (ns i) fuel r h hm (by omega)

/-- Reading from an incomplete database gives the right value or finds a node missing. -/
theorem getAt_faithful {t : PT} (hR : Faithful K S db) (hok : Ok t (2 ^ 60)) {n : Node} {fuel : Nat} {p : List Nib} (h : RepRoot K S n t)
    (hf : p.length + 1 ≤ fuel) : getAt db fuel n (leafPath p) = .ok (t.get p) ∨ getAt db fuel n (leafPath p) = missing := by
  have key := fun n fuel p => getAt_faithful_node (n := n) (fuel := fuel) (p := p) hR hok
  have hash := fun (h : Held K S t) => getAt_faithful_held hR hok h key fuel p hf
  cases h with
  | hash h => exact hash h
  | node h =>
    by_cases hm : IsHash n
    · cases h with
      | hash hl h => exact hash h
      | _ => exact hm.elim
    · exact key n fuel p h hm (by omega)

/-! ### The database made of a proof -/

theorem insert_get (db : Db) (h : H256) (b : Bytes) (x : H256) : (db.insert h b).get x = if x = h then some b else db.get x :=
  FMap.get_set _ _ _ _

/-- What is found in it are byte strings of the proof under their hashes. -/
theorem proofDb_get {root : H256} {proof : List Bytes} {x : H256} {b : Bytes} (h : (proofDb K root proof).get x = some b) :
    x = K b ∧ b ∈ proof := by
  have key : ∀ (l : List Bytes) (db : Db), (l.foldl (fun db b => if root = K b ∨ b.length ≥ 32 then db.insert (K b) b else db) db).get x = some b →
      db.get x = some b ∨ (x = K b ∧ b ∈ l) := by
    intro l
    induction l with
    | nil => exact fun db h => .inl h
    | cons c t ih =>
      intro db h
      rw [List.foldl_cons] at h
      rcases ih _ h with h' | ⟨h1, h2⟩
      · split at h'
        · rw [insert_get] at h'
          split at h'
          · cases h'
            exact .inr ⟨by assumption, by simp⟩
          · exact .inl h'
        · exact .inl h'
      · exact .inr ⟨h1, by simp [h2]⟩
  rcases key _ _ h with h' | h'
  · cases h'
  · exact h'

/-- The root and the long byte strings are found in it. -/
theorem proofDb_isSome {root : H256} {proof : List Bytes} {b : Bytes} (hb : b ∈ proof) (hr : root = K b ∨ 32 ≤ b.length) :
    ((proofDb K root proof).get (K b)).isSome := by
  have mono : ∀ (l : List Bytes) (db : Db), (db.get (K b)).isSome →
      ((l.foldl (fun db b => if root = K b ∨ b.length ≥ 32 then db.insert (K b) b else db) db).get (K b)).isSome := by
    intro l
    induction l with
    | nil => exact fun db h => h
    | cons c t ih =>
      intro db h
      rw [List.foldl_cons]
      apply ih
      split
      · rw [insert_get]
        split
        · rfl
        · exact h
      · exact h
  obtain ⟨l1, l2, rfl⟩ := List.append_of_mem hb
  unfold proofDb
  rw [List.foldl_append, List.foldl_cons]
  apply mono
  rw [if_pos (by rcases hr with h | h; exact .inl h; exact .inr h), insert_get, if_pos rfl]
  rfl

/-- Soundness. -/
theorem verifyProof_sound {t : PT} (hok : Ok t (2 ^ 60)) (h : Held K S t) {proof : List Bytes} {k : Bytes}
    (hS : Separate K (fun b => S b ∨ b ∈ proof)) :
    verifyProof K (K (enc K t)) k proof = .ok (t.get (nibsOf k)) ∨ verifyProof K (K (enc K t)) k proof = .error (.err "InvalidProof") := by
  have hF : Faithful K S (proofDb K (K (enc K t)) proof) := by
    intro b hb c hc
    obtain ⟨h1, h2⟩ := proofDb_get hc
    exact (hS b (.inl hb) c (.inr h2) h1).symm
  have := getAt_faithful (fuel := hops (proofDb K (K (enc K t)) proof) (leafPath (nibsOf k))) (p := nibsOf k) hF hok (.hash h) (hops_ge _)
  unfold verifyProof Trie.get Trie.atRoot
  rw [path_eq]
  rcases this with e | e
  · simp only [e]; exact .inl trivial
  · simp only [e, missing]; exact .inr trivial

/-! ### The nodes of a proof -/

/-- The long trees strictly below the root on the way along a path. -/
def chain (K : Keccak) : PT → List Nib → List PT
  | .ext q s, p => if lcp p q = q.length then (if (enc K s).length < 32 then [] else [s]) ++ chain K s (p.drop q.length) else []
  | .branch cs _, i :: r => (if (enc K (cs i)).length < 32 then [] else [cs i]) ++ chain K (cs i) r
  | _, _ => []

theorem pathAt_node_hash {t : PT} (hR : Reads K S db) (hok : Ok t (2 ^ 60)) (h : (32 ≤ (enc K t).length → S (enc K t)) ∧ Below K S t)
    (ih : ∀ (fuel : Nat) (p : List Nib), p.length ≤ fuel → pathAt db fuel (top K t) (leafPath p) = .ok ((chain K t p).map (top K)).reverse)
    (fuel : Nat) (p : List Nib) (hf : p.length + 1 ≤ fuel) :
    pathAt db fuel (if (enc K t).length < 32 then top K t else .hash (K (enc K t))) (leafPath p)
      = .ok (((if (enc K t).length < 32 then [] else [t]) ++ chain K t p).map (top K)).reverse := by
  by_cases hl : (enc K t).length < 32
  · rw [if_pos hl, if_pos hl]
    exact ih fuel p (by omega)
  · rw [if_neg hl, if_neg hl]
    cases fuel with
    | zero => omega
    | succ f =>
      rw [pathAt_hash, fetch_held hR ⟨h.1 (by omega), h.2⟩ hok]
      simp only [Res.ok_bind]
      rw [ih f p (by omega)]
      simp

theorem pathAt_top {t : PT} (hR : Reads K S db) (hok : Ok t (2 ^ 60)) (h : Below K S t) (fuel : Nat) (p : List Nib) (hf : p.length ≤ fuel) :
    pathAt db fuel (top K t) (leafPath p) = .ok ((chain K t p).map (top K)).reverse := by
  induction t generalizing fuel p with
  | empty => cases fuel <;> rfl
  | leaf k v => cases fuel <;> rfl
  | ext q s ih =>
    have hok' := ok_sub hok
    simp only [top, chain]
    rw [pathAt_ext, commonPrefix_toNibs, toNibs_length]
    split
    · next hq =>
      obtain ⟨r, rfl⟩ := lcp_eq_length.1 hq
      rw [leafPath_drop, List.drop_left' rfl]
      have hq0 : 0 < q.length := List.length_pos_iff.2 hok.1
      rw [List.length_append] at hf
      exact pathAt_node_hash hR hok' h (fun f p hf => ih hok' h.2 f p hf) fuel r (by omega)
    · rfl
  | branch cs v ih =>
    cases p with
    | nil => simp only [top, chain]; rw [pathAt_branch_nil]; rfl
    | cons i r =>
      simp only [top, chain]
      rw [pathAt_branch_cons]
      simp only [List.length_cons] at hf
      exact pathAt_node_hash hR (ok_child hok i) (h i) (fun f p hf => ih i (ok_child hok i) (h i).2 f p hf) fuel r (by omega)

theorem chain_held {t : PT} (hok : Ok t (2 ^ 60)) (h : Below K S t) (p : List Nib) :
    ∀ s ∈ chain K t p, Held K S s ∧ Ok s (2 ^ 60) ∧ 32 ≤ (enc K s).length := by
  induction t generalizing p with
  | empty => intro s hs; cases hs
  | leaf k v => intro s hs; cases hs
  | ext q u ih =>
    intro s hs
    simp only [chain] at hs
    split at hs
    · rcases List.mem_append.1 hs with hs | hs
      · split at hs
        · cases hs
        · next hl =>
          rw [List.mem_singleton.1 hs]
          exact ⟨⟨h.1 (by omega), h.2⟩, ok_sub hok, by omega⟩
      · exact ih (ok_sub hok) h.2 _ s hs
    · cases hs
  | branch cs v ih =>
    intro s hs
    cases p with
    | nil => cases hs
    | cons i r =>
      simp only [chain] at hs
      rcases List.mem_append.1 hs with hs | hs
      · split at hs
        · cases hs
        · next hl =>
          rw [List.mem_singleton.1 hs]
          exact ⟨⟨(h i).1 (by omega), (h i).2⟩, ok_child hok i, by omega⟩
      · exact ih i (ok_child hok i) (h i).2 _ s hs

theorem getAt_node_chain {t : PT} (hok : Ok t (2 ^ 60)) (hc : (if (enc K t).length < 32 then [] else [t]) = [] ∨ db.get (K (enc K t)) = some (enc K t))
    (ih : ∀ (fuel : Nat) (p : List Nib), p.length ≤ fuel → (∀ s ∈ chain K t p, db.get (K (enc K s)) = some (enc K s)) →
      getAt db fuel (top K t) (leafPath p) = .ok (t.get p)) (fuel : Nat) (p : List Nib) (hf : p.length + 1 ≤ fuel)
    (hs : ∀ s ∈ chain K t p, db.get (K (enc K s)) = some (enc K s)) :
    getAt db fuel (if (enc K t).length < 32 then top K t else .hash (K (enc K t))) (leafPath p) = .ok (t.get p) := by
  by_cases hl : (enc K t).length < 32
  · rw [if_pos hl]
    exact ih fuel p (by omega) hs
  · rw [if_neg hl]
    rw [if_neg hl] at hc
    rcases hc with hc | hc
    · cases hc
    · cases fuel with
      | zero => omega
      | succ f =>
        have : fetch db (K (enc K t)) = .ok (top K t) := by
          unfold fetch recover
          rw [hc]
          simp only
          rw [decodeNode_enc hok]
          rfl
        rw [getAt_hash, this]
        exact ih f p (by omega) hs

/-- The nodes of the chain suffice for reading. -/
theorem getAt_chain {t : PT} (hok : Ok t (2 ^ 60)) (fuel : Nat) (p : List Nib) (hf : p.length ≤ fuel)
    (hs : ∀ s ∈ chain K t p, db.get (K (enc K s)) = some (enc K s)) : getAt db fuel (top K t) (leafPath p) = .ok (t.get p) := by
  induction t generalizing fuel p with
  | empty => cases fuel <;> rfl
  | leaf k v =>
    have : getAt db fuel (.leaf (leafPath k) v) (leafPath p) = .ok (if leafPath k = leafPath p then some v else none) := by
      cases fuel <;> rfl
    simp only [top]
    rw [this]
    simp only [leafPath_inj, PT.get]
  | ext q s ih =>
    have hok' := ok_sub hok
    simp only [top, chain] at hs ⊢
    rw [getAt_ext]
    simp only [PT.get]
    split
    · next hq =>
      rw [if_pos hq] at hs
      obtain ⟨r, rfl⟩ := lcp_eq_length.1 hq
      rw [List.drop_left' rfl] at hs ⊢
      have hq0 : 0 < q.length := List.length_pos_iff.2 hok.1
      rw [List.length_append] at hf
      refine getAt_node_chain hok' ?_ (fun f p hf hs => ih hok' f p hf hs) fuel r (by omega)
        (fun x hx => hs x (List.mem_append_right _ hx))
      by_cases hl : (enc K s).length < 32
      · exact .inl (if_pos hl)
      · exact .inr (hs s (by simp [hl]))
    · rfl
  | branch cs v ih =>
    cases p with
    | nil => simp only [top]; rw [getAt_branch_nil]; rfl
    | cons i r =>
      simp only [top, chain] at hs ⊢
      rw [getAt_branch_cons]
      simp only [List.length_cons] at hf
      refine getAt_node_chain (ok_child hok i) ?_ (fun f p hf hs => ih i (ok_child hok i) f p hf hs) fuel r (by omega)
        (fun x hx => hs x (List.mem_append_right _ hx))
      by_cases hl : (enc K (cs i)).length < 32
      · exact .inl (if_pos hl)
      · exact .inr (hs (cs i) (by simp [hl]))

theorem encodeAll_top {l : List PT} (h : ∀ s ∈ l, Below K S s ∧ Ok s (2 ^ 60)) :
    ∃ w, Trie.encodeAll K (l.map (top K)) = .ok (l.map (enc K), w) := by
  induction l with
  | nil => exact ⟨[], rfl⟩
  | cons s t ih =>
    obtain ⟨hb, hok⟩ := h s (by simp)
    obtain ⟨w, h1, _⟩ := encodeRaw_ok (rep_top hb) hok (top_not_hash s)
    obtain ⟨ws, g1⟩ := ih (fun m hm => h m (by simp [hm]))
    refine ⟨w ++ ws, ?_⟩
    rw [List.map_cons]
    unfold Trie.encodeAll
    rw [h1]
    simp only [Res.ok_bind, g1]
    rfl

/-- Completeness: the proof made from a committed tree that is not empty verifies. -/
theorem getProof_verifies (hR : Reads K S db) (hS : Separate K S) {tr : Trie} {t : PT} (hok : Ok t (2 ^ 60)) (h : Held K S t) (hne : t ≠ .empty)
    (hroot : tr.root = top K t) (k : Bytes) :
    ∃ tr' l, tr.getProof K db k = .ok (tr', .ok l) ∧ (∀ b ∈ l, S b) ∧ verifyProof K (K (enc K t)) k l = .ok (t.get (nibsOf k)) := by
  have e1 := pathAt_top hR hok h.2 (hops db (leafPath (nibsOf k))) (nibsOf k) (by have := hops_ge (db := db) (nibsOf k); omega)
  have hch := chain_held hok h.2 (nibsOf k)
  obtain ⟨w, e2⟩ := encodeAll_top (K := K) (S := S) (l := t :: chain K t (nibsOf k)) (by
    intro s hs
    rcases List.mem_cons.1 hs with rfl | hs
    · exact ⟨h.2, hok⟩
    · exact ⟨(hch s hs).1.2, (hch s hs).2.1⟩)
  have hmem : ∀ b ∈ (t :: chain K t (nibsOf k)).map (enc K), S b := by
    intro b hb
    obtain ⟨s, hs, rfl⟩ := List.mem_map.1 hb
    rcases List.mem_cons.1 hs with rfl | hs
    · exact h.1
    · exact (hch s hs).1.1
  refine ⟨tr.addWritten w, (t :: chain K t (nibsOf k)).map (enc K), ?_, hmem, ?_⟩
  · have e3 : Trie.encodeAll K ((match tr.root with
        | .empty => ((chain K t (nibsOf k)).map (top K)).reverse
        | _ => ((chain K t (nibsOf k)).map (top K)).reverse ++ [tr.root]).reverse)
        = .ok ((t :: chain K t (nibsOf k)).map (enc K), w) := by
      rw [← e2, hroot]
      cases t with
      | empty => exact absurd rfl hne
      | leaf => simp [top]
      | ext => simp [top]
      | branch => simp [top]
    unfold Trie.getProof
    rw [path_eq, hroot, e1, ← hroot]
    dsimp only
    erw [e3]
    rfl
  · generalize hp : (t :: chain K t (nibsOf k)).map (enc K) = proof at *
    have hread : ∀ s, s ∈ t :: chain K t (nibsOf k) → (K (enc K t) = K (enc K s) ∨ 32 ≤ (enc K s).length) →
        (proofDb K (K (enc K t)) proof).get (K (enc K s)) = some (enc K s) := by
      intro s hs hl
      have hin : enc K s ∈ proof := by rw [← hp]; exact List.mem_map_of_mem hs
      obtain ⟨c, hc⟩ := Option.isSome_iff_exists.1 (proofDb_isSome hin hl)
      obtain ⟨h1, h2⟩ := proofDb_get hc
      rw [hc, hS _ (hmem _ hin) _ (hmem _ h2) h1]
    unfold verifyProof Trie.get Trie.atRoot
    rw [path_eq]
    have hf : fetch (proofDb K (K (enc K t)) proof) (K (enc K t)) = .ok (top K t) := by
      unfold fetch recover
      rw [hread t (by simp) (.inl rfl)]
      simp only
      rw [decodeNode_enc hok]
      rfl
    have hh := hops_ge (db := proofDb K (K (enc K t)) proof) (nibsOf k)
    have : getAt (proofDb K (K (enc K t)) proof) (hops (proofDb K (K (enc K t)) proof) (leafPath (nibsOf k))) (.hash (K (enc K t)))
        (leafPath (nibsOf k)) = .ok (t.get (nibsOf k)) := by
      generalize hops (proofDb K (K (enc K t)) proof) (leafPath (nibsOf k)) = fuel at *
      cases fuel with
      | zero => omega
      | succ f =>
        rw [getAt_hash, hf]
        exact getAt_chain hok f (nibsOf k) (by omega) (fun s hs => hread s (by simp [hs]) (.inr (hch s hs).2.2))
    simp only [this]

end Verif.Pmt
