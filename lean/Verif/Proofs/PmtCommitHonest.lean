import Verif.Proofs.PmtCommitAny
import Verif.Proofs.PmtProofAny
import Verif.Proofs.PmtSerde
/-! What a commit inserts are encodings of nodes, none shorter than a hash except for the root. -/

set_option autoImplicit false

namespace Verif.Pmt
open Spec

variable {K : Keccak} {db : Db}

/-- The bytes are the encoding of a node. -/
def EncodingOf (K : Keccak) (b : Bytes) : Prop := ∃ m w, NodeOk m ∧ encodeRaw K m = .ok (b, w)

theorem writeNode_raw {n : Node} (hn : NotHash n) {e : Encoded} {w : Written} (h : writeNode K n = .ok (e, w)) :
    ∃ b w', encodeRaw K n = .ok (b, w') ∧ writeData K b w' = (e, w) := by
  cases n with
  | hash => cases hn
  | empty => exact ⟨_, _, rfl, Except.ok.inj h⟩
  | leaf k v =>
    simp only [writeNode] at h
    simp only [encodeRaw]
    rcases hk : Nibbles.encodeCompact k with x | c
    · rw [hk] at h; cases h
    · rw [hk] at h
      exact ⟨_, _, rfl, Except.ok.inj h⟩
  | ext p m =>
    simp only [writeNode] at h
    simp only [encodeRaw]
    rcases hk : Nibbles.encodeCompact p with x | c
    · rw [hk] at h; cases h
    · rw [hk] at h
      simp only [Res.ok_bind] at h
      rcases hm : writeNode K m with x | ⟨e', w'⟩
      · rw [hm] at h; cases h
      · rw [hm] at h
        exact ⟨_, _, rfl, Except.ok.inj h⟩
  | branch cs v =>
    simp only [writeNode] at h
    simp only [encodeRaw]
    rcases hm : writeChildren (fun i => writeNode K (cs i)) (List.finRange 16) with x | ⟨es, w'⟩
    · rw [hm] at h; cases h
    · rw [hm] at h
      exact ⟨_, _, rfl, Except.ok.inj h⟩

theorem writeChildren_all {P : H256 × Bytes → Prop} {f : Fin 16 → Res (Encoded × Written)} (hf : ∀ i e w, f i = .ok (e, w) → ∀ x ∈ w, P x)
    {l : List (Fin 16)} {es : List Bytes} {w : Written} (h : writeChildren f l = .ok (es, w)) : ∀ x ∈ w, P x := by
  induction l generalizing es w with
  | nil => cases h; intro x hx; cases hx
  | cons j t ih =>
    unfold writeChildren at h
    rcases h1 : f j with e | ⟨e, wj⟩
    · rw [h1] at h; cases h
    · rw [h1] at h
      simp only [Res.ok_bind] at h
      rcases h2 : writeChildren f t with e | ⟨es', w'⟩
      · rw [h2] at h; cases h
      · rw [h2] at h
        cases h
        intro x hx
        rcases List.mem_append.1 hx with hx | hx
        · exact hf j e wj h1 x hx
        · exact ih h2 x hx

theorem writeNode_encodings (n : Node) : NodeOk n → ∀ e w, writeNode K n = .ok (e, w) →
    (∀ x ∈ w, EncodingOf K x.2 ∧ 32 ≤ x.2.length) ∧ ∀ d, e = .inline d → EncodingOf K d := by
  have key : ∀ n : Node, NodeOk n → NotHash n → (∀ b w', encodeRaw K n = .ok (b, w') → ∀ x ∈ w', EncodingOf K x.2 ∧ 32 ≤ x.2.length) →
      ∀ e w, writeNode K n = .ok (e, w) → (∀ x ∈ w, EncodingOf K x.2 ∧ 32 ≤ x.2.length) ∧ ∀ d, e = .inline d → EncodingOf K d := by
    intro n hn hh hraw e w h
    obtain ⟨b, w', h1, h2⟩ := writeNode_raw hh h
    have hb : EncodingOf K b := ⟨n, w', hn, h1⟩
    have hw := hraw b w' h1
    unfold writeData at h2
    split at h2
    · cases h2
      exact ⟨hw, fun d hd => by cases hd; exact hb⟩
    · rename_i hlen
      cases h2
      refine ⟨fun x hx => ?_, fun d hd => by cases hd⟩
      rcases List.mem_append.1 hx with hx | hx
      · exact hw x hx
      · cases List.mem_singleton.1 hx
        exact ⟨hb, Nat.le_of_not_lt hlen⟩
  induction n with
  | hash x =>
    intro _ e w h
    cases h
    exact ⟨fun x hx => (nomatch hx), fun d hd => by cases hd⟩
  | empty => exact fun hn => key _ hn trivial fun b w' h => by cases h; exact fun x hx => (nomatch hx)
  | leaf k v =>
    refine fun hn => key _ hn trivial fun b w' h => ?_
    simp only [encodeRaw] at h
    rcases hk : Nibbles.encodeCompact k with x | c
    · rw [hk] at h; cases h
    · rw [hk] at h
      cases h
      exact fun x hx => (nomatch hx)
  | ext p m ih =>
    refine fun hn => key _ hn trivial fun b w' h => ?_
    simp only [encodeRaw] at h
    rcases hk : Nibbles.encodeCompact p with x | c
    · rw [hk] at h; cases h
    · rw [hk] at h
      simp only [Res.ok_bind] at h
      rcases hm : writeNode K m with x | ⟨e', w'⟩
      · rw [hm] at h; cases h
      · rw [hm] at h
        cases h
        exact (ih hn.2 e' _ hm).1
  | branch cs v ih =>
    refine fun hn => key _ hn trivial fun b w' h => ?_
    simp only [encodeRaw] at h
    rcases hm : writeChildren (fun i => writeNode K (cs i)) (List.finRange 16) with x | ⟨es, w'⟩
    · rw [hm] at h; cases h
    · rw [hm] at h
      cases h
      exact writeChildren_all (fun i e w he => (ih i (hn.1 i) e w he).1) hm

/-- What is stored after a commit was stored before, or is of the cache, or the encoding of a node. -/
theorem commit_stored {db' : Db} {tr tr' : Trie} {root : H256} (ha : db.light = false) (hn : NodeOk tr.root)
    (hc : tr.commit K db = .ok (tr', db', .ok root)) {x : H256} {b : Bytes} (hs : Stored db' x b) :
    Stored db x b ∨ (x, b) ∈ tr.cache ∨ x = K b ∧ EncodingOf K b ∧ Considered K root b := by
  obtain ⟨e, w, hw, hr, hdb, _, _⟩ := commit_inv ha hc
  obtain ⟨h1, h2⟩ := writeNode_encodings (K := K) _ hn e w hw
  have h3 := writeNode_hashed _ _ _ hw
  have h4 : ∀ y ∈ w, y.1 = K y.2 ∧ EncodingOf K y.2 ∧ Considered K root y.2 := fun y hy => ⟨h3 y hy, (h1 y hy).1, .inr (h1 y hy).2⟩
  rw [hdb] at hs
  unfold Stored at hs
  rw [insertBatch_get] at hs
  rcases hk : FMap.lookupL (batchOf K tr e w).reverse x with _ | c
  · rw [hk] at hs
    exact .inl hs
  · rw [hk] at hs
    cases hs
    refine .inr ?_
    have hm := List.mem_reverse.1 (mem_of_lookupL hk)
    cases e with
    | hash y =>
      rcases List.mem_append.1 hm with hm | hm
      · exact .inl hm
      · exact .inr (h4 _ hm)
    | inline d =>
      rcases List.mem_append.1 hm with hm | hm
      · rcases List.mem_append.1 hm with hm | hm
        · exact .inl hm
        · exact .inr (h4 _ hm)
      · have e := List.mem_singleton.1 hm
        cases e
        exact .inr ⟨rfl, h2 _ rfl, .inl hr.symm⟩

/-- What is written with the encoding of a node is written with the node. -/
theorem encodeRaw_write {n : Node} {b : Bytes} {w : Written} (h : encodeRaw K n = .ok (b, w)) :
    ∃ e w', writeNode K n = .ok (e, w') ∧ ∀ x ∈ w, x ∈ w' := by
  have hn : ¬ IsHash n := by
    cases n with
    | hash => cases h
    | _ => exact id
  refine ⟨(writeData K b w).1, (writeData K b w).2, by rw [writeNode_eq n hn, h], fun x hx => ?_⟩
  unfold writeData
  split
  · exact hx
  · exact List.mem_append_left _ hx

theorem encodeAll_written {l : List Node} {bs : List Bytes} {w : Written} (h : Trie.encodeAll K l = .ok (bs, w)) :
    ∀ x ∈ w, ∃ n ∈ l, ∃ b w', encodeRaw K n = .ok (b, w') ∧ x ∈ w' := by
  induction l generalizing bs w with
  | nil => cases h; exact fun x hx => (nomatch hx)
  | cons n t ih =>
    unfold Trie.encodeAll at h
    rcases h1 : encodeRaw K n with e | ⟨b, wn⟩
    · rw [h1] at h; cases h
    · rw [h1] at h
      simp only [Res.ok_bind] at h
      rcases h2 : Trie.encodeAll K t with e | ⟨bs', w'⟩
      · rw [h2] at h; cases h
      · rw [h2] at h
        cases h
        intro x hx
        rcases List.mem_append.1 hx with hx | hx
        · exact ⟨n, List.mem_cons_self, b, wn, h1, hx⟩
        · obtain ⟨m, hm, r⟩ := ih h2 x hx
          exact ⟨m, List.mem_cons_of_mem _ hm, r⟩

/-- What `get_proof` puts into the cache is written with the encoding of the root or of a node of the database. -/
theorem getProof_written {tr tr' : Trie} {k : Bytes} {r : Except String (List Bytes)} (h : tr.getProof K db k = .ok (tr', r)) :
    ∀ e ∈ tr'.cache, e ∈ tr.cache ∨ ∃ n b w, (n = tr.root ∨ ∃ y, fetch db y = .ok n) ∧ encodeRaw K n = .ok (b, w) ∧ e ∈ w := by
  unfold Trie.getProof at h
  rcases hp : pathAt db (hops db (Trie.path k)) tr.root (Trie.path k) with e | l
  · rw [hp] at h
    cases e with
    | panic m => cases h
    | err m => cases h; exact fun e he => .inl he
  · rw [hp] at h
    obtain ⟨l', hl, h⟩ : ∃ l' : List Node, (∀ n ∈ l', n = tr.root ∨ ∃ y, fetch db y = .ok n) ∧ (do
        let (bs, w) ← Trie.encodeAll K l'.reverse
        pure (tr.addWritten w, Except.ok bs) : Res (Trie × Except String (List Bytes))) = .ok (tr', r) := by
      refine ⟨_, fun n hn => ?_, h⟩
      have : n ∈ l ++ [tr.root] := by
        split at hn
        · exact List.mem_append_left _ hn
        · exact hn
      rcases List.mem_append.1 this with h | h
      · exact .inr (pathAt_from _ _ _ _ hp n h)
      · exact .inl (List.mem_singleton.1 h)
    rcases he : Trie.encodeAll K l'.reverse with e | ⟨bs, w⟩
    · rw [he] at h; cases h
    · rw [he] at h
      cases h
      intro e hc
      rcases List.mem_append.1 hc with hc | hc
      · exact .inl hc
      · obtain ⟨n, hn, b, w', h1, h2⟩ := encodeAll_written he e hc
        exact .inr ⟨n, b, w', hl n (List.mem_reverse.1 hn), h1, h2⟩

theorem getProof_hashed {tr tr' : Trie} {k : Bytes} {r : Except String (List Bytes)} (h : tr.getProof K db k = .ok (tr', r))
    (hc : ∀ e ∈ tr.cache, e.1 = K e.2) : ∀ e ∈ tr'.cache, e.1 = K e.2 := by
  intro e he
  rcases getProof_written h e he with h | ⟨n, b, w, _, h1, h2⟩
  · exact hc e h
  · obtain ⟨e', w', h3, h4⟩ := encodeRaw_write h1
    exact writeNode_hashed _ _ _ h3 e (h4 e h2)

end Verif.Pmt
