import Verif.Proofs.PmtProof
/-!
Reading never panics in a database of harmless byte strings.
-/

set_option autoImplicit false

namespace Verif.Pmt

/-- A node as it comes out of `decodeNode`: no extension has an empty prefix. -/
def Decoded : Node → Prop
  | .ext pre node => pre ≠ [] ∧ Decoded node
  | .branch children _ => ∀ i, Decoded (children i)
  | _ => True

theorem decodeChildren_mem {f : Bytes → Res Node} {l : List Bytes} {ns : List Node} (h : decodeChildren f l = .ok ns) :
    ∀ n ∈ ns, ∃ x ∈ l, f x = .ok n := by
  induction l generalizing ns with
  | nil => cases h; intro n hn; cases hn
  | cons x t ih =>
    unfold decodeChildren at h
    rcases h1 : f x with e | n
    · rw [h1] at h; cases h
    · rw [h1] at h
      simp only [Res.ok_bind] at h
      rcases h2 : decodeChildren f t with e | ns'
      · rw [h2] at h; cases h
      · rw [h2] at h
        cases h
        intro m hm
        rcases List.mem_cons.1 hm with rfl | hm
        · exact ⟨x, by simp, h1⟩
        · obtain ⟨y, hy, e⟩ := ih h2 m hm
          exact ⟨y, by simp [hy], e⟩

theorem decodeHash_shape {b : Bytes} {n : Node} (h : decodeHash b = .ok n) : ∃ x, n = .hash x := by
  unfold decodeHash at h
  split at h
  · rcases h1 : Rlp.data b with e | d
    · rw [h1] at h; cases h
    · rw [h1] at h
      simp only [Res.ok_bind] at h
      split at h
      · cases h; exact ⟨_, rfl⟩
      · cases h
  · cases h

theorem decodeAux_decoded {f : Nat} {b : Bytes} {n : Node} (h : decodeAux f b = .ok n) : Decoded n := by
  induction f generalizing b n with
  | zero => cases h
  | succ f ih =>
    unfold decodeAux at h
    split at h
    · cases h; trivial
    · next k v _ =>
      rcases h1 : Rlp.data k with e | d
      · rw [h1] at h; cases h
      · rw [h1] at h
        simp only [Res.ok_bind] at h
        rcases h2 : Nibbles.fromCompact d with e | key
        · rw [h2] at h; cases h
        · rw [h2] at h
          simp only [Res.ok_bind] at h
          rcases h3 : Nibbles.isLeaf key with e | leaf
          · rw [h3] at h; cases h
          · rw [h3] at h
            simp only [Res.ok_bind] at h
            split at h
            · rcases h4 : Rlp.data v with e | value
              · rw [h4] at h; cases h
              · rw [h4] at h; cases h; trivial
            · rcases h4 : decodeAux f v with e | m
              · rw [h4] at h; cases h
              · rw [h4] at h
                cases h
                refine ⟨?_, ih h4⟩
                rintro rfl
                cases h3
    · next items _ _ =>
      split at h
      · rcases h1 : decodeChildren (decodeAux f) (items.take 16) with e | ns
        · rw [h1] at h; cases h
        · rw [h1] at h
          simp only [Res.ok_bind] at h
          rcases h2 : decodeValue (items.getD 16 []) with e | value
          · rw [h2] at h; cases h
          · rw [h2] at h
            cases h
            intro i
            rcases h3 : ns[i.val]? with _ | m
            · simp only [List.getD, h3, Option.getD_none]; trivial
            · simp only [List.getD, h3, Option.getD_some]
              obtain ⟨x, _, e⟩ := decodeChildren_mem h1 m (List.mem_of_getElem? h3)
              exact ih e
      · obtain ⟨x, rfl⟩ := decodeHash_shape h; trivial
    · obtain ⟨x, rfl⟩ := decodeHash_shape h; trivial

/-- Not a panic. -/
def Calm {α : Type} (r : Res α) : Prop := ∀ msg, r ≠ .error (.panic msg)

/-- A byte string whose decoding does not panic and is not a bare hash. -/
def Harmless (b : Bytes) : Prop := Calm (decodeNode b) ∧ ∀ h, decodeNode b ≠ .ok (.hash h)

theorem commonPrefix_le (a b : Nibbles) : Nibbles.commonPrefix a b ≤ a.length := by
  induction a generalizing b with
  | nil => simp [Nibbles.commonPrefix]
  | cons x t ih =>
    cases b with
    | nil => simp [Nibbles.commonPrefix]
    | cons y u =>
      unfold Nibbles.commonPrefix
      split
      · have := ih u; simp only [List.length_cons]; omega
      · omega

theorem getStep_calm {hop : H256 → Nibbles → Res (Option Bytes)} {p : Nibbles} {n : Node} (hp : ∀ x ∈ p, x ≤ 16)
    (hd : Decoded n) (hn : ¬ IsHash n) (hh : ∀ h q, q.length < p.length → (∀ x ∈ q, x ≤ 16) → Calm (hop h q)) : Calm (getStep hop n p) := by
  induction n generalizing p with
  | empty => intro msg h; cases h
  | leaf => intro msg h; cases h
  | hash h => exact absurd trivial hn
  | ext pre node ih =>
    unfold getStep
    split
    · next he =>
      have hl : (p.drop pre.length).length < p.length := by
        have h1 := commonPrefix_le p pre
        have h2 : 0 < pre.length := List.length_pos_iff.2 hd.1
        rw [List.length_drop]
        omega
      have hq : ∀ x ∈ p.drop pre.length, x ≤ 16 := fun x hx => hp x (List.mem_of_mem_drop hx)
      by_cases hc : IsHash node
      · cases node <;> first | exact hc.elim | exact hh _ _ hl hq
      · exact ih hq hd.2 hc (fun h q h1 h2 => hh h q (by omega) h2)
    · intro msg h; cases h
  | branch children value ih =>
    cases p with
    | nil => intro msg h; cases h
    | cons x t =>
      unfold getStep
      have hq : ∀ y ∈ t, y ≤ 16 := fun y hy => hp y (by simp [hy])
      have hx := hp x (by simp)
      simp only
      split
      · intro msg h; cases h
      · split
        · next h1 h2 =>
          by_cases hc : IsHash (children ⟨x, h2⟩)
          · revert hc
            cases children ⟨x, h2⟩ <;> intro hc <;> first | exact hc.elim | exact hh _ _ (by simp) hq
          · exact ih ⟨x, h2⟩ hq (hd ⟨x, h2⟩) hc (fun h q g1 g2 => hh h q (by simp only [List.length_cons]; omega) g2)
        · omega

theorem fetch_harmless {db : Db} (hdb : ∀ h b, db.get h = some b → Harmless b) (h : H256) :
    (∃ n, fetch db h = .ok n ∧ Decoded n ∧ ¬ IsHash n) ∨ ∃ msg, fetch db h = .error (.err msg) := by
  unfold fetch recover
  rcases hg : db.get h with _ | b
  · exact .inr ⟨_, rfl⟩
  · obtain ⟨h1, h2⟩ := hdb h b hg
    rcases hd : decodeNode b with e | n
    · cases e with
      | err msg => simp only [hd, Res.error_bind]; exact .inr ⟨msg, rfl⟩
      | panic msg => exact absurd hd (h1 msg)
    · refine .inl ⟨n, by simp only [hd, Res.ok_bind, Res.pure_eq], decodeAux_decoded hd, ?_⟩
      intro hc
      cases n <;> first | exact hc.elim | exact h2 _ hd

theorem getAt_calm {db : Db} (hdb : ∀ h b, db.get h = some b → Harmless b) (fuel : Nat) (n : Node) (p : Nibbles) (hp : ∀ x ∈ p, x ≤ 16)
    (hd : Decoded n) (hn : ¬ IsHash n) (hf : p.length ≤ fuel) : Calm (getAt db fuel n p) := by
  induction fuel generalizing n p with
  | zero => exact getStep_calm hp hd hn (fun h q hq _ => by omega)
  | succ f ih =>
    refine getStep_calm hp hd hn (fun h q hq hx => ?_)
    rcases fetch_harmless hdb h with ⟨m, e, h1, h2⟩ | ⟨msg, e⟩
    · simp only [e]; exact ih m q hx h1 h2 (by omega)
    · simp only [e]; intro m h; cases h

theorem path_le (k : Bytes) : ∀ x ∈ Trie.path k, x ≤ 16 := by
  intro x hx
  rw [path_eq] at hx
  rcases List.mem_append.1 hx with h | h
  · have := toNibs_lt _ _ h; omega
  · rw [List.mem_singleton.1 h]; omega

theorem verifyProof_calm {K : Keccak} {root : H256} {k : Bytes} {proof : List Bytes} (h : ∀ b ∈ proof, Harmless b) :
    (∃ v, verifyProof K root k proof = .ok v) ∨ verifyProof K root k proof = .error (.err "InvalidProof") := by
  have hdb : ∀ x b, (proofDb K root proof).get x = some b → Harmless b := fun x b hx => h b (proofDb_get hx).2
  unfold verifyProof Trie.get Trie.atRoot
  have hf : (Trie.path k).length + 1 ≤ hops (proofDb K root proof) (Trie.path k) := by
    unfold hops
    have : ((Trie.path k).length + 1) * 1 ≤ ((Trie.path k).length + 1) * ((proofDb K root proof).len + 1) := Nat.mul_le_mul_left _ (by omega)
    omega
  generalize hops (proofDb K root proof) (Trie.path k) = fuel at *
  have : Calm (getAt (proofDb K root proof) fuel (.hash root) (Trie.path k)) := by
    cases fuel with
    | zero => omega
    | succ f =>
      show Calm (match fetch (proofDb K root proof) root with
        | .error e => .error e
        | .ok n => getAt (proofDb K root proof) f n (Trie.path k))
      rcases fetch_harmless hdb root with ⟨m, e, h1, h2⟩ | ⟨msg, e⟩
      · simp only [e]; exact getAt_calm hdb f m _ (path_le k) h1 h2 (by omega)
      · simp only [e]; intro m h; cases h
  simp only
  rcases hr : getAt (proofDb K root proof) fuel (.hash root) (Trie.path k) with e | v
  · cases e with
    | err => exact .inr rfl
    | panic msg => exact absurd hr (this msg)
  · exact .inl ⟨v, rfl⟩

/-! ### Decoding ends -/

namespace Rlp

theorem first_length {b x : Bytes} (h : first b = some x) : x.length ≤ b.length := by
  unfold first at h
  split at h
  · cases h
  · cases h
    rw [List.length_take]
    omega

theorem itemsFrom_length {f : Nat} {b : Bytes} : ∀ x ∈ itemsFrom f b, x.length ≤ b.length := by
  induction f generalizing b with
  | zero => intro x hx; cases hx
  | succ f ih =>
    intro x hx
    unfold itemsFrom at hx
    split at hx
    · cases hx
    · next y hy =>
      rcases List.mem_cons.1 hx with rfl | hx
      · exact first_length hy
      · have := ih x hx
        rw [List.length_drop] at this
        omega

theorem info_list {b : Bytes} (hb : isData b = false) {i : Info} (h : payloadInfo b = .ok i) : 1 ≤ i.headerLen ∧ i.headerLen + i.valueLen ≤ b.length := by
  unfold payloadInfo at h
  rcases h1 : infoFrom b with e | j
  · rw [h1] at h; cases h
  · rw [h1] at h
    simp only at h
    split at h
    · next hl =>
      cases h
      refine ⟨?_, hl⟩
      cases b with
      | nil => cases h1
      | cons x t =>
        have hx : ¬ x.toNat < 0xc0 := by simpa [isData] using hb
        unfold infoFrom at h1
        simp only at h1
        unfold longInfo at h1
        split at h1
        · omega
        · split at h1
          · omega
          · split at h1
            · omega
            · split at h1
              · cases h1; exact Nat.le_refl _
              · split at h1
                · cases h1
                · split at h1
                  · cases h1
                  · split at h1
                    · cases h1
                    · dsimp only at h1
                      split at h1
                      · cases h1
                      · injection h1 with h1; rw [← h1]; simp only; omega
    · cases h

theorem items_length {b : Bytes} (hb : isData b = false) : ∀ x ∈ items b, x.length < b.length := by
  intro x hx
  unfold items at hx
  split at hx
  · cases hx
  · next i hi =>
    obtain ⟨h1, h2⟩ := info_list hb hi
    split at hx
    · cases hx
    · next y hy =>
      rcases List.mem_cons.1 hx with rfl | hx
      · have := first_length hy
        rw [List.length_take, List.length_drop] at this
        omega
      · have := itemsFrom_length x hx
        rw [List.length_drop] at this
        omega

theorem prototype_items {b : Bytes} {l : List Bytes} (h : prototype b = .list l) : ∀ x ∈ l, x.length < b.length := by
  unfold prototype at h
  split at h
  · cases h
  · next hb =>
    split at h
    · cases h; exact items_length (by simpa using hb)
    · cases h

end Rlp

theorem decodeChildren_congr {f g : Bytes → Res Node} {l : List Bytes} (h : ∀ x ∈ l, f x = g x) : decodeChildren f l = decodeChildren g l := by
  induction l with
  | nil => rfl
  | cons x t ih =>
    unfold decodeChildren
    rw [h x (by simp), ih (fun y hy => h y (by simp [hy]))]

/-- The number of rounds allowed in `decodeNode` suffices: with more rounds the result is the same, for all byte strings. -/
theorem decodeAux_fuel {b : Bytes} {f g : Nat} (hf : b.length < f) (hg : b.length < g) : decodeAux f b = decodeAux g b := by
  induction f generalizing b g with
  | zero => omega
  | succ f ih =>
    cases g with
    | zero => omega
    | succ g =>
      have key : ∀ {l : List Bytes}, Rlp.prototype b = .list l → ∀ x ∈ l, decodeAux f x = decodeAux g x := by
        intro l hl x hx
        have := Rlp.prototype_items hl x hx
        exact ih (by omega) (by omega)
      unfold decodeAux
      split
      · rfl
      · next k v hp => rw [key hp v (by simp)]
      · next items _ hp =>
        rw [decodeChildren_congr (fun x hx => key hp x (List.mem_of_mem_take hx))]
      · rfl

end Verif.Pmt
