import Verif.Proofs.PmtNode
import Mathlib.Data.List.Induction
import Mathlib.Tactic.SplitIfs
/-!
What decoding accepts: headers that the encoder writes, and well-formed nodes.
-/

set_option autoImplicit false

namespace Verif.Pmt.Rlp

theorem beNat_snoc (l : Bytes) (x : UInt8) : beNat (l ++ [x]) = beNat l * 256 + x.toNat := by
  rw [beNat_append]; rfl

theorem beNat_lt (l : Bytes) : beNat l < 256 ^ l.length := by
  induction l using List.reverseRecOn with
  | nil => decide
  | append_singleton l x ih =>
    rw [beNat_snoc, List.length_append, List.length_cons, List.length_nil, Nat.pow_succ]
    have := x.toNat_lt
    have h : beNat l + 1 ≤ 256 ^ l.length := ih
    calc beNat l * 256 + x.toNat < (beNat l + 1) * 256 := by omega
      _ ≤ _ := Nat.mul_le_mul_right _ h

theorem beBytes_zero (f : Nat) : beBytes f 0 = [] := by cases f <;> simp [beBytes]

/-- Bytes that do not begin with zero are the ones the encoder writes for their number. -/
theorem beBytes_beNat (l : Bytes) : ∀ f, l.length ≤ f → (∀ b t, l = b :: t → b ≠ 0) → beBytes f (beNat l) = l := by
  induction l using List.reverseRecOn with
  | nil => intro f _ _; exact beBytes_zero f
  | append_singleton l x ih =>
    intro f hf hh
    cases f with
    | zero => simp at hf
    | succ f =>
      have hx := x.toNat_lt
      have hne : beNat l * 256 + x.toNat ≠ 0 := by
        cases l with
        | nil =>
          have := hh x [] rfl
          intro h0
          apply this
          have : x.toNat = 0 := by simpa [beNat] using h0
          exact UInt8.toNat_inj.1 this
        | cons b t =>
          have hb := hh b (t ++ [x]) rfl
          have ih' := ih (f + 1) (by simp at hf ⊢; omega) (by rintro b' t' e; cases e; exact hb)
          intro h0
          have h1 : beNat (b :: t) = 0 := by omega
          rw [h1, beBytes_zero] at ih'
          cases ih'
      rw [beNat_snoc]
      unfold beBytes
      rw [if_neg hne, show (beNat l * 256 + x.toNat) / 256 = beNat l by omega,
        ih f (by simp at hf; omega) (by
          rintro b t rfl
          exact hh b (t ++ [x]) rfl)]
      congr 2
      apply UInt8.toNat_inj.1
      rw [UInt8.toNat_ofNat']
      show _ % 256 = _
      omega

/-- A long header that is accepted is the one the encoder writes. -/
theorem longInfo_header {bytes : Bytes} {b : UInt8} {t : Bytes} (hb : bytes = b :: t) {n off : Nat} {i : Info} (hn : n ≤ 8) (hn0 : n ≠ 0)
    (hbn : b.toNat = off + 55 + n) (h : longInfo bytes n = .ok i) :
    55 < i.valueLen ∧ i.headerLen ≤ bytes.length ∧ bytes.take i.headerLen = header off i.valueLen := by
  subst hb
  unfold longInfo at h
  cases t with
  | nil => simp at h
  | cons c t =>
    simp only [List.getElem?_cons_succ, List.getElem?_cons_zero, List.drop_succ_cons, List.drop_zero] at h
    split_ifs at h with h1 h2 h3
    cases h
    have hlen : n ≤ (c :: t).length := by simp at h2 ⊢; omega
    have hl : ((c :: t).take n).length = n := by rw [List.length_take]; omega
    have hback := beBytes_beNat ((c :: t).take n) 8 (by omega) (by
      rintro b' t' e
      cases n with
      | zero => exact absurd rfl hn0
      | succ n =>
        rw [List.take_succ_cons] at e
        cases e
        exact h1)
    refine ⟨Nat.lt_of_not_le h3, by simp only [List.length_cons] at hlen ⊢; omega, ?_⟩
    unfold header
    rw [if_neg h3]
    simp only
    rw [hback, hl, show 1 + n = n + 1 by omega, List.take_succ_cons]
    congr 1
    apply UInt8.toNat_inj.1
    rw [UInt8.toNat_ofNat', hbn]
    have := b.toNat_lt
    show _ = _ % 256
    omega

/-- Every header that is accepted is the one the encoder writes for a payload of this length, or there is none. -/
theorem payloadInfo_header {bytes : Bytes} {i : Info} (h : payloadInfo bytes = .ok i) :
    i.headerLen + i.valueLen ≤ bytes.length ∧
    ((∃ b t, bytes = b :: t ∧ b.toNat < 0x80 ∧ i.headerLen = 0 ∧ i.valueLen = 1) ∨
      (isData bytes = true ∧ bytes.take i.headerLen = header 0x80 i.valueLen) ∨
      (isList bytes = true ∧ bytes.take i.headerLen = header 0xc0 i.valueLen)) := by
  unfold payloadInfo at h
  cases hi : infoFrom bytes with
  | error e => rw [hi] at h; cases h
  | ok j =>
    rw [hi] at h
    simp only at h
    split_ifs at h with hlen
    cases h
    refine ⟨hlen, ?_⟩
    unfold infoFrom at hi
    cases bytes with
    | nil => cases hi
    | cons b t =>
      have hb := b.toNat_lt
      simp only at hi
      have hshort : ∀ off, off + 0 ≤ b.toNat → b.toNat ≤ off + 55 → [b] = header off (b.toNat - off) := by
        intro off h1 h2
        unfold header
        rw [if_pos (by omega)]
        congr 1
        apply UInt8.toNat_inj.1
        rw [UInt8.toNat_ofNat']
        show _ = _ % 256
        omega
      split_ifs at hi with h1 h2 h3 h4
      · cases hi
        exact .inl ⟨b, t, rfl, by omega, rfl, rfl⟩
      · cases hi
        refine .inr (.inl ⟨by simp [isData]; omega, ?_⟩)
        exact hshort 0x80 (by omega) (by omega)
      · refine .inr (.inl ⟨by simp [isData]; omega, ?_⟩)
        exact (longInfo_header rfl (off := 0x80) (by omega) (by omega) (by omega) hi).2.2
      · cases hi
        refine .inr (.inr ⟨by simp [isList]; omega, ?_⟩)
        exact hshort 0xc0 (by omega) (by omega)
      · refine .inr (.inr ⟨by simp [isList]; omega, ?_⟩)
        exact (longInfo_header rfl (off := 0xc0) (by omega) (by omega) (by omega) hi).2.2

theorem header_zero {off : Nat} : header off 0 = [UInt8.ofNat off] := rfl

/-- What is read as data: as long as the header says, and not empty unless the item is. -/
theorem data_ok {x d : Bytes} (h : data x = .ok d) : d.length ≤ x.length ∧ (isEmpty x = false → d ≠ []) := by
  unfold data at h
  cases hp : payloadInfo x with
  | error e => rw [hp] at h; cases h
  | ok i =>
    rw [hp] at h
    cases h
    obtain ⟨hlen, hcase⟩ := payloadInfo_header hp
    have hl : ((x.drop i.headerLen).take i.valueLen).length = i.valueLen := by
      rw [List.length_take, List.length_drop]; omega
    refine ⟨by rw [hl]; omega, ?_⟩
    intro he h0
    rw [h0] at hl
    have hv : i.valueLen = 0 := by simpa using hl.symm
    rcases hcase with ⟨b, t, _, _, _, h1⟩ | ⟨_, h1⟩ | ⟨_, h1⟩
    · omega
    all_goals
      rw [hv, header_zero] at h1
      cases x with
      | nil => simp at h1
      | cons b t =>
        cases hh : i.headerLen with
        | zero => rw [hh] at h1; simp at h1
        | succ n =>
          rw [hh, List.take_succ_cons] at h1
          have hb := (List.cons.inj h1).1
          subst hb
          revert he
          simp [isEmpty]

theorem first_length_le {b x : Bytes} (h : first b = some x) : x.length ≤ b.length := by
  unfold first at h
  cases hp : payloadInfo b with
  | error e => rw [hp] at h; cases h
  | ok i => rw [hp] at h; cases h; rw [List.length_take]; omega

theorem itemsFrom_length_le (f : Nat) : ∀ b : Bytes, ∀ x ∈ itemsFrom f b, x.length ≤ b.length := by
  induction f with
  | zero => intro b x hx; cases hx
  | succ f ih =>
    intro b x hx
    unfold itemsFrom at hx
    cases hf : first b with
    | none => rw [hf] at hx; cases hx
    | some y =>
      rw [hf] at hx
      rcases List.mem_cons.1 hx with rfl | hx
      · exact first_length_le hf
      · have := ih _ x hx
        rw [List.length_drop] at this
        omega

theorem items_length_le {b x : Bytes} (hx : x ∈ items b) : x.length ≤ b.length := by
  unfold items at hx
  cases hp : payloadInfo b with
  | error e => rw [hp] at hx; cases hx
  | ok i =>
    rw [hp] at hx
    simp only at hx
    cases hf : first ((b.drop i.headerLen).take i.valueLen) with
    | none => rw [hf] at hx; cases hx
    | some y =>
      rw [hf] at hx
      rcases List.mem_cons.1 hx with rfl | hx
      · have := first_length_le hf
        rw [List.length_take, List.length_drop] at this
        omega
      · have := itemsFrom_length_le _ _ x hx
        rw [List.length_drop] at this
        omega

theorem prototype_list_items {b : Bytes} {l : List Bytes} (h : prototype b = .list l) : l = items b := by
  unfold prototype at h
  split_ifs at h
  cases h; rfl

end Verif.Pmt.Rlp

namespace Verif.Pmt

theorem bindOk {α β : Type} {x : Res α} {f : α → Res β} {b : β} (h : (x >>= f) = .ok b) : ∃ a, x = .ok a ∧ f a = .ok b := by
  cases x with
  | ok a => exact ⟨a, rfl, h⟩
  | error e => cases h

/-- Paths that are decoded are digits, with the terminator in leaves, and not empty in extensions. -/
theorem fromCompact_shape {d : Bytes} {key : Nibbles} {leaf : Bool} (h : Nibbles.fromCompact d = .ok key)
    (hl : Nibbles.isLeaf key = .ok leaf) :
    ∃ l : List (Fin 16), l.length ≤ 2 * d.length ∧ if leaf then key = l.map Fin.val ++ [16] else key = l.map Fin.val ∧ l ≠ [] := by
  have ext : ∀ l : List (Fin 16), l.length ≤ 2 * d.length → key = toNibs l →
      ∃ l : List (Fin 16), l.length ≤ 2 * d.length ∧ if leaf then key = l.map Fin.val ++ [16] else key = l.map Fin.val ∧ l ≠ [] := by
    intro l hlen hk
    subst hk
    have hne : l ≠ [] := by rintro rfl; cases hl
    rw [isLeaf_toNibs hne] at hl
    cases hl
    exact ⟨l, hlen, rfl, hne⟩
  have lf : ∀ l : List (Fin 16), l.length ≤ 2 * d.length → key = leafPath l →
      ∃ l : List (Fin 16), l.length ≤ 2 * d.length ∧ if leaf then key = l.map Fin.val ++ [16] else key = l.map Fin.val ∧ l ≠ [] := by
    intro l hlen hk
    subst hk
    rw [isLeaf_leafPath] at hl
    cases hl
    exact ⟨l, hlen, rfl⟩
  cases d with
  | nil => cases h
  | cons flag rest =>
    have hn := nibsOf_length rest
    simp only [Nibbles.fromCompact] at h
    have hd : flag.toNat % 16 < 16 := Nat.mod_lt _ (by decide)
    split at h
    · cases h
      exact ext (nibsOf rest) (by rw [hn, List.length_cons]; omega) (fromRaw_nibs rest)
    · cases h
      refine ext (⟨flag.toNat % 16, hd⟩ :: nibsOf rest) (by rw [List.length_cons, hn, List.length_cons]; omega) ?_
      rw [fromRaw_nibs]; rfl
    · cases h
      exact lf (nibsOf rest) (by rw [hn, List.length_cons]; omega) (fromRaw_leaf rest)
    · cases h
      refine lf (⟨flag.toNat % 16, hd⟩ :: nibsOf rest) (by rw [List.length_cons, hn, List.length_cons]; omega) ?_
      rw [fromRaw_leaf]; rfl
    · cases h

theorem decodeHash_ok {b : Bytes} {n : Node} (h : decodeHash b = .ok n) : Spec.NodeOk n := by
  unfold decodeHash at h
  split_ifs at h
  obtain ⟨d, _, h1⟩ := bindOk h
  split_ifs at h1
  cases h1
  trivial

theorem decodedChildren_mem {f : Bytes → Res Node} : ∀ (l : List Bytes) (ns : List Node), decodeChildren f l = .ok ns →
    ∀ n ∈ ns, ∃ x ∈ l, f x = .ok n := by
  intro l
  induction l with
  | nil => intro ns h n hn; cases h; cases hn
  | cons x t ih =>
    intro ns h n hn
    obtain ⟨m, h1, h2⟩ := bindOk h
    obtain ⟨ms, h3, h4⟩ := bindOk h2
    cases h4
    rcases List.mem_cons.1 hn with rfl | hn
    · exact ⟨x, by simp, h1⟩
    · obtain ⟨y, hy, hf⟩ := ih ms h3 n hn
      exact ⟨y, List.mem_cons_of_mem _ hy, hf⟩

theorem decodeAux_ok (f : Nat) : ∀ (b : Bytes) (n : Node), b.length < 2 ^ 59 → decodeAux f b = .ok n → Spec.NodeOk n := by
  induction f with
  | zero => intro b n _ h; cases h
  | succ f ih =>
    intro b n hb h
    unfold decodeAux at h
    split at h
    · cases h; trivial
    · rename_i k v hp
      have hit := Rlp.prototype_list_items hp
      have hkl : k.length ≤ b.length := Rlp.items_length_le (by rw [← hit]; simp)
      have hvl : v.length ≤ b.length := Rlp.items_length_le (by rw [← hit]; simp)
      obtain ⟨d, h1, h⟩ := bindOk h
      obtain ⟨key, h2, h⟩ := bindOk h
      obtain ⟨leaf, h3, h⟩ := bindOk h
      have hd := (Rlp.data_ok h1).1
      obtain ⟨l, hlen, hs⟩ := fromCompact_shape h2 h3
      cases leaf with
      | true =>
        simp only [if_true] at h hs
        obtain ⟨value, h4, h5⟩ := bindOk h
        cases h5
        have := (Rlp.data_ok h4).1
        exact ⟨⟨l, hs, by omega⟩, by omega⟩
      | false =>
        simp only [Bool.false_eq_true, if_false] at h hs
        obtain ⟨m, h4, h5⟩ := bindOk h
        cases h5
        exact ⟨⟨l, hs.1, hs.2, by omega⟩, ih v m (by omega) h4⟩
    · rename_i items _ hp
      have hit := Rlp.prototype_list_items hp
      split_ifs at h with h17
      · obtain ⟨ns, h1, h⟩ := bindOk h
        obtain ⟨value, h2, h3⟩ := bindOk h
        cases h3
        refine ⟨?_, ?_⟩
        · intro i
          show Spec.NodeOk (ns.getD i.val .empty)
          rw [List.getD_eq_getElem?_getD]
          cases hn : ns[i.val]? with
          | none => trivial
          | some m =>
            obtain ⟨x, hx, hf⟩ := decodedChildren_mem _ _ h1 m (List.mem_of_getElem? hn)
            have : x.length ≤ b.length := Rlp.items_length_le (by rw [← hit]; exact List.mem_of_mem_take hx)
            exact ih x m (by omega) hf
        · intro v hv
          subst hv
          unfold decodeValue at h2
          split_ifs at h2 with he
          · cases h2
          · obtain ⟨w, h4, h5⟩ := bindOk h2
            cases h5
            obtain ⟨g1, g2⟩ := Rlp.data_ok h4
            have : (items.getD 16 []).length ≤ b.length := by
              refine Rlp.items_length_le ?_
              rw [← hit, List.getD_eq_getElem?_getD, List.getElem?_eq_getElem (by omega)]
              exact List.getElem_mem _
            exact ⟨g2 (by simpa using he), by omega⟩
      · exact decodeHash_ok h
    · exact decodeHash_ok h

end Verif.Pmt
