import Verif.Proofs.PmtNibbles
/-!
Reading back what the RLP encoder writes.
-/

set_option autoImplicit false

namespace Verif.Pmt.Rlp

theorem beNat_append (a b : Bytes) : beNat (a ++ b) = b.foldl (fun acc x => acc * 256 + x.toNat) (beNat a) := by
  simp [beNat, List.foldl_append]

theorem beNat_beBytes (f n : Nat) (h : n < 256 ^ f) : beNat (beBytes f n) = n := by
  induction f generalizing n with
  | zero => simp at h; subst h; rfl
  | succ f ih =>
    unfold beBytes
    split
    · next h0 => subst h0; rfl
    · rw [beNat_append, ih (n / 256) (by rw [Nat.pow_succ] at h; exact Nat.div_lt_of_lt_mul (by rwa [Nat.mul_comm] at h))]
      simp only [List.foldl_cons, List.foldl_nil, UInt8.toNat_ofNat']
      have : (2 : Nat) ^ 8 = 256 := rfl
      rw [this]
      omega

theorem beBytes_length_le (f n : Nat) : (beBytes f n).length ≤ f := by
  induction f generalizing n with
  | zero => simp [beBytes]
  | succ f ih =>
    unfold beBytes
    split
    · simp
    · have := ih (n / 256)
      simp only [List.length_append, List.length_cons, List.length_nil]; omega

theorem beBytes_head (f n : Nat) (hn : n ≠ 0) (h : n < 256 ^ f) : ∃ b l, beBytes f n = b :: l ∧ b ≠ 0 := by
  induction f generalizing n with
  | zero => simp at h; exact absurd h hn
  | succ f ih =>
    unfold beBytes
    rw [if_neg hn]
    by_cases h0 : n / 256 = 0
    · rw [h0]
      have : beBytes f 0 = [] := by cases f <;> simp [beBytes]
      rw [this]
      refine ⟨UInt8.ofNat n, [], rfl, ?_⟩
      intro h1
      have h2 : (UInt8.ofNat n).toNat = 0 := by rw [h1]; rfl
      rw [ofNat_toNat (by omega)] at h2
      exact hn h2
    · obtain ⟨b, l, h1, h2⟩ := ih (n / 256) h0
        (by rw [Nat.pow_succ] at h; exact Nat.div_lt_of_lt_mul (by rwa [Nat.mul_comm] at h))
      exact ⟨b, l ++ [UInt8.ofNat n], by rw [h1]; rfl, h2⟩

/-- `x` is one item with the given payload, whatever follows it. -/
structure Item (x payload : Bytes) : Prop where
  split : ∃ hd, x = hd ++ payload ∧ ∀ rest, payloadInfo (x ++ rest) = .ok ⟨hd.length, payload.length⟩
  pos : x ≠ []

theorem infoFrom_short {b : UInt8} {rest : Bytes} {off len : Nat} (ho : off = 0x80 ∨ off = 0xc0) (hl : len ≤ 55)
    (hb : b.toNat = off + len) : infoFrom (b :: rest) = .ok ⟨1, len⟩ := by
  unfold infoFrom
  simp only [hb]
  rcases ho with rfl | rfl
  · rw [if_neg (by omega), if_pos (by omega)]
    simp
  · rw [if_neg (by omega), if_neg (by omega), if_neg (by omega), if_pos (by omega)]
    simp

theorem infoFrom_long {b : UInt8} {off len : Nat} {rest : Bytes} (ho : off = 0x80 ∨ off = 0xc0) (hl : 55 < len) (hlt : len < 256 ^ 8)
    (hb : b.toNat = off + 55 + (beBytes 8 len).length) :
    infoFrom (b :: (beBytes 8 len ++ rest)) = .ok ⟨1 + (beBytes 8 len).length, len⟩ := by
  have h8 := beBytes_length_le 8 len
  obtain ⟨c, l, hc, hc0⟩ := beBytes_head 8 len (by omega) hlt
  have hpos : 1 ≤ (beBytes 8 len).length := by rw [hc]; simp
  have key : longInfo (b :: (beBytes 8 len ++ rest)) (beBytes 8 len).length = .ok ⟨1 + (beBytes 8 len).length, len⟩ := by
    unfold longInfo
    have e1 : (b :: (beBytes 8 len ++ rest))[1]? = some c := by rw [hc]; rfl
    rw [e1]
    simp only [hc0, if_false]
    rw [if_neg (by simp only [List.length_cons, List.length_append]; omega)]
    have e2 : ((b :: (beBytes 8 len ++ rest)).drop 1).take (beBytes 8 len).length = beBytes 8 len := by simp
    rw [e2, beNat_beBytes 8 len hlt, if_neg (by omega)]
  unfold infoFrom
  simp only [hb]
  rcases ho with rfl | rfl
  · rw [if_neg (by omega), if_neg (by omega), if_pos (by omega), show 0x80 + 55 + (beBytes 8 len).length - 0xb7 = (beBytes 8 len).length by omega]
    exact key
  · rw [if_neg (by omega), if_neg (by omega), if_neg (by omega), if_neg (by omega),
      show 0xc0 + 55 + (beBytes 8 len).length - 0xf7 = (beBytes 8 len).length by omega]
    exact key

theorem item_header {off : Nat} (ho : off = 0x80 ∨ off = 0xc0) (p : Bytes) (h : p.length < 256 ^ 8) :
    Item (header off p.length ++ p) p := by
  have h8 := beBytes_length_le 8 p.length
  unfold header
  split
  · next hl =>
    refine ⟨⟨_, rfl, fun rest => ?_⟩, by simp⟩
    unfold payloadInfo
    rw [show ([UInt8.ofNat (off + p.length)] ++ p) ++ rest = UInt8.ofNat (off + p.length) :: (p ++ rest) by simp,
      infoFrom_short ho hl (ofNat_toNat (by omega))]
    simp; omega
  · next hl =>
    refine ⟨⟨_, rfl, fun rest => ?_⟩, by simp⟩
    unfold payloadInfo
    rw [show ((UInt8.ofNat (off + 55 + (beBytes 8 p.length).length) :: beBytes 8 p.length) ++ p) ++ rest
      = UInt8.ofNat (off + 55 + (beBytes 8 p.length).length) :: (beBytes 8 p.length ++ (p ++ rest)) by simp,
      infoFrom_long ho (by omega) h (ofNat_toNat (by omega))]
    simp only [List.length_cons, List.length_append]
    rw [if_pos (by omega), Nat.add_comm]

theorem item_data (b : Bytes) (h : b.length < 256 ^ 8) : Item (encodeData b) b := by
  unfold encodeData
  split
  · next x =>
    split
    · next hx =>
      refine ⟨⟨[], rfl, fun rest => ?_⟩, by simp⟩
      unfold payloadInfo infoFrom
      simp only [List.cons_append, List.nil_append]
      rw [if_pos (by omega)]
      simp
    · exact item_header (.inl rfl) [x] (by simp)
  · exact item_header (.inl rfl) b h

theorem item_list (l : List Bytes) (h : l.flatten.length < 256 ^ 8) : Item (encodeList l) l.flatten :=
  item_header (.inr rfl) _ h

theorem Item.first {x p : Bytes} (h : Item x p) (rest : Bytes) : Rlp.first (x ++ rest) = some x := by
  obtain ⟨⟨hd, hx, hi⟩, _⟩ := h
  unfold Rlp.first
  rw [hi rest]
  simp only
  rw [← List.length_append, ← hx, List.take_left' rfl]

theorem Item.data {x p : Bytes} (h : Item x p) : Rlp.data x = .ok p := by
  obtain ⟨⟨hd, hx, hi⟩, _⟩ := h
  unfold Rlp.data
  have := hi []
  rw [List.append_nil] at this
  rw [this]
  simp only
  rw [hx, List.drop_left' rfl, List.take_length]

theorem itemsFrom_flatten {l : List Bytes} (h : ∀ x ∈ l, ∃ p, Item x p) (f : Nat) (hf : l.length ≤ f) :
    itemsFrom f l.flatten = l := by
  induction l generalizing f with
  | nil =>
    cases f with
    | zero => rfl
    | succ f => rfl
  | cons x t ih =>
    cases f with
    | zero => simp at hf
    | succ f =>
      obtain ⟨p, hp⟩ := h x (by simp)
      unfold itemsFrom
      rw [List.flatten_cons, hp.first]
      simp only [List.drop_left', List.length_cons] at hf ⊢
      rw [ih (fun y hy => h y (by simp [hy])) f (by omega)]

theorem flatten_length_ge {l : List Bytes} (h : ∀ x ∈ l, x ≠ []) : l.length ≤ l.flatten.length := by
  induction l with
  | nil => simp
  | cons x t ih =>
    have := ih (fun y hy => h y (by simp [hy]))
    have hx : 0 < x.length := List.length_pos_iff.2 (h x (by simp))
    simp only [List.flatten_cons, List.length_append, List.length_cons]
    omega

theorem items_encodeList {l : List Bytes} (h : ∀ x ∈ l, ∃ p, Item x p) (hlen : l.flatten.length < 256 ^ 8) :
    items (encodeList l) = l := by
  have hpos : ∀ x ∈ l, x ≠ [] := fun x hx => (h x hx).choose_spec.pos
  have hge := flatten_length_ge hpos
  obtain ⟨⟨hd, hx, hi⟩, _⟩ := item_list l hlen
  have := hi []
  rw [List.append_nil] at this
  unfold items
  rw [this]
  simp only
  rw [hx, List.drop_left' rfl, List.take_length]
  cases l with
  | nil => rfl
  | cons x t =>
    obtain ⟨p, hp⟩ := h x (by simp)
    simp only [List.flatten_cons] at hge ⊢
    rw [hp.first]
    simp only
    rw [← List.append_assoc, List.drop_left' (by simp)]
    rw [itemsFrom_flatten (fun y hy => h y (by simp [hy]))]
    simp only [List.length_append, List.length_cons] at hge ⊢
    omega

theorem head_header {off len : Nat} (ho : off = 0x80 ∨ off = 0xc0) :
    ∃ b l, header off len = b :: l ∧ off ≤ b.toNat ∧ b.toNat ≤ off + 63 ∧ (b.toNat = off → len = 0) := by
  have h8 := beBytes_length_le 8 len
  unfold header
  split
  · have e : (UInt8.ofNat (off + len)).toNat = off + len := ofNat_toNat (by omega)
    exact ⟨_, _, rfl, by omega, by omega, by omega⟩
  · have e : (UInt8.ofNat (off + 55 + (beBytes 8 len).length)).toNat = off + 55 + (beBytes 8 len).length := ofNat_toNat (by omega)
    exact ⟨_, _, rfl, by omega, by omega, by omega⟩

theorem isData_encodeList (l : List Bytes) : isData (encodeList l) = false ∧ isList (encodeList l) = true := by
  obtain ⟨b, t, h, h1, _⟩ := head_header (off := 0xc0) (len := l.flatten.length) (.inr rfl)
  unfold encodeList
  rw [h]
  simp only [List.cons_append, isData, isList]
  constructor
  · simp only [decide_eq_false_iff_not]; omega
  · simpa using h1

theorem prototype_list {l : List Bytes} (h : ∀ x ∈ l, ∃ p, Item x p) (hlen : l.flatten.length < 256 ^ 8) :
    prototype (encodeList l) = .list l := by
  unfold prototype
  rw [(isData_encodeList l).1, (isData_encodeList l).2, items_encodeList h hlen]
  simp

theorem head_encodeData {b : Bytes} : ∃ x l, encodeData b = x :: l ∧ x.toNat < 0xc0 ∧ (b ≠ [] → x.toNat ≠ 0x80) := by
  unfold encodeData
  split
  · next x =>
    split
    · next hx => exact ⟨x, [], rfl, by omega, fun _ => by omega⟩
    · obtain ⟨b, t, h, h1, h2, h3⟩ := head_header (off := 0x80) (len := 1) (.inl rfl)
      exact ⟨b, t ++ [x], by rw [h]; rfl, by omega, fun _ hb => by have := h3 hb; omega⟩
  · obtain ⟨c, t, h, h1, h2, h3⟩ := head_header (off := 0x80) (len := b.length) (.inl rfl)
    refine ⟨c, t ++ b, by rw [h]; rfl, by omega, fun hb hc => hb (List.length_eq_zero_iff.1 (h3 hc))⟩

theorem isData_encodeData (b : Bytes) : isData (encodeData b) = true := by
  obtain ⟨x, l, h, h1, _⟩ := head_encodeData (b := b)
  rw [h]
  simpa [isData] using h1

theorem size_encodeData {b : Bytes} (h : b.length < 256 ^ 8) : size (encodeData b) = b.length := by
  unfold size
  rw [isData_encodeData]
  obtain ⟨⟨hd, hx, hi⟩, _⟩ := item_data b h
  have := hi []
  rw [List.append_nil] at this
  rw [this]
  rfl

theorem isEmpty_encodeData {b : Bytes} (h : b ≠ []) : isEmpty (encodeData b) = false := by
  obtain ⟨x, l, hx, h1, h2⟩ := head_encodeData (b := b)
  rw [hx]
  simp only [isEmpty, Bool.or_eq_false_iff, beq_eq_false_iff_ne]
  constructor
  · rintro rfl
    exact absurd h1 (by decide)
  · rintro rfl
    exact h2 h rfl

theorem encodeData_length_le (b : Bytes) : (encodeData b).length ≤ b.length + 9 := by
  have h8 := beBytes_length_le 8 b.length
  unfold encodeData
  split
  · split
    · simp
    · simp [header]
  · unfold header
    split
    · simp only [List.length_append, List.length_cons, List.length_nil]; omega
    · simp only [List.length_append, List.length_cons]; omega

theorem encodeList_length_gt {l : List Bytes} : l.flatten.length < (encodeList l).length := by
  obtain ⟨b, t, h, _⟩ := head_header (off := 0xc0) (len := l.flatten.length) (.inr rfl)
  unfold encodeList
  rw [h]
  simp only [List.length_append, List.length_cons]
  omega

theorem encodeList_length_le (l : List Bytes) : (encodeList l).length ≤ l.flatten.length + 9 := by
  have h8 := beBytes_length_le 8 l.flatten.length
  unfold encodeList header
  split
  · simp only [List.length_append, List.length_cons, List.length_nil]; omega
  · simp only [List.length_append, List.length_cons]; omega

end Verif.Pmt.Rlp
