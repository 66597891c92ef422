import Verif.Spec.PmtBytes
import Verif.Proofs.PmtDecode
import Verif.Proofs.YellowPaper
import Verif.Proofs.PmtTotal
import Mathlib.Tactic.Choose
/-!
`decode_node` accepts exactly the bytes of `Spec/PmtBytes`, and panics exactly on those given there.
-/

set_option autoImplicit false

namespace Verif.Pmt.Rlp

open Verif.Pmt.Yellow (withLength)

theorem pow64 : (2 : Nat) ^ 64 = 256 ^ 8 := by norm_num

theorem item_of_spec {x d : Bytes} (h : Spec.RlpItem x d) : Item x d := by
  cases h with
  | @byte c h =>
    have := item_data [c] (by simp)
    unfold encodeData at this
    simp only at this
    rwa [if_pos h] at this
  | data h =>
    rw [pow64] at h
    rw [← Yellow.header_eq 128 d h]
    exact item_header (.inl rfl) d h
  | list h =>
    rw [pow64] at h
    rw [← Yellow.header_eq 192 d h]
    exact item_header (.inr rfl) d h

/-- What is read at the beginning of the bytes is an item. -/
theorem spec_of_info {b : Bytes} {i : Info} (hb : b.length < 2 ^ 64) (h : payloadInfo b = .ok i) :
    ∃ hd d r, b = hd ++ (d ++ r) ∧ hd.length = i.headerLen ∧ d.length = i.valueLen ∧ d.length < 2 ^ 64 ∧
      ((hd = [] ∧ ∃ c, d = [c] ∧ c.toNat < 128) ∨ (isData b = true ∧ hd ++ d = withLength 128 d) ∨ (isList b = true ∧ hd ++ d = withLength 192 d)) := by
  obtain ⟨hlen, hcase⟩ := payloadInfo_header h
  have hd : ((b.drop i.headerLen).take i.valueLen).length = i.valueLen := by
    rw [List.length_take, List.length_drop]; omega
  have h1 : (b.take i.headerLen).length = i.headerLen := by rw [List.length_take]; omega
  refine ⟨b.take i.headerLen, (b.drop i.headerLen).take i.valueLen, (b.drop i.headerLen).drop i.valueLen, ?_, h1, hd, by omega, ?_⟩
  · rw [List.take_append_drop, List.take_append_drop]
  · have hlt : ((b.drop i.headerLen).take i.valueLen).length < 256 ^ 8 := by rw [hd, ← pow64]; omega
    rcases hcase with ⟨c, t, rfl, hc, e1, e2⟩ | ⟨h3, h4⟩ | ⟨h3, h4⟩
    · left
      rw [e1, e2]
      exact ⟨rfl, c, rfl, hc⟩
    · right; left
      refine ⟨h3, ?_⟩
      rw [← Yellow.header_eq 128 _ hlt, hd, h4]
    · right; right
      refine ⟨h3, ?_⟩
      rw [← Yellow.header_eq 192 _ hlt, hd, h4]

theorem item_of_info {b : Bytes} {i : Info} (hb : b.length < 2 ^ 64) (h : payloadInfo b = .ok i) :
    ∃ hd d r, b = hd ++ (d ++ r) ∧ hd.length = i.headerLen ∧ d.length = i.valueLen ∧ Spec.RlpItem (hd ++ d) d := by
  obtain ⟨hd, d, r, h1, h2, h3, h4, h5⟩ := spec_of_info hb h
  refine ⟨hd, d, r, h1, h2, h3, ?_⟩
  rcases h5 with ⟨rfl, c, rfl, hc⟩ | ⟨_, h5⟩ | ⟨_, h5⟩
  · exact .byte hc
  · rw [h5]; exact .data h4
  · rw [h5]; exact .list h4

theorem first_iff {b x : Bytes} (hb : b.length < 2 ^ 64) : first b = some x ↔ ∃ d r, Spec.RlpItem x d ∧ b = x ++ r := by
  constructor
  · intro h
    unfold first at h
    cases hp : payloadInfo b with
    | error e => rw [hp] at h; cases h
    | ok i =>
      rw [hp] at h
      obtain ⟨hd, d, r, h1, h2, h3, h4⟩ := item_of_info hb hp
      have : b.take (i.headerLen + i.valueLen) = hd ++ d := by
        rw [h1, ← List.append_assoc, List.take_left' (by rw [List.length_append]; omega)]
      simp only [this] at h
      cases h
      exact ⟨d, r, h4, by rw [h1, List.append_assoc]⟩
  · rintro ⟨d, r, h, rfl⟩
    exact (item_of_spec h).first r

theorem first_none {b : Bytes} (hb : b.length < 2 ^ 64) : first b = none ↔ Spec.Unreadable b := by
  constructor
  · intro h x d r hx e
    rw [(first_iff hb).2 ⟨d, r, hx, e⟩] at h
    cases h
  · intro h
    cases hf : first b with
    | none => rfl
    | some x =>
      obtain ⟨d, r, hx, e⟩ := (first_iff hb).1 hf
      exact absurd e (h x d r hx)

theorem itemsFrom_iff {f : Nat} {b : Bytes} {l : List Bytes} (hf : b.length ≤ f) (hb : b.length < 2 ^ 64) :
    itemsFrom f b = l ↔ Spec.RlpItems b l := by
  induction f generalizing b l with
  | zero =>
    have : b = [] := List.length_eq_zero_iff.1 (by omega)
    subst this
    have hu : Spec.Unreadable [] := (first_none (by simp)).1 rfl
    constructor
    · intro h; cases h; exact .stop hu
    · intro h
      generalize he : ([] : Bytes) = b at h
      cases h with
      | stop => rfl
      | next hx => exact absurd he (hu _ _ _ hx)
  | succ f ih =>
    unfold itemsFrom
    cases hfi : first b with
    | none =>
      have hu := (first_none hb).1 hfi
      constructor
      · intro h; cases h; exact .stop hu
      · intro h
        cases h with
        | stop => rfl
        | next hx => exact absurd rfl (hu _ _ _ hx)
    | some x =>
      obtain ⟨d, r, hx, rfl⟩ := (first_iff hb).1 hfi
      have hpos : 0 < x.length := List.length_pos_iff.2 (item_of_spec hx).pos
      rw [List.length_append] at hf hb
      simp only [List.drop_left']
      constructor
      · intro h
        rw [← h]
        exact .next hx ((ih (by omega) (by omega)).1 rfl)
      · intro h
        generalize he : x ++ r = b at h
        cases h with
        | stop h => exact absurd he.symm (h _ _ _ hx)
        | @next x' d' r' l' hx' hl =>
          have e := (item_of_spec hx').first r'
          rw [← he, hfi] at e
          cases e
          rw [List.append_cancel_left he, (ih (by have := List.append_cancel_left he; subst this; omega)
            (by have := List.append_cancel_left he; subst this; omega)).2 hl]

theorem isList_withLength {d r : Bytes} (h : d.length < 2 ^ 64) : isList (withLength 192 d ++ r) = true ∧ isData (withLength 192 d ++ r) = false := by
  rw [pow64] at h
  obtain ⟨c, l, h1, h2, h3, _⟩ := head_header (off := 0xc0) (len := d.length) (.inr rfl)
  rw [← Yellow.header_eq 192 d h, h1]
  simp only [List.cons_append, isList, isData, decide_eq_true_eq, decide_eq_false_iff_not]
  omega

theorem isData_withLength {d r : Bytes} (h : d.length < 2 ^ 64) : isData (withLength 128 d ++ r) = true := by
  rw [pow64] at h
  obtain ⟨c, l, h1, h2, h3, _⟩ := head_header (off := 0x80) (len := d.length) (.inl rfl)
  rw [← Yellow.header_eq 128 d h, h1]
  simp only [List.cons_append, isData, decide_eq_true_eq]
  omega

theorem items_iff {b x : Bytes} {l : List Bytes} (hb : b.length < 2 ^ 64) (hd : isData b = false) :
    items b = x :: l ↔ Spec.ListBytes b (x :: l) := by
  constructor
  · intro h
    unfold items at h
    cases hp : payloadInfo b with
    | error e => rw [hp] at h; cases h
    | ok i =>
      rw [hp] at h
      simp only at h
      obtain ⟨hh, d, s, h1, h2, h3, h4, h5⟩ := spec_of_info hb hp
      have hlen := congrArg List.length h1
      simp only [List.length_append] at hlen
      have e1 : (b.drop i.headerLen).take i.valueLen = d := by
        rw [h1, List.drop_left' h2, List.take_left' h3]
      rw [e1] at h
      cases hf : first d with
      | none => rw [hf] at h; cases h
      | some y =>
        rw [hf] at h
        simp only at h
        obtain ⟨rfl, h'⟩ := List.cons.inj h
        replace h := h'
        obtain ⟨dd, r, hx, rfl⟩ := (first_iff h4).1 hf
        rw [List.length_append] at hlen
        have e2 : b.drop (i.headerLen + y.length) = r ++ s := by
          rw [h1, ← List.append_assoc, ← List.append_assoc, List.append_assoc (hh ++ y), List.drop_left' (by rw [List.length_append]; omega)]
        rw [e2] at h
        have h6 := (itemsFrom_iff (by rw [List.length_append]; omega) (by rw [List.length_append]; omega)).1 h
        rcases h5 with ⟨rfl, c, hc, hlt⟩ | ⟨h5, _⟩ | ⟨_, h5⟩
        · rw [h1, hc] at hd
          simp only [List.nil_append, List.cons_append, isData, decide_eq_false_iff_not] at hd
          omega
        · rw [hd] at h5; cases h5
        · rw [h1, ← List.append_assoc, h5]
          exact .mk h4 hx h6
  · intro h
    generalize hl : x :: l = L at h
    cases h with
    | @mk x' d r s l' hlen hx hl' =>
      obtain ⟨⟨hh, h1, h2⟩, _⟩ := item_of_spec (.list hlen)
      have hbl := congrArg List.length h1
      rw [List.length_append] at hb
      simp only [List.length_append] at hbl
      unfold items
      rw [h2 s]
      simp only
      have e1 : ((withLength 192 (x' ++ r) ++ s).drop hh.length).take (x' ++ r).length = x' ++ r := by
        rw [h1, List.append_assoc, List.drop_left' rfl, List.take_left' rfl]
      have e2 : (withLength 192 (x' ++ r) ++ s).drop (hh.length + x'.length) = r ++ s := by
        rw [h1, ← List.append_assoc, List.append_assoc (hh ++ x'), List.drop_left' (by rw [List.length_append])]
      rw [e1, (item_of_spec hx).first]
      simp only
      rw [e2, (itemsFrom_iff (by simp only [List.length_append]; omega) (by rw [List.length_append]; omega)).2 hl']

theorem data_iff {x d : Bytes} (h : ∃ d, Spec.RlpItem x d) : data x = .ok d ↔ Spec.RlpItem x d := by
  obtain ⟨e, he⟩ := h
  rw [(item_of_spec he).data]
  constructor
  · intro h; cases h; exact he
  · intro h
    have := (item_of_spec h).data
    rw [(item_of_spec he).data] at this
    exact this

theorem mem_rlpItems {b : Bytes} {l : List Bytes} (h : Spec.RlpItems b l) : ∀ x ∈ l, ∃ d, Spec.RlpItem x d := by
  induction h with
  | stop => intro x hx; cases hx
  | next hx _ ih =>
    intro y hy
    rcases List.mem_cons.1 hy with rfl | hy
    · exact ⟨_, hx⟩
    · exact ih y hy

theorem mem_listBytes {b : Bytes} {l : List Bytes} (h : Spec.ListBytes b l) : ∀ x ∈ l, ∃ d, Spec.RlpItem x d := by
  cases h with
  | mk _ hx hl =>
    intro y hy
    rcases List.mem_cons.1 hy with rfl | hy
    · exact ⟨_, hx⟩
    · exact mem_rlpItems hl y hy

theorem listBytes_isData {b : Bytes} {l : List Bytes} (h : Spec.ListBytes b l) : isData b = false ∧ isList b = true := by
  cases h with
  | mk hlen _ _ => exact ⟨(isList_withLength hlen).2, (isList_withLength hlen).1⟩

theorem prototype_listBytes {b : Bytes} {l : List Bytes} (hb : b.length < 2 ^ 64) (h : Spec.ListBytes b l) : prototype b = .list l := by
  obtain ⟨h1, h2⟩ := listBytes_isData h
  unfold prototype
  rw [if_neg (by simp [h1]), if_pos h2]
  cases l with
  | nil => cases h
  | cons x l => rw [(items_iff hb h1).2 h]

theorem listBytes_of_prototype {b x : Bytes} {l : List Bytes} (hb : b.length < 2 ^ 64) (h : prototype b = .list (x :: l)) : Spec.ListBytes b (x :: l) := by
  unfold prototype at h
  split at h
  · cases h
  · next h1 =>
    split at h
    · injection h with h
      exact (items_iff hb (by simpa using h1)).1 h
    · cases h

end Verif.Pmt.Rlp

namespace Verif.Pmt

open Verif.Pmt.Yellow (withLength)

theorem flag_byte {flag : UInt8} {n : Nat} (h : flag.toNat / 16 = n) : flag = UInt8.ofNat (16 * n + flag.toNat % 16) := by
  apply UInt8.toNat_inj.1
  have := flag.toNat_lt
  rw [ofNat_toNat (by omega)]
  omega

theorem fromCompact_iff {d : Bytes} {key : Nibbles} :
    Nibbles.fromCompact d = .ok key ↔ ∃ p leaf, Spec.PathBytes d p leaf ∧ key = p.map Fin.val ++ if leaf then [16] else [] := by
  constructor
  · intro h
    cases d with
    | nil => cases h
    | cons flag rest =>
      simp only [Nibbles.fromCompact] at h
      have hd : flag.toNat % 16 < 16 := Nat.mod_lt _ (by decide)
      split at h
      · next e =>
        cases h
        refine ⟨Yellow.nibbles rest, false, ?_, ?_⟩
        · have := Spec.PathBytes.even ⟨_, hd⟩ rest false
          change Spec.PathBytes (UInt8.ofNat (16 * 0 + flag.toNat % 16) :: rest) _ _ at this
          rwa [← flag_byte e] at this
        · rw [fromRaw_nibs, Yellow.nibbles_eq]; simp [toNibs]
      · next e =>
        cases h
        refine ⟨⟨_, hd⟩ :: Yellow.nibbles rest, false, ?_, ?_⟩
        · have := Spec.PathBytes.odd ⟨_, hd⟩ rest false
          change Spec.PathBytes (UInt8.ofNat (16 * 1 + flag.toNat % 16) :: rest) _ _ at this
          rwa [← flag_byte e] at this
        · rw [fromRaw_nibs, Yellow.nibbles_eq]; simp [toNibs]
      · next e =>
        cases h
        refine ⟨Yellow.nibbles rest, true, ?_, ?_⟩
        · have := Spec.PathBytes.even ⟨_, hd⟩ rest true
          change Spec.PathBytes (UInt8.ofNat (16 * 2 + flag.toNat % 16) :: rest) _ _ at this
          rwa [← flag_byte e] at this
        · rw [fromRaw_leaf, Yellow.nibbles_eq]; simp [toNibs, leafPath]
      · next e =>
        cases h
        refine ⟨⟨_, hd⟩ :: Yellow.nibbles rest, true, ?_, ?_⟩
        · have := Spec.PathBytes.odd ⟨_, hd⟩ rest true
          change Spec.PathBytes (UInt8.ofNat (16 * 3 + flag.toNat % 16) :: rest) _ _ at this
          rwa [← flag_byte e] at this
        · rw [fromRaw_leaf, Yellow.nibbles_eq]; simp [toNibs, leafPath]
      · cases h
  · rintro ⟨p, leaf, h, rfl⟩
    cases h with
    | even x t =>
      have hx := x.isLt
      cases leaf with
      | false =>
        simp only [Nibbles.fromCompact, Bool.false_eq_true, if_false]
        rw [ofNat_toNat (by omega), show (0 + x.val) / 16 = 0 by omega]
        simp only [fromRaw_nibs, Yellow.nibbles_eq]
        simp [toNibs]
      | true =>
        simp only [Nibbles.fromCompact, if_true]
        rw [ofNat_toNat (by omega), show (32 + x.val) / 16 = 2 by omega]
        simp only [fromRaw_leaf, Yellow.nibbles_eq]
        simp [toNibs, leafPath]
    | odd x t =>
      have hx := x.isLt
      cases leaf with
      | false =>
        simp only [Nibbles.fromCompact, Bool.false_eq_true, if_false]
        rw [ofNat_toNat (by omega), show (16 + x.val) / 16 = 1 by omega, show (16 + x.val) % 16 = x.val by omega]
        simp only [fromRaw_nibs, Yellow.nibbles_eq]
        simp [toNibs]
      | true =>
        simp only [Nibbles.fromCompact, if_true]
        rw [ofNat_toNat (by omega), show (48 + x.val) / 16 = 3 by omega, show (48 + x.val) % 16 = x.val by omega]
        simp only [fromRaw_leaf, Yellow.nibbles_eq]
        simp [toNibs, leafPath]

theorem path_unique {d : Bytes} {p q : List (Fin 16)} {a b : Bool} (h : Spec.PathBytes d p a) (h' : Spec.PathBytes d q b) : p = q ∧ a = b := by
  have e1 := fromCompact_iff.2 ⟨p, a, h, rfl⟩
  have e2 := fromCompact_iff.2 ⟨q, b, h', rfl⟩
  rw [e1] at e2
  have e := Except.ok.inj e2
  have h16 : ∀ l : List (Fin 16), (16 : Nat) ∉ l.map Fin.val := by
    intro l hl
    obtain ⟨x, _, hx⟩ := List.mem_map.1 hl
    have := x.isLt
    omega
  cases a <;> cases b <;> simp only [Bool.false_eq_true, if_false, if_true, List.append_nil] at e
  · exact ⟨toNibs_inj.1 e, rfl⟩
  · exact absurd (by rw [e]; simp) (h16 p)
  · exact absurd (by rw [← e]; simp) (h16 q)
  · exact ⟨toNibs_inj.1 (List.append_cancel_right e), rfl⟩

/-- The first two steps on a list of two. -/
theorem path_cases (d : Bytes) :
    (∃ p, Spec.PathBytes d p true ∧ Nibbles.fromCompact d = .ok (p.map Fin.val ++ [16]) ∧ Nibbles.isLeaf (p.map Fin.val ++ [16]) = .ok true) ∨
    (∃ p, Spec.PathBytes d p false ∧ p ≠ [] ∧ Nibbles.fromCompact d = .ok (p.map Fin.val) ∧ Nibbles.isLeaf (p.map Fin.val) = .ok false) ∨
    ((∀ p leaf, Spec.PathBytes d p leaf → leaf = false ∧ p = []) ∧
      ∃ m, (do let key ← Nibbles.fromCompact d; Nibbles.isLeaf key : Res Bool) = .error (.panic m)) := by
  cases hk : Nibbles.fromCompact d with
  | error e =>
    refine .inr (.inr ⟨?_, ?_⟩)
    · intro p leaf hp
      rw [fromCompact_iff.2 ⟨p, leaf, hp, rfl⟩] at hk
      cases hk
    · cases d with
      | nil => cases hk; exact ⟨_, rfl⟩
      | cons flag rest =>
        simp only [Nibbles.fromCompact] at hk
        split at hk <;> cases hk
        exact ⟨_, rfl⟩
  | ok key =>
    obtain ⟨p, leaf, hp, rfl⟩ := fromCompact_iff.1 hk
    cases leaf with
    | true => exact .inl ⟨p, hp, rfl, isLeaf_leafPath p⟩
    | false =>
      simp only [Bool.false_eq_true, if_false, List.append_nil]
      by_cases hne : p = []
      · subst hne
        refine .inr (.inr ⟨?_, ?_⟩)
        · intro q leaf hq
          obtain ⟨h1, h2⟩ := path_unique hp hq
          exact ⟨h2.symm, h1.symm⟩
        · exact ⟨_, rfl⟩
      · exact .inr (.inl ⟨p, hp, hne, rfl, isLeaf_toNibs hne⟩)

theorem isData_cases {b : Bytes} (h : Rlp.isData b = true) : ∃ c t, b = c :: t ∧ c.toNat < 192 := by
  cases b with
  | nil => cases h
  | cons c t => exact ⟨c, t, rfl, by simpa [Rlp.isData] using h⟩

theorem info_withLength {d r : Bytes} (h : d.length < 2 ^ 64) : ∃ i, Rlp.payloadInfo (withLength 128 d ++ r) = .ok i ∧ i.valueLen = d.length ∧
    Rlp.data (withLength 128 d ++ r) = .ok d := by
  obtain ⟨⟨hh, h1, h2⟩, _⟩ := Rlp.item_of_spec (.data h)
  refine ⟨_, h2 r, rfl, ?_⟩
  unfold Rlp.data
  rw [h2 r]
  simp only
  rw [h1, List.append_assoc, List.drop_left' rfl, List.take_left' rfl]

theorem withLength_nil : withLength 128 [] = [0x80] := rfl

/-- Bytes that begin with data. -/
theorem accepted_data {b : Bytes} (hb : b.length < 2 ^ 64) (h : Rlp.isData b = true) (n : Node) :
    Spec.Accepted b n ↔ (Rlp.size b = 0 ∧ n = .empty) ∨ ∃ x : H256, Rlp.size b = 32 ∧ Rlp.data b = .ok x.bytes ∧ n = .hash x := by
  have hsz : ∀ {d r : Bytes}, d.length < 2 ^ 64 → b = withLength 128 d ++ r → Rlp.size b = d.length ∧ Rlp.data b = .ok d := by
    rintro d r hd rfl
    obtain ⟨i, h1, h2, h3⟩ := info_withLength (r := r) hd
    refine ⟨?_, h3⟩
    unfold Rlp.size
    rw [if_pos h, h1]
    exact h2
  have hnl : ∀ l, ¬ Spec.ListBytes b l := fun l hl => by rw [(Rlp.listBytes_isData hl).1] at h; cases h
  constructor
  · intro ha
    cases ha with
    | empty r => exact .inl ⟨(hsz (d := []) (r := r) (by simp) rfl).1, rfl⟩
    | cut h1 h2 hu =>
      left
      refine ⟨?_, rfl⟩
      unfold Rlp.size
      rw [if_pos h]
      have := (Rlp.first_none hb).2 hu
      unfold Rlp.first at this
      split at this
      · next e => rw [e]
      · cases this
    | hash x r =>
      obtain ⟨h1, h2⟩ := hsz (d := x.bytes) (r := r) (by rw [x.size]; norm_num) rfl
      exact .inr ⟨x, by rw [h1, x.size], h2, rfl⟩
    | leaf hl => exact absurd hl (hnl _)
    | ext hl => exact absurd hl (hnl _)
    | branch hl => exact absurd hl (hnl _)
  · have hread : ∀ i, Rlp.payloadInfo b = .ok i → ∃ hd d r, b = hd ++ (d ++ r) ∧ d.length = i.valueLen ∧ d.length < 2 ^ 64 ∧
        ((∃ c, d = [c]) ∨ b = withLength 128 d ++ r) := by
      intro i hi
      obtain ⟨hd, d, r, h1, h2, h3, h4, h5⟩ := Rlp.spec_of_info hb hi
      refine ⟨hd, d, r, h1, h3, h4, ?_⟩
      rcases h5 with ⟨rfl, c, rfl, hc⟩ | ⟨_, h5⟩ | ⟨_, h5⟩
      · exact .inl ⟨c, rfl⟩
      · right; rw [h1, ← List.append_assoc, h5]
      · rw [h1, ← List.append_assoc, h5, (Rlp.isList_withLength h4).2] at h
        cases h
    rintro (⟨h0, rfl⟩ | ⟨x, h32, hd, rfl⟩)
    · unfold Rlp.size at h0
      rw [if_pos h] at h0
      split at h0
      · next i hi =>
        obtain ⟨hd, d, r, h1, h2, h3, h4⟩ := hread i hi
        have : d = [] := List.length_eq_zero_iff.1 (by omega)
        subst this
        rcases h4 with ⟨c, hc⟩ | h4
        · cases hc
        · rw [h4, withLength_nil]; exact .empty r
      · next e hi =>
        obtain ⟨c, t, rfl, hc⟩ := isData_cases h
        have hu : Spec.Unreadable (c :: t) := by
          refine (Rlp.first_none hb).1 ?_
          unfold Rlp.first
          rw [hi]
        refine .cut ?_ hc hu
        by_contra hlt
        exact hu [c] [c] t (.byte (by omega)) rfl
    · unfold Rlp.size at h32
      rw [if_pos h] at h32
      split at h32
      · next i hi =>
        obtain ⟨hd', d, r, h1, h2, h3, h4⟩ := hread i hi
        rcases h4 with ⟨c, rfl⟩ | h4
        · rw [← h2] at h32; simp at h32
        · have := (hsz h3 h4).2
          rw [hd] at this
          cases this
          rw [h4]
          exact .hash x r
      · cases h32

theorem accepted_list {b : Bytes} {n : Node} (h : Rlp.isData b = false) (ha : Spec.Accepted b n) :
    (∃ k v d p e, Spec.ListBytes b [k, v] ∧ Spec.RlpItem k d ∧ Spec.PathBytes d p true ∧ Spec.RlpItem v e ∧ n = .leaf (p.map Fin.val ++ [16]) e) ∨
    (∃ k v d p m, Spec.ListBytes b [k, v] ∧ Spec.RlpItem k d ∧ Spec.PathBytes d p false ∧ p ≠ [] ∧ Spec.Accepted v m ∧ n = .ext (p.map Fin.val) m) ∨
    ∃ xs v cs value, Spec.ListBytes b (List.ofFn xs ++ [v]) ∧ (∀ i, Spec.Accepted (xs i) (cs i)) ∧ Spec.ValueBytes v value ∧ n = .branch cs value := by
  cases ha with
  | empty r => cases h
  | cut h1 h2 hu => simp only [Rlp.isData, decide_eq_false_iff_not] at h; omega
  | hash x r => rw [Rlp.isData_withLength (by rw [x.size]; norm_num)] at h; cases h
  | leaf hl hk hp hv => exact .inl ⟨_, _, _, _, _, hl, hk, hp, hv, rfl⟩
  | ext hl hk hp hne hv => exact .inr (.inl ⟨_, _, _, _, _, hl, hk, hp, hne, hv, rfl⟩)
  | branch hl hc hv => exact .inr (.inr ⟨_, _, _, _, hl, hc, hv, rfl⟩)

theorem decodeValue_iff {v : Bytes} (h : ∃ d, Spec.RlpItem v d) (o : Option Bytes) : decodeValue v = .ok o ↔ Spec.ValueBytes v o := by
  have hne : ∀ d, Spec.RlpItem v d → (Rlp.isEmpty v = true ↔ d = []) ∧ (d = [] → v = [0x80] ∨ v = [0xc0]) := by
    intro d hd
    have key : ∀ off, off = 128 ∨ off = 192 → ∀ d : Bytes, d.length < 2 ^ 64 → (Rlp.isEmpty (withLength off d) = true ↔ d = []) := by
      intro off ho d hlen
      rw [Rlp.pow64] at hlen
      obtain ⟨c, l, h1, h2, h3, h4⟩ := Rlp.head_header (off := off) (len := d.length) (by simpa using ho)
      constructor
      · intro he
        rw [← Yellow.header_eq off d hlen, h1] at he
        simp only [List.cons_append, Rlp.isEmpty, Bool.or_eq_true, beq_iff_eq] at he
        apply List.length_eq_zero_iff.1
        apply h4
        rcases he with rfl | rfl <;> rcases ho with rfl | rfl <;> revert h2 h3 <;> decide
      · rintro rfl
        rcases ho with rfl | rfl <;> rfl
    cases hd with
    | @byte c hc =>
      refine ⟨⟨fun he => ?_, fun he => (nomatch he)⟩, fun he => (nomatch he)⟩
      simp only [Rlp.isEmpty, Bool.or_eq_true, beq_iff_eq] at he
      rcases he with rfl | rfl <;> revert hc <;> decide
    | data hl => exact ⟨key 128 (.inl rfl) d hl, by rintro rfl; exact .inl rfl⟩
    | list hl => exact ⟨key 192 (.inr rfl) d hl, by rintro rfl; exact .inr rfl⟩
  obtain ⟨d, hd⟩ := h
  obtain ⟨h1, h2⟩ := hne d hd
  unfold decodeValue
  by_cases he : Rlp.isEmpty v = true
  · rw [if_pos he]
    constructor
    · intro h; cases h
      rcases h2 (h1.1 he) with rfl | rfl
      · exact .noData
      · exact .noList
    · intro h
      cases h with
      | noData => rfl
      | noList => rfl
      | value h hd' => exact absurd ((hne _ h).1.1 he) hd'
  · rw [if_neg he, (Rlp.item_of_spec hd).data]
    constructor
    · intro h; cases h
      exact .value hd (fun e => he (h1.2 e))
    · intro h
      cases h with
      | noData => exact absurd rfl he
      | noList => exact absurd rfl he
      | value h _ =>
        have := (Rlp.item_of_spec h).data
        rw [(Rlp.item_of_spec hd).data] at this
        cases this
        rfl

theorem decodeChildren_iff {f : Bytes → Res Node} {l : List Bytes} {ns : List Node} :
    decodeChildren f l = .ok ns ↔ ns.length = l.length ∧ ∀ i (h : i < l.length) (h' : i < ns.length), f l[i] = .ok ns[i] := by
  induction l generalizing ns with
  | nil =>
    constructor
    · intro h; cases h; exact ⟨rfl, fun i h => absurd h (Nat.not_lt_zero _)⟩
    · rintro ⟨h, _⟩; rw [List.length_eq_zero_iff.1 h]; rfl
  | cons x t ih =>
    constructor
    · intro h
      obtain ⟨m, h1, h2⟩ := bindOk h
      obtain ⟨ms, h3, h4⟩ := bindOk h2
      cases h4
      obtain ⟨h5, h6⟩ := ih.1 h3
      refine ⟨by simp [h5], ?_⟩
      intro i hi hi'
      cases i with
      | zero => exact h1
      | succ i => exact h6 i (by simpa using hi) (by simpa using hi')
    · rintro ⟨h1, h2⟩
      cases ns with
      | nil => cases h1
      | cons m ms =>
        have e1 := h2 0 (by simp) (by simp)
        have e2 := ih.2 ⟨by simpa using h1, fun i h h' => h2 (i + 1) (by simpa using h) (by simpa using h')⟩
        simp only [List.getElem_cons_zero] at e1
        unfold decodeChildren
        rw [e1, e2]
        rfl

theorem decodeChildren_panic {f : Bytes → Res Node} {l : List Bytes} :
    (∃ m, decodeChildren f l = .error (.panic m)) ↔
      ∃ i, ∃ h : i < l.length, (∀ j (hj : j < i), ∃ n, f (l[j]'(by omega)) = .ok n) ∧ ∃ m, f l[i] = .error (.panic m) := by
  induction l with
  | nil => exact ⟨fun ⟨m, h⟩ => (nomatch h), fun ⟨i, h, _⟩ => absurd h (Nat.not_lt_zero _)⟩
  | cons x t ih =>
    unfold decodeChildren
    cases hx : f x with
    | error e =>
      constructor
      · rintro ⟨m, h⟩
        cases h
        exact ⟨0, by simp, fun j hj => absurd hj (Nat.not_lt_zero _), _, hx⟩
      · rintro ⟨i, hi, h1, m, h2⟩
        cases i with
        | zero =>
          rw [List.getElem_cons_zero, hx] at h2
          cases h2
          exact ⟨_, rfl⟩
        | succ i =>
          obtain ⟨n, hn⟩ := h1 0 (by omega)
          rw [List.getElem_cons_zero, hx] at hn
          cases hn
    | ok n =>
      have e1 : (∃ m, (do let n ← (.ok n : Res Node); let ns ← decodeChildren f t; pure (n :: ns) : Res (List Node)) = .error (.panic m)) ↔
          ∃ m, decodeChildren f t = .error (.panic m) := by
        cases decodeChildren f t with
        | error e => exact ⟨fun ⟨m, h⟩ => ⟨m, by cases h; rfl⟩, fun ⟨m, h⟩ => ⟨m, by cases h; rfl⟩⟩
        | ok ns => exact ⟨fun ⟨m, h⟩ => (nomatch h), fun ⟨m, h⟩ => (nomatch h)⟩
      rw [e1, ih]
      constructor
      · rintro ⟨i, hi, h1, h2⟩
        refine ⟨i + 1, by simpa using hi, ?_, h2⟩
        intro j hj
        cases j with
        | zero => exact ⟨n, hx⟩
        | succ j => exact h1 j (by omega)
      · rintro ⟨i, hi, h1, m, h2⟩
        cases i with
        | zero =>
          rw [List.getElem_cons_zero, hx] at h2
          cases h2
        | succ i =>
          refine ⟨i, by simpa using hi, ?_, m, h2⟩
          intro j hj
          exact h1 (j + 1) (by omega)

theorem decodeHash_list {b : Bytes} (h : Rlp.isData b = false) : decodeHash b = .error (.err "bytes cannot be decoded into a node") := by
  unfold decodeHash
  rw [if_neg (by simp [h])]

theorem breaks_isData {b : Bytes} (h : Spec.Breaks b) : ∃ l, Spec.ListBytes b l := by
  cases h with
  | path hl => exact ⟨_, hl⟩
  | ext hl => exact ⟨_, hl⟩
  | branch hl => exact ⟨_, hl⟩

/-- A list of two. -/
theorem decode_two {f : Nat} {b k v : Bytes} (hb : b.length < 2 ^ 64) (hl : Spec.ListBytes b [k, v])
    (ih : (∀ n, decodeAux f v = .ok n ↔ Spec.Accepted v n) ∧ ((∃ m, decodeAux f v = .error (.panic m)) ↔ Spec.Breaks v)) :
    (∀ n, decodeAux (f + 1) b = .ok n ↔ Spec.Accepted b n) ∧ ((∃ m, decodeAux (f + 1) b = .error (.panic m)) ↔ Spec.Breaks b) := by
  have hp := Rlp.prototype_listBytes hb hl
  have hnd := (Rlp.listBytes_isData hl).1
  obtain ⟨d, hd⟩ := Rlp.mem_listBytes hl k (by simp)
  obtain ⟨e, he⟩ := Rlp.mem_listBytes hl v (by simp)
  have huniq : ∀ l, Spec.ListBytes b l → l = [k, v] := by
    intro l hl'
    have := Rlp.prototype_listBytes hb hl'
    rw [hp] at this
    injection this with this
    exact this.symm
  have hdu : ∀ {x y z}, Spec.RlpItem x y → Spec.RlpItem x z → y = z := by
    intro x y z h1 h2
    have e1 := (Rlp.item_of_spec h1).data
    rw [(Rlp.item_of_spec h2).data] at e1
    exact (Except.ok.inj e1).symm
  have hacc : ∀ n, Spec.Accepted b n ↔
      (∃ p, Spec.PathBytes d p true ∧ n = .leaf (p.map Fin.val ++ [16]) e) ∨
      ∃ p m, Spec.PathBytes d p false ∧ p ≠ [] ∧ Spec.Accepted v m ∧ n = .ext (p.map Fin.val) m := by
    intro n
    constructor
    · intro ha
      rcases accepted_list hnd ha with ⟨k', v', d', p, e', h1, h2, h3, h4, h5⟩ | ⟨k', v', d', p, m, h1, h2, h3, h4, h5, h6⟩ | ⟨xs, v', cs, value, h1, _⟩
      · have := huniq _ h1
        cases this
        cases hdu h2 hd
        cases hdu h4 he
        exact .inl ⟨p, h3, h5⟩
      · have := huniq _ h1
        cases this
        cases hdu h2 hd
        exact .inr ⟨p, m, h3, h4, h5, h6⟩
      · have := congrArg List.length (huniq _ h1)
        rw [List.length_append, List.length_ofFn] at this
        simp at this
    · rintro (⟨p, h1, rfl⟩ | ⟨p, m, h1, h2, h3, rfl⟩)
      · exact .leaf hl hd h1 he
      · exact .ext hl hd h1 h2 h3
  have hbr : Spec.Breaks b ↔ (∀ p leaf, Spec.PathBytes d p leaf → leaf = false ∧ p = []) ∨
      ∃ p, Spec.PathBytes d p false ∧ p ≠ [] ∧ Spec.Breaks v := by
    constructor
    · intro h
      cases h with
      | path h1 h2 h3 =>
        cases huniq _ h1
        cases hdu h2 hd
        exact .inl h3
      | ext h1 h2 h3 h4 h5 =>
        cases huniq _ h1
        cases hdu h2 hd
        exact .inr ⟨_, h3, h4, h5⟩
      | branch h1 =>
        have := congrArg List.length (huniq _ h1)
        rw [List.length_append, List.length_ofFn] at this
        simp at this
    · rintro (h | ⟨p, h1, h2, h3⟩)
      · exact .path hl hd h
      · exact .ext hl hd h1 h2 h3
  unfold decodeAux
  rw [hp]
  simp only [(Rlp.item_of_spec hd).data, (Rlp.item_of_spec he).data, hacc, hbr]
  rcases path_cases d with ⟨p, h1, h2, h3⟩ | ⟨p, h1, h2, h3, h4⟩ | ⟨h1, m, h2⟩
  · have e1 : (do let d ← (.ok d : Res Bytes); let key ← Nibbles.fromCompact d; let leaf ← Nibbles.isLeaf key
                  if leaf = true then do let value ← (.ok e : Res Bytes); pure (Node.leaf key value)
                  else do let n ← decodeAux f v; pure (Node.ext key n) : Res Node) = .ok (.leaf (p.map Fin.val ++ [16]) e) := by
      simp only [Res.ok_bind, h2, h3, if_true]
      rfl
    rw [e1]
    constructor
    · intro n
      constructor
      · intro h; cases h; exact .inl ⟨p, h1, rfl⟩
      · rintro (⟨q, g1, rfl⟩ | ⟨q, m, g1, _⟩)
        · rw [(path_unique h1 g1).1]
        · have := (path_unique h1 g1).2; cases this
    · constructor
      · rintro ⟨m, h⟩; cases h
      · rintro (h | ⟨q, g1, _⟩)
        · have := (h _ _ h1).1; cases this
        · have := (path_unique h1 g1).2; cases this
  · have e1 : (do let d ← (.ok d : Res Bytes); let key ← Nibbles.fromCompact d; let leaf ← Nibbles.isLeaf key
                  if leaf = true then do let value ← (.ok e : Res Bytes); pure (Node.leaf key value)
                  else do let n ← decodeAux f v; pure (Node.ext key n) : Res Node) =
        (do let n ← decodeAux f v; pure (Node.ext (p.map Fin.val) n)) := by
      simp only [Res.ok_bind, h3, h4, Bool.false_eq_true, if_false]
    rw [e1]
    constructor
    · intro n
      constructor
      · intro h
        obtain ⟨m, g1, g2⟩ := bindOk h
        cases g2
        exact .inr ⟨p, m, h1, h2, (ih.1 m).1 g1, rfl⟩
      · rintro (⟨q, g1, rfl⟩ | ⟨q, m, g1, g2, g3, rfl⟩)
        · have := (path_unique h1 g1).2; cases this
        · rw [(ih.1 m).2 g3, (path_unique h1 g1).1]
          rfl
    · constructor
      · rintro ⟨m, h⟩
        refine .inr ⟨p, h1, h2, ih.2.1 ?_⟩
        cases hv : decodeAux f v with
        | error e => rw [hv] at h; cases h; exact ⟨_, rfl⟩
        | ok n => rw [hv] at h; cases h
      · rintro (h | ⟨q, g1, g2, g3⟩)
        · exact absurd (h _ _ h1).2 h2
        · obtain ⟨m, hm⟩ := ih.2.2 g3
          rw [hm]
          exact ⟨m, rfl⟩
  · have e1 : ∃ m, (do let d ← (.ok d : Res Bytes); let key ← Nibbles.fromCompact d; let leaf ← Nibbles.isLeaf key
                       if leaf = true then do let value ← (.ok e : Res Bytes); pure (Node.leaf key value)
                       else do let n ← decodeAux f v; pure (Node.ext key n) : Res Node) = .error (.panic m) := by
      simp only [Res.ok_bind]
      cases hk : Nibbles.fromCompact d with
      | error e => rw [hk] at h2; cases h2; exact ⟨_, rfl⟩
      | ok key =>
        rw [hk] at h2
        simp only [Res.ok_bind] at h2 ⊢
        rw [h2]
        exact ⟨_, rfl⟩
    obtain ⟨m', e1⟩ := e1
    rw [e1]
    constructor
    · intro n
      constructor
      · intro h; cases h
      · rintro (⟨q, g1, rfl⟩ | ⟨q, m, g1, g2, g3, rfl⟩)
        · have := (h1 _ _ g1).1; cases this
        · exact absurd (h1 _ _ g1).2 g2
    · exact ⟨fun _ => .inl h1, fun _ => ⟨m', rfl⟩⟩

/-- A list of seventeen. -/
theorem decode_seventeen {f : Nat} {b : Bytes} {l : List Bytes} (hb : b.length < 2 ^ 64) (hl : Spec.ListBytes b l) (h17 : l.length = 17)
    (ih : ∀ x ∈ l, (∀ n, decodeAux f x = .ok n ↔ Spec.Accepted x n) ∧ ((∃ m, decodeAux f x = .error (.panic m)) ↔ Spec.Breaks x)) :
    (∀ n, decodeAux (f + 1) b = .ok n ↔ Spec.Accepted b n) ∧ ((∃ m, decodeAux (f + 1) b = .error (.panic m)) ↔ Spec.Breaks b) := by
  have hp := Rlp.prototype_listBytes hb hl
  have hnd := (Rlp.listBytes_isData hl).1
  have huniq : ∀ l', Spec.ListBytes b l' → l' = l := by
    intro l' hl'
    have := Rlp.prototype_listBytes hb hl'
    rw [hp] at this
    injection this with this
    exact this.symm
  have hsplit : l = List.ofFn (fun i : Fin 16 => l[i.val]'(by omega)) ++ [l[16]] := by
    apply List.ext_getElem
    · rw [List.length_append, List.length_ofFn]; exact h17
    · intro i h1 h2
      by_cases hi : i < 16
      · rw [List.getElem_append_left (by rw [List.length_ofFn]; exact hi), List.getElem_ofFn]
      · have : i = 16 := by omega
        subst this
        rw [List.getElem_append_right (by rw [List.length_ofFn])]
        simp only [List.length_ofFn, Nat.sub_self, List.getElem_cons_zero]
  have hxs : ∀ {xs : Fin 16 → Bytes} {v : Bytes}, List.ofFn xs ++ [v] = l → (∀ i : Fin 16, xs i = l[i.val]'(by omega)) ∧ v = l[16] := by
    rintro xs v rfl
    refine ⟨fun i => ?_, ?_⟩
    · rw [List.getElem_append_left (by rw [List.length_ofFn]; exact i.isLt), List.getElem_ofFn]
    · rw [List.getElem_append_right (by rw [List.length_ofFn])]
      simp only [List.length_ofFn, Nat.sub_self, List.getElem_cons_zero]
  have htake : ∀ i (h : i < (l.take 16).length), (l.take 16)[i] = l[i]'(by rw [List.length_take] at h; omega) := fun i h => List.getElem_take
  have hlt : (l.take 16).length = 16 := by rw [List.length_take, h17]; rfl
  have hget : l.getD 16 [] = l[16] := by rw [List.getD_eq_getElem?_getD, List.getElem?_eq_getElem (by omega)]; rfl
  have hval := decodeValue_iff (Rlp.mem_listBytes hl l[16] (List.getElem_mem _))
  have hvp : ∀ m, decodeValue l[16] ≠ .error (.panic m) := by
    obtain ⟨d, hd⟩ := Rlp.mem_listBytes hl l[16] (List.getElem_mem _)
    intro m h
    unfold decodeValue at h
    rw [(Rlp.item_of_spec hd).data] at h
    split at h <;> cases h
  have hdec : decodeAux (f + 1) b = (do
      let ns ← decodeChildren (decodeAux f) (l.take 16)
      let value ← decodeValue l[16]
      pure (.branch (fun i => ns.getD i.val .empty) value)) := by
    have h2 : ∀ k v, l ≠ [k, v] := by rintro k v rfl; simp at h17
    unfold decodeAux
    rw [hp]
    split
    · next e => cases e
    · next k v e => injection e with e; exact absurd e (h2 k v)
    · next e =>
      injection e with e
      subst e
      rw [if_pos h17, hget]
    · next h => exact absurd rfl (h l)
  rw [hdec]
  constructor
  · intro n
    constructor
    · intro h
      obtain ⟨ns, h1, h⟩ := bindOk h
      obtain ⟨value, h2, h3⟩ := bindOk h
      cases h3
      obtain ⟨h4, h5⟩ := decodeChildren_iff.1 h1
      rw [hsplit] at hl
      refine .branch hl ?_ ((hval value).1 h2)
      intro i
      have hi : i.val < ns.length := by rw [h4, hlt]; exact i.isLt
      have e := h5 i.val (by rw [hlt]; exact i.isLt) hi
      rw [htake] at e
      rw [List.getD_eq_getElem?_getD, List.getElem?_eq_getElem hi]
      exact ((ih _ (List.getElem_mem _)).1 _).1 e
    · intro ha
      rcases accepted_list hnd ha with ⟨k', v', d', p, e', h1, _⟩ | ⟨k', v', d', p, m, h1, _⟩ | ⟨xs, v, cs, value, h1, h2, h3, rfl⟩
      · rw [← huniq _ h1] at h17; simp at h17
      · rw [← huniq _ h1] at h17; simp at h17
      · obtain ⟨e1, e2⟩ := hxs (huniq _ h1)
        have hc : decodeChildren (decodeAux f) (l.take 16) = .ok (List.ofFn cs) := by
          refine decodeChildren_iff.2 ⟨by rw [List.length_ofFn, hlt], ?_⟩
          intro i hi hi'
          rw [hlt] at hi
          rw [htake, List.getElem_ofFn]
          have := h2 ⟨i, hi⟩
          rw [e1] at this
          exact ((ih _ (List.getElem_mem _)).1 _).2 this
        rw [hc, (hval value).2 (e2 ▸ h3)]
        show Except.ok _ = _
        congr 2
        funext i
        rw [List.getD_eq_getElem?_getD, List.getElem?_eq_getElem (by rw [List.length_ofFn]; exact i.isLt), List.getElem_ofFn]
        rfl
  · have e0 : (∃ m, (do let ns ← decodeChildren (decodeAux f) (l.take 16)
                        let value ← decodeValue l[16]
                        pure (.branch (fun i => ns.getD i.val .empty) value) : Res Node) = .error (.panic m)) ↔
        ∃ m, decodeChildren (decodeAux f) (l.take 16) = .error (.panic m) := by
      cases decodeChildren (decodeAux f) (l.take 16) with
      | error e => exact ⟨fun ⟨m, h⟩ => ⟨m, by cases h; rfl⟩, fun ⟨m, h⟩ => ⟨m, by cases h; rfl⟩⟩
      | ok ns =>
        refine ⟨?_, fun ⟨m, h⟩ => (nomatch h)⟩
        rintro ⟨m, h⟩
        simp only [Res.ok_bind] at h
        cases hv : decodeValue l[16] with
        | error e => rw [hv] at h; cases h; exact absurd hv (hvp m)
        | ok v => rw [hv] at h; cases h
    rw [e0, decodeChildren_panic]
    constructor
    · rintro ⟨i, hi, h1, h2⟩
      rw [hlt] at hi
      rw [hsplit] at hl
      refine .branch hl ⟨i, hi⟩ ?_ ?_
      · intro j hj
        obtain ⟨n, hn⟩ := h1 j.val hj
        rw [htake] at hn
        exact ⟨n, ((ih _ (List.getElem_mem _)).1 _).1 hn⟩
      · obtain ⟨m, hm⟩ := h2
        rw [htake] at hm
        exact (ih _ (List.getElem_mem _)).2.1 ⟨m, hm⟩
    · intro h
      cases h with
      | path h1 => rw [← huniq _ h1] at h17; simp at h17
      | ext h1 => rw [← huniq _ h1] at h17; simp at h17
      | branch h1 i h2 h3 =>
        obtain ⟨e1, e2⟩ := hxs (huniq _ h1)
        refine ⟨i.val, by rw [hlt]; exact i.isLt, ?_, ?_⟩
        · intro j hj
          obtain ⟨n, hn⟩ := h2 ⟨j, by omega⟩ hj
          rw [e1] at hn
          rw [htake]
          exact ⟨n, ((ih _ (List.getElem_mem _)).1 _).2 hn⟩
        · rw [htake]
          rw [e1] at h3
          exact (ih _ (List.getElem_mem _)).2.2 h3

theorem decodeAux_iff (f : Nat) : ∀ b : Bytes, b.length < f → b.length < 2 ^ 64 →
    (∀ n, decodeAux f b = .ok n ↔ Spec.Accepted b n) ∧ ((∃ m, decodeAux f b = .error (.panic m)) ↔ Spec.Breaks b) := by
  induction f with
  | zero => intro b h; exact absurd h (Nat.not_lt_zero _)
  | succ f ih =>
    intro b hf hb
    cases hd : Rlp.isData b with
    | true =>
      have hp : Rlp.prototype b = .data (Rlp.size b) := by unfold Rlp.prototype; rw [if_pos hd]
      have hnb : ¬ Spec.Breaks b := by
        intro h
        obtain ⟨l, hl⟩ := breaks_isData h
        rw [(Rlp.listBytes_isData hl).1] at hd
        cases hd
      by_cases h0 : Rlp.size b = 0
      · have e : decodeAux (f + 1) b = .ok .empty := by unfold decodeAux; rw [hp, h0]; rfl
        rw [e]
        refine ⟨fun n => ?_, ⟨fun ⟨m, h⟩ => (nomatch h), fun h => absurd h hnb⟩⟩
        rw [accepted_data hb hd]
        constructor
        · intro h; cases h; exact .inl ⟨h0, rfl⟩
        · rintro (⟨_, rfl⟩ | ⟨x, h, _⟩)
          · rfl
          · omega
      · have e : decodeAux (f + 1) b = decodeHash b := by
          unfold decodeAux
          rw [hp]
          split
          · next e => injection e with e; exact absurd e h0
          · next e => cases e
          · next e => cases e
          · rfl
        rw [e]
        unfold decodeHash
        by_cases h32 : Rlp.size b = 32
        · rw [if_pos ⟨hd, h32⟩]
          have hinfo : ∃ d, Rlp.data b = .ok d ∧ d.length = 32 := by
            unfold Rlp.size at h32
            rw [if_pos hd] at h32
            unfold Rlp.data
            cases hi : Rlp.payloadInfo b with
            | error e => rw [hi] at h32; cases h32
            | ok i =>
              rw [hi] at h32
              simp only at h32
              obtain ⟨h1, _⟩ := Rlp.payloadInfo_header hi
              exact ⟨_, rfl, by rw [List.length_take, List.length_drop]; omega⟩
          obtain ⟨d, h1, h2⟩ := hinfo
          rw [h1]
          simp only [Res.ok_bind]
          rw [dif_pos h2]
          refine ⟨fun n => ?_, ⟨fun ⟨m, h⟩ => (nomatch h), fun h => absurd h hnb⟩⟩
          rw [accepted_data hb hd]
          constructor
          · intro h; cases h; exact .inr ⟨⟨d, h2⟩, h32, h1, rfl⟩
          · rintro (⟨h, _⟩ | ⟨x, _, h, rfl⟩)
            · exact absurd h h0
            · rw [h1] at h
              cases h
              rfl
        · rw [if_neg (fun h => h32 h.2)]
          refine ⟨fun n => ⟨fun h => (nomatch h), fun h => ?_⟩, ⟨fun ⟨m, h⟩ => (nomatch h), fun h => absurd h hnb⟩⟩
          rcases (accepted_data hb hd n).1 h with ⟨h, _⟩ | ⟨x, h, _⟩
          · exact absurd h h0
          · exact absurd h h32
    | false =>
      have hno : (∀ l, Spec.ListBytes b l → False) → decodeAux (f + 1) b = decodeHash b →
          (∀ n, decodeAux (f + 1) b = .ok n ↔ Spec.Accepted b n) ∧ ((∃ m, decodeAux (f + 1) b = .error (.panic m)) ↔ Spec.Breaks b) := by
        intro h e
        rw [e, decodeHash_list hd]
        refine ⟨fun n => ⟨fun h => (nomatch h), fun ha => ?_⟩, ⟨fun ⟨m, h⟩ => (nomatch h), fun hb => ?_⟩⟩
        · rcases accepted_list hd ha with ⟨_, _, _, _, _, h1, _⟩ | ⟨_, _, _, _, _, h1, _⟩ | ⟨_, _, _, _, h1, _⟩ <;> exact (h _ h1).elim
        · obtain ⟨l, hl⟩ := breaks_isData hb
          exact (h l hl).elim
      cases hli : Rlp.isList b with
      | false =>
        refine hno (fun l hl => ?_) ?_
        · rw [(Rlp.listBytes_isData hl).2] at hli; cases hli
        · have hp : Rlp.prototype b = .null := by unfold Rlp.prototype; rw [if_neg (by simp [hd]), if_neg (by simp [hli])]
          unfold decodeAux
          rw [hp]
      | true =>
        have hp : Rlp.prototype b = .list (Rlp.items b) := by unfold Rlp.prototype; rw [if_neg (by simp [hd]), if_pos hli]
        cases hit : Rlp.items b with
        | nil =>
          refine hno (fun l hl => ?_) ?_
          · have := Rlp.prototype_listBytes hb hl
            rw [hp, hit] at this
            injection this with this
            subst this
            cases hl
          · unfold decodeAux
            rw [hp, hit]
            rfl
        | cons x t =>
          have hl := (Rlp.items_iff hb hd).1 hit
          have hlen : ∀ y ∈ x :: t, y.length < b.length := by rw [← hit]; exact Rlp.items_length hd
          by_cases h2 : ∃ k v, x :: t = [k, v]
          · obtain ⟨k, v, e⟩ := h2
            rw [e] at hl hlen
            have := hlen v (by simp)
            exact decode_two hb hl (ih v (by omega) (by omega))
          · by_cases h17 : (x :: t).length = 17
            · exact decode_seventeen hb hl h17 (fun y hy => ih y (by have := hlen y hy; omega) (by have := hlen y hy; omega))
            · have e : decodeAux (f + 1) b = decodeHash b := by
                unfold decodeAux
                rw [hp, hit]
                split
                · next e => cases e
                · next k v e => injection e with e; exact absurd ⟨k, v, e⟩ h2
                · next e => injection e with e; subst e; rw [if_neg h17]
                · rfl
              have huniq : ∀ l', Spec.ListBytes b l' → l' = x :: t := by
                intro l' hl'
                have := Rlp.prototype_listBytes hb hl'
                rw [hp, hit] at this
                injection this with this
                exact this.symm
              rw [e, decodeHash_list hd]
              refine ⟨fun n => ⟨fun h => (nomatch h), fun ha => ?_⟩, ⟨fun ⟨m, h⟩ => (nomatch h), fun hbr => ?_⟩⟩
              · rcases accepted_list hd ha with ⟨_, _, _, _, _, h1, _⟩ | ⟨_, _, _, _, _, h1, _⟩ | ⟨_, _, _, _, h1, _⟩
                · exact absurd ⟨_, _, (huniq _ h1).symm⟩ h2
                · exact absurd ⟨_, _, (huniq _ h1).symm⟩ h2
                · rw [← huniq _ h1, List.length_append, List.length_ofFn] at h17; exact absurd rfl h17
              · cases hbr with
                | path h1 => exact absurd ⟨_, _, (huniq _ h1).symm⟩ h2
                | ext h1 => exact absurd ⟨_, _, (huniq _ h1).symm⟩ h2
                | branch h1 => rw [← huniq _ h1, List.length_append, List.length_ofFn] at h17; exact absurd rfl h17

end Verif.Pmt
