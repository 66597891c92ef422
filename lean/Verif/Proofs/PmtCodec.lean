import Verif.Proofs.PmtRlp
/-!
Encoding of the trees, and reading it back.
-/

set_option autoImplicit false

namespace Verif.Pmt

namespace PT

/-- What a parent contains for a child with the given encoding. -/
def itemOf (K : Keccak) (b : Bytes) : Bytes := if b.length < 32 then b else Rlp.encodeData (K b).bytes

/-- Encoding of a tree. -/
def enc (K : Keccak) : PT → Bytes
  | .empty => [0x80]
  | .leaf k v => Rlp.encodeList [Rlp.encodeData (compact true k), Rlp.encodeData v]
  | .ext p t => Rlp.encodeList [Rlp.encodeData (compact false p), itemOf K (enc K t)]
  | .branch cs v => Rlp.encodeList ((List.finRange 16).map (fun i => itemOf K (enc K (cs i))) ++ [valueItem v])

/-- The node the encoding stands for: long subtrees are hash nodes. -/
def top (K : Keccak) : PT → Node
  | .empty => .empty
  | .leaf k v => .leaf (leafPath k) v
  | .ext p t => .ext (toNibs p) (if (enc K t).length < 32 then top K t else .hash (K (enc K t)))
  | .branch cs v => .branch (fun i => if (enc K (cs i)).length < 32 then top K (cs i) else .hash (K (enc K (cs i)))) v

/-- The node standing for a subtree. -/
def node (K : Keccak) (t : PT) : Node := if (enc K t).length < 32 then top K t else .hash (K (enc K t))

end PT

open PT

variable {K : Keccak}

theorem itemOf_length_le (b : Bytes) : (itemOf K b).length ≤ 41 := by
  unfold itemOf
  split
  · omega
  · have := Rlp.encodeData_length_le (K b).bytes
    rw [(K b).size] at this
    exact this

theorem flatten_map_length_le {α : Type} (l : List α) (f : α → Bytes) (n : Nat) (h : ∀ a, (f a).length ≤ n) :
    (l.map f).flatten.length ≤ l.length * n := by
  induction l with
  | nil => simp
  | cons a t ih =>
    have := h a
    simp only [List.map_cons, List.flatten_cons, List.length_append, List.length_cons, Nat.add_mul]
    omega

theorem compact_lt {leaf : Bool} {l : List Nib} (h : l.length ≤ 2 ^ 60) : (compact leaf l).length < 2 ^ 60 := by
  rw [compact_length]; omega

theorem pow_256 : (256 : Nat) ^ 8 = 2 ^ 64 := by decide

/-- The payload of a leaf, an extension or a branch. -/
def parts (K : Keccak) : PT → List Bytes
  | .empty => []
  | .leaf k v => [Rlp.encodeData (compact true k), Rlp.encodeData v]
  | .ext p t => [Rlp.encodeData (compact false p), itemOf K (enc K t)]
  | .branch cs v => (List.finRange 16).map (fun i => itemOf K (enc K (cs i))) ++ [valueItem v]

theorem enc_eq {t : PT} (h : t ≠ .empty) : enc K t = Rlp.encodeList (parts K t) := by
  cases t with
  | empty => exact absurd rfl h
  | _ => rfl

theorem parts_length {t : PT} (h : Ok t (2 ^ 60)) : (parts K t).flatten.length < 256 ^ 8 := by
  rw [pow_256]
  cases t with
  | empty => simp [parts]
  | leaf k v =>
    have h1 := Rlp.encodeData_length_le (compact true k)
    have h2 := Rlp.encodeData_length_le v
    have h3 := compact_lt (leaf := true) h.1
    have h4 := h.2.2
    simp only [parts, List.flatten_cons, List.flatten_nil, List.length_append, List.length_nil]
    omega
  | ext p t =>
    have h1 := Rlp.encodeData_length_le (compact false p)
    have h2 := itemOf_length_le (K := K) (enc K t)
    have h3 := compact_lt (leaf := false) h.2.1
    simp only [parts, List.flatten_cons, List.flatten_nil, List.length_append, List.length_nil]
    omega
  | branch cs v =>
    have h1 := flatten_map_length_le (List.finRange 16) (fun i => itemOf K (enc K (cs i))) 41 (fun i => itemOf_length_le _)
    rw [List.length_finRange] at h1
    have h2 : (valueItem v).length < 2 ^ 61 := by
      rcases v with _ | w
      · simp [valueItem]
      · have := Rlp.encodeData_length_le w
        have h3 := (h.2 w rfl).2
        simp only [valueItem]; omega
    simp only [parts, List.flatten_append, List.flatten_cons, List.flatten_nil, List.length_append, List.length_nil]
    refine Nat.lt_of_le_of_lt (Nat.add_le_add h1 (Nat.le_refl _)) ?_
    omega

theorem item_empty : Rlp.Item [0x80] [] := by
  have := Rlp.item_data [] (by simp)
  exact this

theorem item_enc {t : PT} (h : Ok t (2 ^ 60)) : ∃ p, Rlp.Item (enc K t) p := by
  by_cases he : t = .empty
  · subst he; exact ⟨[], item_empty⟩
  · rw [enc_eq he]
    exact ⟨_, Rlp.item_list _ (parts_length h)⟩

theorem item_hash (h : H256) : Rlp.Item (Rlp.encodeData h.bytes) h.bytes :=
  Rlp.item_data _ (by rw [h.size, pow_256]; decide)

theorem item_itemOf {t : PT} (h : Ok t (2 ^ 60)) : ∃ p, Rlp.Item (itemOf K (enc K t)) p := by
  unfold itemOf
  split
  · exact item_enc h
  · exact ⟨_, item_hash _⟩

theorem ok_child {cs : Nib → PT} {v : Option Bytes} {d : Nat} (h : Ok (.branch cs v) d) (i : Nib) : Ok (cs i) d := by
  rcases h.1 i with h' | h'
  · rw [h']; trivial
  · exact ok_mono h'.2 (by omega)

theorem ok_sub {p : List Nib} {t : PT} {d : Nat} (h : Ok (.ext p t) d) : Ok t d := ok_mono h.2.2.2 (by omega)

theorem item_value {v : Option Bytes} (h : ∀ w, v = some w → ValOk w) : ∃ p, Rlp.Item (valueItem v) p := by
  rcases v with _ | w
  · exact ⟨[], item_empty⟩
  · exact ⟨w, Rlp.item_data w (by rw [pow_256]; have := (h w rfl).2; omega)⟩

theorem parts_items {t : PT} (h : Ok t (2 ^ 60)) : ∀ x ∈ parts K t, ∃ p, Rlp.Item x p := by
  intro x hx
  cases t with
  | empty => cases hx
  | leaf k v =>
    simp only [parts, List.mem_cons, List.not_mem_nil, or_false] at hx
    rcases hx with rfl | rfl
    · exact ⟨_, Rlp.item_data _ (by rw [pow_256]; have := compact_lt (leaf := true) h.1; omega)⟩
    · exact ⟨_, Rlp.item_data _ (by rw [pow_256]; have := h.2.2; omega)⟩
  | ext p t =>
    simp only [parts, List.mem_cons, List.not_mem_nil, or_false] at hx
    rcases hx with rfl | rfl
    · exact ⟨_, Rlp.item_data _ (by rw [pow_256]; have := compact_lt (leaf := false) h.2.1; omega)⟩
    · exact item_itemOf (ok_sub h)
  | branch cs v =>
    simp only [parts, List.mem_append, List.mem_map, List.mem_cons, List.not_mem_nil, or_false] at hx
    rcases hx with ⟨i, _, rfl⟩ | rfl
    · exact item_itemOf (ok_child h i)
    · exact item_value h.2

theorem mem_flatten_length {l : List Bytes} {x : Bytes} (h : x ∈ l) : x.length ≤ l.flatten.length := by
  induction l with
  | nil => cases h
  | cons y t ih =>
    simp only [List.flatten_cons, List.length_append]
    rcases List.mem_cons.1 h with rfl | h
    · omega
    · have := ih h; omega

theorem decodeHash_item (h : H256) (f : Nat) : decodeAux (f + 1) (Rlp.encodeData h.bytes) = .ok (.hash h) := by
  have hsz : Rlp.size (Rlp.encodeData h.bytes) = 32 := by
    rw [Rlp.size_encodeData (by rw [h.size, pow_256]; decide), h.size]
  have hp : Rlp.prototype (Rlp.encodeData h.bytes) = .data 32 := by
    unfold Rlp.prototype
    rw [Rlp.isData_encodeData, hsz]
    rfl
  unfold decodeAux
  rw [hp]
  simp only
  unfold decodeHash
  rw [if_pos ⟨Rlp.isData_encodeData _, hsz⟩, (item_hash h).data]
  simp only [Res.ok_bind, h.size, dite_true]
  rfl

theorem decodeChildren_ok {f : Bytes → Res Node} {l : List Bytes} {g : List Node} (h : l.length = g.length)
    (hf : ∀ i (h1 : i < l.length) (h2 : i < g.length), f l[i] = .ok g[i]) : decodeChildren f l = .ok g := by
  induction l generalizing g with
  | nil => cases g with
    | nil => rfl
    | cons => simp at h
  | cons x t ih =>
    cases g with
    | nil => simp at h
    | cons y u =>
      simp only [List.length_cons, Nat.add_right_cancel_iff] at h
      have h0 := hf 0 (by simp) (by simp)
      simp only [List.getElem_cons_zero] at h0
      have h1 := ih h (fun i a b => by
        have := hf (i + 1) (by simp; omega) (by simp; omega)
        simpa using this)
      unfold decodeChildren
      rw [h0]
      simp only [Res.ok_bind, h1]
      rfl

theorem decodeValue_item {v : Option Bytes} (h : ∀ w, v = some w → ValOk w) : decodeValue (valueItem v) = .ok v := by
  rcases v with _ | w
  · rfl
  · have := h w rfl
    unfold decodeValue valueItem
    rw [Rlp.isEmpty_encodeData this.1, (Rlp.item_data w (by rw [pow_256]; have := this.2; omega)).data]
    rfl

/-- Decoding the encoding of a tree gives its node with long subtrees as hash nodes. -/
theorem decodeAux_enc {t : PT} (h : Ok t (2 ^ 60)) (f : Nat) (hf : (enc K t).length < f) : decodeAux f (enc K t) = .ok (top K t) := by
  induction t generalizing f with
  | empty =>
    cases f with
    | zero => simp at hf
    | succ f => rfl
  | leaf k v =>
    cases f with
    | zero => simp at hf
    | succ f =>
      unfold decodeAux
      rw [enc_eq (by simp), Rlp.prototype_list (parts_items h) (parts_length h)]
      simp only [parts]
      rw [(Rlp.item_data (compact true k) (by rw [pow_256]; have := compact_lt (leaf := true) h.1; omega)).data]
      simp only [Res.ok_bind, fromCompact_compact, if_true, isLeaf_leafPath]
      rw [(Rlp.item_data v (by rw [pow_256]; have := h.2.2; omega)).data]
      rfl
  | ext p t ih =>
    cases f with
    | zero => simp at hf
    | succ f =>
      have hlen : (itemOf K (enc K t)).length < f := by
        have h1 : (itemOf K (enc K t)).length ≤ (parts K (.ext p t)).flatten.length := mem_flatten_length (by simp [parts])
        have h2 := Rlp.encodeList_length_gt (l := parts K (.ext p t))
        rw [enc_eq (by simp)] at hf
        omega
      unfold decodeAux
      rw [enc_eq (by simp), Rlp.prototype_list (parts_items h) (parts_length h)]
      simp only [parts]
      rw [(Rlp.item_data (compact false p) (by rw [pow_256]; have := compact_lt (leaf := false) h.2.1; omega)).data]
      simp only [Res.ok_bind, fromCompact_compact, Bool.false_eq_true, if_false, isLeaf_toNibs h.1]
      have hi : decodeAux f (itemOf K (enc K t)) = .ok (if (enc K t).length < 32 then top K t else .hash (K (enc K t))) := by
        unfold itemOf at hlen ⊢
        split
        · next hs => rw [if_pos hs] at hlen; exact ih (ok_sub h) f hlen
        · cases f with
          | zero => simp at hlen
          | succ f => exact decodeHash_item _ f
      rw [hi]
      rfl
  | branch cs v ih =>
    cases f with
    | zero => simp at hf
    | succ f =>
      have hlen : ∀ i, (itemOf K (enc K (cs i))).length < f := by
        intro i
        have h1 : (itemOf K (enc K (cs i))).length ≤ (parts K (.branch cs v)).flatten.length :=
          mem_flatten_length (by simp only [parts, List.mem_append, List.mem_map]; exact .inl ⟨i, List.mem_finRange i, rfl⟩)
        have h2 := Rlp.encodeList_length_gt (l := parts K (.branch cs v))
        rw [enc_eq (by simp)] at hf
        omega
      have hi : ∀ i, decodeAux f (itemOf K (enc K (cs i)))
          = .ok (if (enc K (cs i)).length < 32 then top K (cs i) else .hash (K (enc K (cs i)))) := by
        intro i
        have hlen := hlen i
        unfold itemOf at hlen ⊢
        split
        · next hs => rw [if_pos hs] at hlen; exact ih i (ok_child h i) f hlen
        · cases f with
          | zero => simp at hlen
          | succ f => exact decodeHash_item _ f
      have hl : (parts K (.branch cs v)).length = 17 := by simp [parts]
      unfold decodeAux
      rw [enc_eq (by simp), Rlp.prototype_list (parts_items h) (parts_length h)]
      split
      · next heq => cases heq
      · next heq =>
        have := congrArg (fun x => match x with | Rlp.Proto.list l => l.length | _ => 0) heq
        simp [hl] at this
      · next items _ heq =>
        cases heq
        rw [if_pos hl]
        have e1 : (parts K (.branch cs v)).take 16 = (List.finRange 16).map (fun i => itemOf K (enc K (cs i))) := by
          unfold parts
          rw [List.take_left' (by simp)]
        have e2 : (parts K (.branch cs v)).getD 16 [] = valueItem v := by
          unfold parts
          simp [List.getD]
        rw [e1, e2, decodeValue_item h.2,
          decodeChildren_ok (g := (List.finRange 16).map (fun i => if (enc K (cs i)).length < 32 then top K (cs i) else .hash (K (enc K (cs i)))))
            (by simp) (fun i h1 h2 => by simp [hi])]
        simp only [Res.ok_bind, Res.pure_eq, top]
        congr 2
        funext i
        simp [List.getD]
      · next h1 h2 heq => exact absurd rfl (heq _)

theorem decodeNode_enc {t : PT} (h : Ok t (2 ^ 60)) : decodeNode (enc K t) = .ok (top K t) :=
  decodeAux_enc h _ (Nat.lt_succ_self _)

end Verif.Pmt
