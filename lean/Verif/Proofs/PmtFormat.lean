import Verif.Spec.PmtFormat
import Verif.Proofs.YellowPaper
import Verif.Proofs.PmtNode
/-!
The encodings of nodes are the encodings of the items of `Yellow.Format`.
-/

set_option autoImplicit false

namespace Verif.Pmt.Yellow
open Verif.Pmt Spec

variable {K : Keccak}

theorem leaf_bytes {l : List (Fin 16)} {v : Bytes} (hl : l.length ≤ 2 ^ 60) (hv : v.length < 2 ^ 60) :
    Rlp.encodeList [Rlp.encodeData (compact true l), Rlp.encodeData v] = rlp (.list [.data (hp l true), .data v]) := by
  have hc := compact_lt (leaf := true) hl
  have b1 := Rlp.encodeData_length_le (compact true l)
  have b2 := Rlp.encodeData_length_le v
  have e1 := data_eq (compact true l) (by rw [pow_256]; omega)
  have e2 := data_eq v (by rw [pow_256]; omega)
  rw [hp_eq] at e1
  rw [← list_eq]
  · simp only [List.map_cons, List.map_nil, hp_eq, e1, e2]
  · simp only [List.map_cons, List.map_nil, ← e1, ← e2]
    rw [pow_256, ← hp_eq]
    simp only [List.flatten_cons, List.flatten_nil, List.append_nil, List.length_append]
    omega

theorem ext_bytes {l : List (Fin 16)} {x : Bytes} {i : Item} (hl : l.length ≤ 2 ^ 60) (hx : x.length ≤ 41) (hi : x = rlp i) :
    Rlp.encodeList [Rlp.encodeData (compact false l), x] = rlp (.list [.data (hp l false), i]) := by
  have hlen := ext_length hl hx
  have hc := compact_lt (leaf := false) hl
  have e1 := data_eq (compact false l) (by rw [pow_256]; omega)
  rw [e1, hp_eq, hi] at hlen
  rw [← list_eq _ (by simpa using hlen), e1, hp_eq, hi]
  rfl

theorem branch_bytes {es : Fin 16 → Bytes} {c : Fin 16 → Item} {v : Option Bytes} (hi : ∀ j, ∃ p, Rlp.Item (es j) p)
    (hs : ∀ j, (es j).length ≤ 41) (he : ∀ j, es j = rlp (c j)) (hv : ∀ w, v = some w → w ≠ [] ∧ w.length < 2 ^ 60) :
    Rlp.encodeList ((List.finRange 16).map es ++ [valueItem v]) = rlp (.list ((List.finRange 16).map c ++ [.data (v.getD [])])) := by
  have hlen := (branch_items hi hs hv).2
  have hval : valueItem v = rlp (.data (v.getD [])) := by
    cases v with
    | none => exact data_eq [] (by simp)
    | some w => exact data_eq w (by rw [pow_256]; have := (hv w rfl).2; omega)
  have e : (List.finRange 16).map es ++ [valueItem v] = ((List.finRange 16).map c ++ [Item.data (v.getD [])]).map rlp := by
    rw [hval, List.map_append, List.map_map]
    congr 1
    exact List.map_congr_left (fun j _ => he j)
  rw [e] at hlen
  rw [e, list_eq _ hlen]

/-- Every node is encoded as an item of the format. -/
theorem format_of_node (n : Node) (h : NodeOk n) :
    (NotHash n → ∃ b w i, encodeRaw K n = .ok (b, w) ∧ Format false i ∧ b = rlp i) ∧
      ∃ e w i, writeNode K n = .ok (e, w) ∧ Format true i ∧ e.item = rlp i := by
  have fin : ∀ {n : Node}, NotHash n → (∃ b w i, encodeRaw K n = .ok (b, w) ∧ Format false i ∧ b = rlp i) →
      (NotHash n → ∃ b w i, encodeRaw K n = .ok (b, w) ∧ Format false i ∧ b = rlp i) ∧
      ∃ e w i, writeNode K n = .ok (e, w) ∧ Format true i ∧ e.item = rlp i := by
    rintro n hn ⟨b, w, i, h1, h2, h3⟩
    refine ⟨fun _ => ⟨b, w, i, h1, h2, h3⟩, ?_⟩
    have e : writeNode K n = .ok (writeData K b w) := by rw [writeNode_eq n (notHash_iff.1 hn), h1]
    by_cases hl : b.length < 32
    · rw [show writeData K b w = (.inline b, w) from if_pos hl] at e
      exact ⟨_, _, i, e, .short i h2 (h3 ▸ hl), h3⟩
    · rw [show writeData K b w = (.hash (K b), w ++ [(K b, b)]) from if_neg hl] at e
      exact ⟨_, _, _, e, .hash (K b), data_eq _ (by rw [(K b).size]; decide)⟩
  induction n with
  | hash x => exact ⟨fun h => h.elim, _, _, _, rfl, .hash x, data_eq _ (by rw [x.size]; decide)⟩
  | empty => exact fin trivial ⟨_, _, _, rfl, .empty, data_eq [] (by simp)⟩
  | leaf key value =>
    obtain ⟨⟨l, rfl, hl⟩, hv⟩ := h
    refine fin trivial ⟨_, [], _, ?_, .leaf l value hl hv, leaf_bytes hl hv⟩
    show (do
      let c ← Nibbles.encodeCompact (leafPath l)
      pure (Rlp.encodeList [Rlp.encodeData c, Rlp.encodeData value], [])) = _
    rw [encodeCompact_leaf]
    rfl
  | ext pre node ih =>
    obtain ⟨⟨l, rfl, hne, hl⟩, hn⟩ := h
    obtain ⟨_, e, w, i, h1, h2, h3⟩ := ih hn
    obtain ⟨_, e', w', hi⟩ := node_codec (K := K) node hn
    rw [hi.eq] at h1
    cases h1
    refine fin trivial ⟨_, w, _, ?_, .ext l i hl hne h2, ext_bytes hl hi.size h3⟩
    show (do
      let c ← Nibbles.encodeCompact (toNibs l)
      let (e, w) ← writeNode K node
      pure (Rlp.encodeList [Rlp.encodeData c, e.item], w)) = _
    rw [encodeCompact_ext hne, hi.eq]
    rfl
  | branch children value ih =>
    have hc : ∀ j, ∃ e w i, ItemOk K (children j) e w ∧ Format true i ∧ e.item = rlp i := by
      intro j
      obtain ⟨_, e, w, i, h1, h2, h3⟩ := ih j (h.1 j)
      obtain ⟨_, e', w', hi⟩ := node_codec (K := K) (children j) (h.1 j)
      rw [hi.eq] at h1
      cases h1
      exact ⟨_, _, i, hi, h2, h3⟩
    choose es ws is hi hf he using hc
    refine fin trivial ⟨_, ((List.finRange 16).map ws).flatten, _, ?_, .branch is (value.getD []) ?_ hf,
      branch_bytes (fun j => (hi j).item) (fun j => (hi j).size) he h.2⟩
    · show (do
        let (es, w) ← writeChildren (fun i => writeNode K (children i)) (List.finRange 16)
        pure (Rlp.encodeList (es ++ [valueItem value]), w)) = _
      rw [writeChildren_items (fun i => (hi i).eq)]
      rfl
    · cases value with
      | none => simp
      | some v => exact (h.2 v rfl).2

/-- What an item of the format is read as. -/
theorem node_of_format {c : Bool} {i : Item} (h : Format c i) :
    if c then ∃ n e, NodeOk n ∧ ItemOk K n e [] ∧ e.item = rlp i ∧ orHash (writeNode K n) (collapse K n) = n
    else ∃ n, NodeOk n ∧ NotHash n ∧ encodeRaw K n = .ok (rlp i, []) ∧ collapse K n = n := by
  induction h with
  | empty => exact ⟨.empty, trivial, trivial, by rw [← data_eq [] (by simp)]; rfl, rfl⟩
  | leaf l v hl hv =>
    refine ⟨.leaf (leafPath l) v, ⟨⟨l, rfl, hl⟩, hv⟩, trivial, ?_, rfl⟩
    rw [← leaf_bytes hl hv]
    show (do
      let c ← Nibbles.encodeCompact (leafPath l)
      pure (Rlp.encodeList [Rlp.encodeData c, Rlp.encodeData v], [])) = _
    rw [encodeCompact_leaf]
    rfl
  | ext l i hl hne _ ih =>
    obtain ⟨n, e, hn, hi, he, ho⟩ := ih
    refine ⟨.ext (toNibs l) n, ⟨⟨l, rfl, hne, hl⟩, hn⟩, trivial, ?_, ?_⟩
    · rw [← ext_bytes hl hi.size he]
      show (do
        let c ← Nibbles.encodeCompact (toNibs l)
        let (e, w) ← writeNode K n
        pure (Rlp.encodeList [Rlp.encodeData c, e.item], w)) = _
      rw [encodeCompact_ext hne, hi.eq]
      rfl
    · rw [collapse_ext, ho]
  | branch c v hv _ ih =>
    have ih' : ∀ j, ∃ n e, NodeOk n ∧ ItemOk K n e [] ∧ e.item = rlp (c j) ∧ orHash (writeNode K n) (collapse K n) = n := ih
    choose ns es hn hi he ho using ih'
    obtain ⟨value, hval, hv'⟩ : ∃ value : Option Bytes, value.getD [] = v ∧ ∀ w, value = some w → w ≠ [] ∧ w.length < 2 ^ 60 := by
      by_cases h0 : v = []
      · exact ⟨none, h0.symm, by simp⟩
      · exact ⟨some v, rfl, by rintro w ⟨⟩; exact ⟨h0, hv⟩⟩
    refine ⟨.branch ns value, ⟨hn, hv'⟩, trivial, ?_, ?_⟩
    · rw [← hval, ← branch_bytes (fun j => (hi j).item) (fun j => (hi j).size) he hv']
      show (do
        let (es, w) ← writeChildren (fun i => writeNode K (ns i)) (List.finRange 16)
        pure (Rlp.encodeList (es ++ [valueItem value]), w)) = _
      rw [writeChildren_items (fun i => (hi i).eq)]
      simp
    · rw [collapse_branch]
      congr 1
      funext j
      exact ho j
  | short i _ hs ih =>
    obtain ⟨n, hn, hnh, henc, hcol⟩ := ih
    obtain ⟨b, w, hr⟩ := (node_codec (K := K) n hn).1 hnh
    obtain ⟨rfl, rfl⟩ := hr.unique henc
    have hw : writeData K (rlp i) [] = (.inline (rlp i), []) := if_pos hs
    have hit := hr.toItem hnh
    rw [hw] at hit
    refine ⟨n, _, hn, hit, rfl, ?_⟩
    rw [hit.eq]
    exact hcol
  | hash h => exact ⟨.hash h, .hash h, trivial, itemOk_hash h, data_eq _ (by rw [h.size]; decide), rfl⟩

end Verif.Pmt.Yellow
