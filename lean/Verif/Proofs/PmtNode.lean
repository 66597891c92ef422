import Mathlib.Tactic.Choose
import Verif.Proofs.PmtRun
import Verif.Spec.PmtNode
/-!
The node codec on arbitrary nodes.
-/

set_option autoImplicit false

namespace Verif.Pmt

open Spec

variable {K : Keccak}

/-- The hash, if a node was written by hash, and otherwise the other node. -/
def orHash : Res (Encoded × Written) → Node → Node
  | .ok (.hash h, _), _ => .hash h
  | _, n => n

theorem byHash_eq (n : Node) : byHash K n (collapse K n) = orHash (writeNode K n) (collapse K n) := by
  by_cases hn : IsHash n
  · cases n <;> first | exact hn.elim | rfl
  · rw [writeNode_eq n hn]
    unfold byHash
    rcases encodeRaw K n with e | ⟨b, w⟩
    · rfl
    · by_cases hl : b.length < 32
      · simp only [if_pos hl, show writeData K b w = (.inline b, w) from if_pos hl, orHash]
      · simp only [if_neg hl, show writeData K b w = (.hash (K b), w ++ [(K b, b)]) from if_neg hl, orHash]

theorem collapse_ext (pre : Nibbles) (n : Node) : collapse K (.ext pre n) = .ext pre (orHash (writeNode K n) (collapse K n)) := by
  rw [← byHash_eq]
  rfl

theorem collapse_branch (cs : Fin 16 → Node) (v : Option Bytes) :
    collapse K (.branch cs v) = .branch (fun i => orHash (writeNode K (cs i)) (collapse K (cs i))) v := by
  simp only [← byHash_eq]
  rfl

/-- What is known about the encoding of a node that is not a hash. -/
structure RawOk (K : Keccak) (n : Node) (b : Bytes) (w : Written) : Prop where
  eq : encodeRaw K n = .ok (b, w)
  item : ∃ p, Rlp.Item b p
  dec : ∀ f, b.length < f → decodeAux f b = .ok (collapse K n)

/-- What is known about the item put into the parent of a node. -/
structure ItemOk (K : Keccak) (n : Node) (e : Encoded) (w : Written) : Prop where
  eq : writeNode K n = .ok (e, w)
  item : ∃ p, Rlp.Item e.item p
  size : e.item.length ≤ 41
  dec : ∀ f, e.item.length < f → decodeAux f e.item = .ok (orHash (.ok (e, w)) (collapse K n))

theorem notHash_iff {n : Node} : NotHash n ↔ ¬ IsHash n := by cases n <;> simp [NotHash, IsHash]

theorem itemOk_hash (h : H256) : ItemOk K (.hash h) (.hash h) [] := by
  refine ⟨rfl, ⟨_, item_hash h⟩, ?_, ?_⟩
  · have := Rlp.encodeData_length_le h.bytes
    rw [h.size] at this
    exact this
  · intro f hf
    cases f with
    | zero => omega
    | succ f => exact decodeHash_item h f

theorem RawOk.toItem {n : Node} {b : Bytes} {w : Written} (hn : NotHash n) (h : RawOk K n b w) :
    ItemOk K n (writeData K b w).1 (writeData K b w).2 := by
  have e : writeNode K n = .ok (writeData K b w) := by rw [writeNode_eq n (notHash_iff.1 hn), h.eq]
  by_cases hl : b.length < 32
  · have hw : writeData K b w = (.inline b, w) := if_pos hl
    rw [hw] at e ⊢
    exact ⟨e, h.item, by simp only [Encoded.item]; omega, h.dec⟩
  · have hw : writeData K b w = (.hash (K b), w ++ [(K b, b)]) := if_neg hl
    rw [hw] at e ⊢
    have hh := itemOk_hash (K := K) (K b)
    exact ⟨e, hh.item, hh.size, hh.dec⟩

theorem decodeAux_leaf {l : List (Fin 16)} {v : Bytes} (hl : l.length ≤ 2 ^ 60) (hv : v.length < 2 ^ 60) {f : Nat}
    (hf : (Rlp.encodeList [Rlp.encodeData (compact true l), Rlp.encodeData v]).length < f) :
    decodeAux f (Rlp.encodeList [Rlp.encodeData (compact true l), Rlp.encodeData v]) = .ok (.leaf (leafPath l) v) := by
  have hc := compact_lt (leaf := true) hl
  have i1 := Rlp.item_data (compact true l) (by rw [pow_256]; omega)
  have i2 := Rlp.item_data v (by rw [pow_256]; omega)
  have b1 := Rlp.encodeData_length_le (compact true l)
  have b2 := Rlp.encodeData_length_le v
  cases f with
  | zero => omega
  | succ f =>
    unfold decodeAux
    rw [Rlp.prototype_list (by
        intro x hx
        simp only [List.mem_cons, List.not_mem_nil, or_false] at hx
        rcases hx with rfl | rfl
        · exact ⟨_, i1⟩
        · exact ⟨_, i2⟩) (by
        rw [pow_256]
        simp only [List.flatten_cons, List.flatten_nil, List.append_nil, List.length_append]
        omega)]
    simp only [i1.data, Res.ok_bind, fromCompact_compact, if_true, isLeaf_leafPath, i2.data]
    rfl

theorem ext_length {l : List (Fin 16)} {x : Bytes} (hl : l.length ≤ 2 ^ 60) (hx : x.length ≤ 41) :
    ([Rlp.encodeData (compact false l), x] : List Bytes).flatten.length < 256 ^ 8 := by
  have hc := compact_lt (leaf := false) hl
  have b1 := Rlp.encodeData_length_le (compact false l)
  rw [pow_256]
  simp only [List.flatten_cons, List.flatten_nil, List.append_nil, List.length_append]
  omega

theorem decodeAux_ext {l : List (Fin 16)} {x : Bytes} {m : Node} (hl : l.length ≤ 2 ^ 60) (hne : l ≠ []) (hi : ∃ p, Rlp.Item x p)
    (hx : x.length ≤ 41) (hd : ∀ f, x.length < f → decodeAux f x = .ok m) {f : Nat}
    (hf : (Rlp.encodeList [Rlp.encodeData (compact false l), x]).length < f) :
    decodeAux f (Rlp.encodeList [Rlp.encodeData (compact false l), x]) = .ok (.ext (toNibs l) m) := by
  have hc := compact_lt (leaf := false) hl
  have i1 := Rlp.item_data (compact false l) (by rw [pow_256]; omega)
  cases f with
  | zero => omega
  | succ f =>
    have hlen : x.length < f := by
      have h1 : x.length ≤ ([Rlp.encodeData (compact false l), x] : List Bytes).flatten.length := mem_flatten_length (by simp)
      have h2 := Rlp.encodeList_length_gt (l := [Rlp.encodeData (compact false l), x])
      omega
    unfold decodeAux
    rw [Rlp.prototype_list (by
        intro y hy
        simp only [List.mem_cons, List.not_mem_nil, or_false] at hy
        rcases hy with rfl | rfl
        · exact ⟨_, i1⟩
        · exact hi) (ext_length hl hx)]
    simp only [i1.data, Res.ok_bind, fromCompact_compact, Bool.false_eq_true, if_false, isLeaf_toNibs hne, hd f hlen]
    rfl

theorem branch_items {es : Fin 16 → Bytes} {v : Option Bytes} (hi : ∀ i, ∃ p, Rlp.Item (es i) p) (hs : ∀ i, (es i).length ≤ 41)
    (hv : ∀ w, v = some w → w ≠ [] ∧ w.length < 2 ^ 60) :
    (∀ x ∈ (List.finRange 16).map es ++ [valueItem v], ∃ p, Rlp.Item x p) ∧
      ((List.finRange 16).map es ++ [valueItem v]).flatten.length < 256 ^ 8 := by
  constructor
  · intro x hx
    rcases List.mem_append.1 hx with hx | hx
    · obtain ⟨i, _, rfl⟩ := List.mem_map.1 hx
      exact hi i
    · rw [List.mem_singleton.1 hx]
      exact item_value hv
  · rw [pow_256, List.flatten_append, List.length_append]
    have h1 := flatten_map_length_le (List.finRange 16) es 41 hs
    have h2 : (valueItem v).length < 2 ^ 60 + 9 := by
      rcases v with _ | w
      · simp [valueItem]
      · have := Rlp.encodeData_length_le w
        have := (hv w rfl).2
        simp only [valueItem]
        omega
    simp only [List.length_finRange, List.flatten_cons, List.flatten_nil, List.append_nil] at h1 ⊢
    omega

theorem decodeAux_branch {es : Fin 16 → Bytes} {ms : Fin 16 → Node} {v : Option Bytes} (hi : ∀ i, ∃ p, Rlp.Item (es i) p)
    (hs : ∀ i, (es i).length ≤ 41) (hv : ∀ w, v = some w → w ≠ [] ∧ w.length < 2 ^ 60)
    (hd : ∀ i f, (es i).length < f → decodeAux f (es i) = .ok (ms i)) {f : Nat}
    (hf : (Rlp.encodeList ((List.finRange 16).map es ++ [valueItem v])).length < f) :
    decodeAux f (Rlp.encodeList ((List.finRange 16).map es ++ [valueItem v])) = .ok (.branch ms v) := by
  obtain ⟨g1, g2⟩ := branch_items hi hs hv
  have hl : ((List.finRange 16).map es ++ [valueItem v]).length = 17 := by simp
  cases f with
  | zero => omega
  | succ f =>
    have hlen : ∀ i, (es i).length < f := by
      intro i
      have h1 : (es i).length ≤ ((List.finRange 16).map es ++ [valueItem v]).flatten.length :=
        mem_flatten_length (by simp only [List.mem_append, List.mem_map]; exact .inl ⟨i, List.mem_finRange i, rfl⟩)
      have h2 := Rlp.encodeList_length_gt (l := (List.finRange 16).map es ++ [valueItem v])
      omega
    have e1 : ((List.finRange 16).map es ++ [valueItem v]).take 16 = (List.finRange 16).map es := by
      rw [List.take_left' (by simp)]
    have e2 : ((List.finRange 16).map es ++ [valueItem v]).getD 16 [] = valueItem v := by
      simp [List.getD]
    unfold decodeAux
    rw [Rlp.prototype_list g1 g2]
    generalize (List.finRange 16).map es ++ [valueItem v] = items at *
    split
    · next heq => cases heq
    · next heq =>
      have := congrArg (fun x => match x with | Rlp.Proto.list l => l.length | _ => 0) heq
      simp [hl] at this
    · next its _ heq =>
      cases heq
      rw [if_pos hl, e1, e2, decodeValue_item hv,
        decodeChildren_ok (g := (List.finRange 16).map ms) (by simp) (fun i h1 h2 => by simp [hd _ f (hlen _)])]
      simp only [Res.ok_bind, Res.pure_eq]
      congr 2
      funext i
      simp [List.getD]
    · next h1 h2 heq => exact absurd rfl (heq _)

theorem writeChildren_items {f : Fin 16 → Res (Encoded × Written)} {es : Fin 16 → Encoded} {ws : Fin 16 → Written}
    (h : ∀ i, f i = .ok (es i, ws i)) (l : List (Fin 16)) :
    writeChildren f l = .ok (l.map (fun i => (es i).item), (l.map ws).flatten) := by
  induction l with
  | nil => rfl
  | cons i t ih =>
    unfold writeChildren
    rw [h i]
    simp only [Res.ok_bind, ih]
    rfl

/-- The codec on arbitrary nodes. -/
theorem node_codec (n : Node) (h : NodeOk n) : (NotHash n → ∃ b w, RawOk K n b w) ∧ ∃ e w, ItemOk K n e w := by
  have fin : ∀ {n : Node}, NotHash n → (∃ b w, RawOk K n b w) → (NotHash n → ∃ b w, RawOk K n b w) ∧ ∃ e w, ItemOk K n e w :=
    fun hn ⟨b, w, h⟩ => ⟨fun _ => ⟨b, w, h⟩, _, _, h.toItem hn⟩
  induction n with
  | hash x => exact ⟨fun h => h.elim, _, _, itemOk_hash x⟩
  | empty =>
    refine fin trivial ⟨[0x80], [], rfl, ⟨_, item_empty⟩, ?_⟩
    intro f hf
    cases f with
    | zero => omega
    | succ f => rfl
  | leaf key value =>
    obtain ⟨⟨l, rfl, hl⟩, hv⟩ := h
    refine fin trivial ⟨Rlp.encodeList [Rlp.encodeData (compact true l), Rlp.encodeData value], [], ?_, ?_, fun f hf => decodeAux_leaf hl hv hf⟩
    · show (do
        let c ← Nibbles.encodeCompact (leafPath l)
        pure (Rlp.encodeList [Rlp.encodeData c, Rlp.encodeData value], [])) = _
      rw [encodeCompact_leaf]
      rfl
    · have hc := compact_lt (leaf := true) hl
      have b1 := Rlp.encodeData_length_le (compact true l)
      have b2 := Rlp.encodeData_length_le value
      refine ⟨_, Rlp.item_list _ ?_⟩
      rw [pow_256]
      simp only [List.flatten_cons, List.flatten_nil, List.append_nil, List.length_append]
      omega
  | ext pre node ih =>
    obtain ⟨⟨l, rfl, hne, hl⟩, hn⟩ := h
    obtain ⟨_, e, w, h⟩ := ih hn
    refine fin trivial ⟨Rlp.encodeList [Rlp.encodeData (compact false l), e.item], w, ?_, ⟨_, Rlp.item_list _ (ext_length hl h.size)⟩, ?_⟩
    · show (do
        let c ← Nibbles.encodeCompact (toNibs l)
        let (e, w) ← writeNode K node
        pure (Rlp.encodeList [Rlp.encodeData c, e.item], w)) = _
      rw [encodeCompact_ext hne, h.eq]
      rfl
    · intro f hf
      rw [decodeAux_ext hl hne h.item h.size h.dec hf, ← h.eq, collapse_ext]
      rfl
  | branch children value ih =>
    have hc : ∀ i, ∃ e w, ItemOk K (children i) e w := fun i => (ih i (h.1 i)).2
    choose es ws hc using hc
    refine fin trivial ⟨Rlp.encodeList ((List.finRange 16).map (fun i => (es i).item) ++ [valueItem value]), ((List.finRange 16).map ws).flatten,
      ?_, ⟨_, Rlp.item_list _ (branch_items (fun i => (hc i).item) (fun i => (hc i).size) h.2).2⟩, ?_⟩
    · show (do
        let (es, w) ← writeChildren (fun i => writeNode K (children i)) (List.finRange 16)
        pure (Rlp.encodeList (es ++ [valueItem value]), w)) = _
      rw [writeChildren_items (fun i => (hc i).eq)]
      rfl
    · intro f hf
      rw [decodeAux_branch (fun i => (hc i).item) (fun i => (hc i).size) h.2 (fun i => (hc i).dec) hf]
      rw [collapse_branch]
      congr 2
      funext i
      rw [(hc i).eq]

theorem hashless_notHash {n : Node} (h : Hashless n) : NotHash n := by cases n <;> trivial

theorem collapse_notHash {n : Node} (h : NotHash n) : NotHash (collapse K n) := by cases n <;> trivial

theorem RawOk.unique {n : Node} {b b' : Bytes} {w w' : Written} (h : RawOk K n b w) (e : encodeRaw K n = .ok (b', w')) : b' = b ∧ w' = w := by
  rw [h.eq] at e
  cases e
  exact ⟨rfl, rfl⟩

/-- The children of a node, with what is written for them. -/
theorem written_ext {pre : Nibbles} {node : Node} {b : Bytes} {w : Written} (h : encodeRaw K (.ext pre node) = .ok (b, w)) :
    ∃ e, writeNode K node = .ok (e, w) := by
  have h' : (do
      let c ← Nibbles.encodeCompact pre
      let (e, w) ← writeNode K node
      pure (Rlp.encodeList [Rlp.encodeData c, e.item], w)) = (.ok (b, w) : Res (Bytes × Written)) := h
  rcases h1 : Nibbles.encodeCompact pre with x | c
  · rw [h1] at h'; cases h'
  · rcases h2 : writeNode K node with x | ⟨e, w'⟩
    · rw [h1, h2] at h'; cases h'
    · rw [h1, h2] at h'
      cases h'
      exact ⟨e, rfl⟩

theorem writeChildren_mem {f : Fin 16 → Res (Encoded × Written)} {l : List (Fin 16)} {es : List Bytes} {w : Written}
    (h : writeChildren f l = .ok (es, w)) : ∀ i ∈ l, ∃ e wi, f i = .ok (e, wi) ∧ ∀ x ∈ wi, x ∈ w := by
  induction l generalizing es w with
  | nil => intro i hi; cases hi
  | cons j t ih =>
    unfold writeChildren at h
    rcases h1 : f j with x | ⟨e, wj⟩
    · rw [h1] at h; cases h
    · rw [h1] at h
      simp only [Res.ok_bind] at h
      rcases h2 : writeChildren f t with x | ⟨es', w'⟩
      · rw [h2] at h; cases h
      · rw [h2] at h
        cases h
        intro i hi
        rcases List.mem_cons.1 hi with rfl | hi
        · exact ⟨e, wj, h1, fun x hx => List.mem_append_left _ hx⟩
        · obtain ⟨e', wi, g1, g2⟩ := ih h2 i hi
          exact ⟨e', wi, g1, fun x hx => List.mem_append_right _ (g2 x hx)⟩

theorem written_branch {children : Fin 16 → Node} {value : Option Bytes} {b : Bytes} {w : Written}
    (h : encodeRaw K (.branch children value) = .ok (b, w)) (i : Fin 16) :
    ∃ e wi, writeNode K (children i) = .ok (e, wi) ∧ ∀ x ∈ wi, x ∈ w := by
  have h' : (do
      let (es, w) ← writeChildren (fun i => writeNode K (children i)) (List.finRange 16)
      pure (Rlp.encodeList (es ++ [valueItem value]), w)) = (.ok (b, w) : Res (Bytes × Written)) := h
  rcases h1 : writeChildren (fun i => writeNode K (children i)) (List.finRange 16) with x | ⟨es, w'⟩
  · rw [h1] at h'; cases h'
  · rw [h1] at h'
    cases h'
    exact writeChildren_mem h1 i (List.mem_finRange i)

/-- Nodes without hash nodes are determined by their encoding, if the byte strings written (all in `S`) have no collision. -/
theorem collapse_inj {S : List Bytes} (hS : NoClash K S) (n m : Node) (hn : NodeOk n) (hm : NodeOk m) (ln : Hashless n) (lm : Hashless m)
    {b b' : Bytes} {w w' : Written} (rn : RawOk K n b w) (rm : RawOk K m b' w') (sn : ∀ x ∈ w, x.2 ∈ S) (sm : ∀ x ∈ w', x.2 ∈ S)
    (h : collapse K n = collapse K m) : n = m := by
  have child : ∀ {c d : Node} {e e' : Encoded} {w w' : Written}, NodeOk c → NodeOk d → Hashless c → Hashless d →
      writeNode K c = .ok (e, w) → writeNode K d = .ok (e', w') → (∀ x ∈ w, x.2 ∈ S) → (∀ x ∈ w', x.2 ∈ S) →
      (∀ {b b' : Bytes} {w w' : Written}, RawOk K c b w → RawOk K d b' w' → (∀ x ∈ w, x.2 ∈ S) → (∀ x ∈ w', x.2 ∈ S) →
        collapse K c = collapse K d → c = d) →
      orHash (writeNode K c) (collapse K c) = orHash (writeNode K d) (collapse K d) → c = d := by
    intro c d e e' w w' hc hd lc ld ec ed sc sd ih heq
    obtain ⟨b, v, rc⟩ := (node_codec (K := K) c hc).1 (hashless_notHash lc)
    obtain ⟨b', v', rd⟩ := (node_codec (K := K) d hd).1 (hashless_notHash ld)
    have wc : writeNode K c = .ok (writeData K b v) := by rw [writeNode_eq c (notHash_iff.1 (hashless_notHash lc)), rc.eq]
    have wd : writeNode K d = .ok (writeData K b' v') := by rw [writeNode_eq d (notHash_iff.1 (hashless_notHash ld)), rd.eq]
    rw [wc] at ec heq
    rw [wd] at ed heq
    by_cases h1 : b.length < 32 <;> by_cases h2 : b'.length < 32
    · rw [show writeData K b v = (.inline b, v) from if_pos h1] at ec heq
      rw [show writeData K b' v' = (.inline b', v') from if_pos h2] at ed heq
      cases ec; cases ed
      exact ih rc rd sc sd heq
    · rw [show writeData K b v = (.inline b, v) from if_pos h1] at heq
      rw [show writeData K b' v' = (.hash (K b'), v' ++ [(K b', b')]) from if_neg h2] at heq
      have := collapse_notHash (K := K) (hashless_notHash lc)
      simp only [orHash] at heq
      rw [heq] at this
      exact this.elim
    · rw [show writeData K b v = (.hash (K b), v ++ [(K b, b)]) from if_neg h1] at heq
      rw [show writeData K b' v' = (.inline b', v') from if_pos h2] at heq
      have := collapse_notHash (K := K) (hashless_notHash ld)
      simp only [orHash] at heq
      rw [← heq] at this
      exact this.elim
    · rw [show writeData K b v = (.hash (K b), v ++ [(K b, b)]) from if_neg h1] at ec heq
      rw [show writeData K b' v' = (.hash (K b'), v' ++ [(K b', b')]) from if_neg h2] at ed heq
      cases ec; cases ed
      simp only [orHash, Node.hash.injEq] at heq
      have hbb : b = b' := hS b (sc (K b, b) (by simp)) b' (sd (K b', b') (by simp)) heq
      subst hbb
      refine ih rc rd (fun x hx => sc x (List.mem_append_left _ hx)) (fun x hx => sd x (List.mem_append_left _ hx)) ?_
      have := rc.dec (b.length + 1) (by omega)
      rw [rd.dec (b.length + 1) (by omega)] at this
      exact (Except.ok.inj this).symm
  induction n generalizing m b b' w w' with
  | hash => exact ln.elim
  | empty => cases m <;> first | rfl | (simp [collapse] at h)
  | leaf k v => cases m <;> first | exact lm.elim | (simp [collapse] at h) ; (first | exact (by rw [h.1, h.2]) | skip)
  | ext p c ih =>
    cases m with
    | ext q d =>
      simp only [collapse_ext, Node.ext.injEq] at h
      obtain ⟨e, ec⟩ := written_ext rn.eq
      obtain ⟨e', ed⟩ := written_ext rm.eq
      rw [h.1, child hn.2 hm.2 ln lm ec ed sn sm (fun r1 r2 s1 s2 h => ih d hn.2 hm.2 ln lm r1 r2 s1 s2 h) h.2]
    | hash => exact lm.elim
    | _ => simp [collapse] at h
  | branch cs v ih =>
    cases m with
    | branch ds v' =>
      simp only [collapse_branch, Node.branch.injEq] at h
      rw [h.2]
      congr 1
      funext i
      obtain ⟨e, wi, ec, hi⟩ := written_branch rn.eq i
      obtain ⟨e', wi', ed, hi'⟩ := written_branch rm.eq i
      exact child (hn.1 i) (hm.1 i) (ln i) (lm i) ec ed (fun x hx => sn x (hi x hx)) (fun x hx => sm x (hi' x hx))
        (fun r1 r2 s1 s2 h => ih i (ds i) (hn.1 i) (hm.1 i) (ln i) (lm i) r1 r2 s1 s2 h) (congrFun h.1 i)
    | hash => exact lm.elim
    | _ => simp [collapse] at h

end Verif.Pmt
