import Verif.Proofs.SmtPath
import Verif.Proofs.Refine
import Verif.Jmt.Read
/-! `get_with_proof` walks the specified path. -/

namespace Verif.Jmt
variable {D : Type}
open VTree Verif.Spec

def rangeL (start w : Nat) : List Nibble := (List.finRange 16).filter (fun i => decide (start ≤ i.val ∧ i.val < start + w))

theorem mem_rangeL {start w : Nat} {i : Nibble} : i ∈ rangeL start w ↔ start ≤ i.val ∧ i.val < start + w := by
  simp [rangeL]

theorem half_starts : ∀ h : Fin 4, ∀ n : Fin 16,
    (InternalNode.childAndSiblingHalfStart n h.val).1 = n.val / 2 ^ h.val * 2 ^ h.val ∧
    (InternalNode.childAndSiblingHalfStart n h.val).1 =
      n.val / 2 ^ (h.val + 1) * 2 ^ (h.val + 1) + (if n.val.testBit h.val then 2 ^ h.val else 0) ∧
    (InternalNode.childAndSiblingHalfStart n h.val).2 =
      n.val / 2 ^ (h.val + 1) * 2 ^ (h.val + 1) + (if n.val.testBit h.val then 0 else 2 ^ h.val) ∧
    (InternalNode.childAndSiblingHalfStart n h.val).2 < 16 ∧
    (InternalNode.childAndSiblingHalfStart n h.val).2 % 2 ^ h.val = 0 ∧
    (InternalNode.childAndSiblingHalfStart n h.val).2 + 2 ^ h.val ≤ 16 ∧
    n.val / 2 ^ (h.val + 1) * 2 ^ (h.val + 1) + 2 ^ (h.val + 1) ≤ 16 := by decide +kernel

/-- Splitting a range of children by the next key bit. -/
theorem esOf_filter_bit {ch : Nibble → VTree D} {p : List Nibble} (hp : p.length < 64) (hw : ∀ i, WF (p ++ [i]) (ch i))
    {h : Nat} (hh : h < 4) {start : Nat} (hs : start < 16) (hal : start % 2 ^ (h + 1) = 0) (b : Bool) :
    (esOf ch (rangeL start (2 ^ (h + 1)))).filter (fun e => e.1.bit (256 - (256 - 4 * (p.length + 1) + (h + 1))) == b) =
      esOf ch (rangeL (start + if b then 2 ^ h else 0) (2 ^ h)) := by
  have hw2 : 2 ^ (h + 1) = 2 ^ h + 2 ^ h := by rw [Nat.pow_succ]; omega
  have hbit : ∀ i ∈ rangeL start (2 ^ (h + 1)), ∀ e ∈ (ch i).entries,
      (e.1.bit (256 - (256 - 4 * (p.length + 1) + (h + 1))) == b) = (decide (start + 2 ^ h ≤ i.val) == b) := by
    intro i hi e he
    have hi2 := mem_rangeL.1 hi
    have hidx : 256 - (256 - 4 * (p.length + 1) + (h + 1)) = 4 * p.length + (3 - h) := by omega
    rw [hidx, Key.bit_of_prefix (VTree.mem_entries_prefix (hw i) he) (3 - h) (by omega)]
    have : 3 - (3 - h) = h := by omega
    rw [this, half_testBit ⟨h, by omega⟩ ⟨start, hs⟩ i hal hi2.1 hi2.2]
  unfold esOf
  rw [filter_flatMap _ _ _ _ hbit]
  congr 1
  cases b with
  | true =>
    apply rangeL_filter
    · intro i h1 h2
      have : i.val < start + 2 ^ h + 2 ^ h := by rw [hw2] at h2; omega
      simp [this]
    · simp
    · simp only [if_true]; rw [hw2]; omega
  | false =>
    apply rangeL_filter
    · intro i h1 h2
      simp only [Bool.false_eq_true, if_false, Nat.add_zero]
      by_cases hlt : start + 2 ^ h ≤ i.val
      · simp [hlt]
      · simp [h1, hlt]; omega
    · simp
    · simp only [Bool.false_eq_true, if_false, Nat.add_zero]; rw [hw2]; omega

/-- `get_child_without_siblings` makes the same choice as `get_child_with_siblings`. -/
theorem getChildWithoutSiblings_eq (H : Hasher D) (nd : InternalNode D) (nk : NodeKey) (n : Nibble) :
    nd.getChildWithoutSiblings nk n = (nd.getChildWithSiblings H nk n).map Prod.fst := by
  unfold InternalNode.getChildWithoutSiblings InternalNode.getChildWithSiblings
  have : ∀ h bm sibs, nd.getChildWithoutSiblingsLoop nk n bm h =
      (nd.getChildWithSiblingsLoop H nk n bm h sibs).map Prod.fst := by
    intro h bm
    induction h with
    | zero => intro sibs; rfl
    | succ h ih =>
      intro sibs
      unfold InternalNode.getChildWithoutSiblingsLoop InternalNode.getChildWithSiblingsLoop
      have e : InternalNode.childHalfStart n h = (InternalNode.childAndSiblingHalfStart n h).1 := rfl
      simp only [e]
      split
      · rfl
      · split
        · split
          · rfl
          · rename_i c _
            cases nk.genChild c.version _ <;> rfl
        · exact ih _
  exact this 4 _ []

/-- What the walk inside one internal node finds. -/
def Found (H : Hasher D) (ch : Nibble → VTree D) (p : List Nibble) (k : Key) (n : Nibble) (w : Nat) (E : List (Key × D)) (sibs' : List D) :
    Option NodeKey → Prop
  | none => smtPath H k w E = (sibs', none)
  | some nk => ∃ i, ch i ≠ .empty ∧ nk = ⟨(ch i).version, p ++ [i]⟩ ∧ (i = n ∨ (ch i).isLeaf = true) ∧
      smtPath H k w E = (sibs' ++ (smtPath H k (256 - 4 * (p.length + 1)) (ch i).entries).1, (smtPath H k (256 - 4 * (p.length + 1)) (ch i).entries).2)

theorem getChild_loop (H : Hasher D) (m : Bool) (ch : Nibble → VTree D) (v : Version) (p : List Nibble) (hp : p.length < 64)
    (hw : ∀ i, WF (p ++ [i]) (ch i)) (k : Key) (n : Nibble) (hk : p ++ [n] <+: k.nibbles) (h : Nat) (hh : h ≤ 4)
    (sibs : List D) (hE : 2 ≤ (esOf ch (rangeL (n.val / 2 ^ h * 2 ^ h) (2 ^ h))).length) (h0 : h ≠ 0) :
    ∃ r sibs', (InternalNode.ofFun m (fun i => (ch i).child H)).getChildWithSiblingsLoop H ⟨v, p⟩ n
        (InternalNode.ofFun m (fun i => (ch i).child H)).generateBitmaps h sibs = .ok (r, sibs ++ sibs') ∧
      Found H ch p k n (256 - 4 * (p.length + 1) + h) (esOf ch (rangeL (n.val / 2 ^ h * 2 ^ h) (2 ^ h))) sibs' r := by
  have hch : ∀ i c, (ch i).child H = some c → c.hash = smt H (256 - 4 * (p.length + 1)) (ch i).entries := by
    intro i c hc
    rw [child_hash hc, hash_eq_smt H (hw i)]
    simp
  induction h generalizing sibs with
  | zero => exact absurd rfl h0
  | succ h ih =>
    obtain ⟨t1, t2, t3, t4, t5, t6, t7⟩ := half_starts ⟨h, by omega⟩ n
    simp only at t1 t2 t3 t4 t5 t6 t7
    have hst : n.val / 2 ^ (h + 1) * 2 ^ (h + 1) < 16 := by
      have := Nat.two_pow_pos (h + 1); omega
    have hal : n.val / 2 ^ (h + 1) * 2 ^ (h + 1) % 2 ^ (h + 1) = 0 := Nat.mul_mod_left _ _
    generalize hnd : InternalNode.ofFun m (fun i => (ch i).child H) = nd at ih ⊢
    generalize hbm : nd.generateBitmaps = bm at ih ⊢
    have hbmok : ∀ start w, nd.BmOk start w bm := by
      intro start w; rw [← hbm]; exact InternalNode.bmOk_generate nd start w
    have hkb : k.bit (256 - (256 - 4 * (p.length + 1) + (h + 1))) = n.val.testBit h := by
      have hidx : 256 - (256 - 4 * (p.length + 1) + (h + 1)) = 4 * p.length + (3 - h) := by omega
      rw [hidx, Key.bit_of_prefix hk (3 - h) (by omega)]
      congr 1; omega
    -- the specified step
    have hpath := smtPath_two H k (256 - 4 * (p.length + 1) + h) _ hE
    rw [Nat.add_assoc] at hpath
    rw [hkb] at hpath
    have hf1 := esOf_filter_bit hp hw (h := h) (by omega) hst hal (n.val.testBit h)
    have hf2 := esOf_filter_bit hp hw (h := h) (by omega) hst hal (!n.val.testBit h)
    have hne : (fun e : Key × D => e.1.bit (256 - (256 - 4 * (p.length + 1) + (h + 1))) != n.val.testBit h) =
        (fun e => e.1.bit (256 - (256 - 4 * (p.length + 1) + (h + 1))) == !n.val.testBit h) := by
      funext e
      cases e.1.bit _ <;> cases n.val.testBit h <;> rfl
    rw [hne, hf1, hf2] at hpath
    have hs2 : (n.val / 2 ^ (h + 1) * 2 ^ (h + 1) + if (!n.val.testBit h) = true then 2 ^ h else 0) =
        (InternalNode.childAndSiblingHalfStart n h).2 := by
      rw [t3]; cases n.val.testBit h <;> simp
    rw [hs2, ← t2] at hpath
    have hsib : smt H (256 - 4 * (p.length + 1) + h) (esOf ch (rangeL (InternalNode.childAndSiblingHalfStart n h).2 (2 ^ h))) =
        InternalNode.merkleHash H nd h (InternalNode.childAndSiblingHalfStart n h).2 bm := by
      rw [InternalNode.merkleHash_eq_sub H nd h _ bm (hbmok _ _), ← hnd]
      exact (sub_eq_smt H m ch p hp hw hch h _ (by omega) t4 t5 t6).symm
    rw [hsib] at hpath
    -- the code
    unfold InternalNode.getChildWithSiblingsLoop
    rw [Nat.one_shiftLeft]
    simp only [InternalNode.range_eq_zero_iff nd _ _ bm (hbmok _ _), InternalNode.stop_iff nd _ h bm (hbmok _ _)]
    have hcin : nd.childrenIn (InternalNode.childAndSiblingHalfStart n h).1 (2 ^ h) =
        csOf H ch (rangeL (InternalNode.childAndSiblingHalfStart n h).1 (2 ^ h)) := by
      rw [← hnd]; exact childrenIn_ofFun H m ch _ _
    have hchild : ∀ i, nd.child i = (ch i).child H := by intro i; rw [← hnd]; rfl
    by_cases hz : nd.childrenIn (InternalNode.childAndSiblingHalfStart n h).1 (2 ^ h) = []
    · rw [if_pos hz]
      refine ⟨none, [_], rfl, ?_⟩
      rw [hcin] at hz
      simp only [Found]
      rw [hpath, csOf_nil hz, smtPath_nil]
    · rw [if_neg hz]
      by_cases hstop : nd.stopAt (InternalNode.childAndSiblingHalfStart n h).1 h = true
      · rw [if_pos hstop]
        match hcs : nd.childrenIn (InternalNode.childAndSiblingHalfStart n h).1 (2 ^ h) with
        | [] => exact absurd hcs hz
        | (i, c) :: rest =>
          have hi := InternalNode.onlyChildIndex_eq nd _ _ bm (hbmok _ _) hcs
          have hmem : nd.child i = some c ∧ (InternalNode.childAndSiblingHalfStart n h).1 ≤ i.val ∧
              i.val < (InternalNode.childAndSiblingHalfStart n h).1 + 2 ^ h :=
            InternalNode.childrenIn_mem.1 (by rw [hcs]; exact List.mem_cons_self)
          rw [hi]
          simp only [hmem.1]
          have hcv : c.version = (ch i).version := by
            have := hmem.1; rw [hchild] at this
            cases hti : ch i with
            | empty => rw [hti] at this; simp [child] at this
            | leaf => rw [hti] at this; simp only [child, Option.some.injEq] at this; rw [← this]; rfl
            | node => rw [hti] at this; simp only [child, Option.some.injEq] at this; rw [← this]; rfl
          have hnE : ch i ≠ .empty := by
            intro he; have := hmem.1; rw [hchild, he] at this; simp [child] at this
          have hgen : NodeKey.genChild ⟨v, p⟩ c.version i = .ok ⟨(ch i).version, p ++ [i]⟩ := by
            simp [NodeKey.genChild, rootNibbleHeight, hp, hcv]
          rw [hgen]
          refine ⟨some _, [_], rfl, i, hnE, rfl, ?_⟩
          have hrest : rest = [] ∧ (i = n ∨ (ch i).isLeaf = true) := by
            cases h with
            | zero =>
              have h1 : ∀ j ∈ rangeL (InternalNode.childAndSiblingHalfStart n 0).1 (2 ^ 0), j = n := by
                intro j hj
                have := mem_rangeL.1 hj
                apply Fin.ext
                rw [t1] at this
                simp only [Nat.pow_zero, Nat.div_one, Nat.mul_one] at this
                omega
              have hr : rangeL (InternalNode.childAndSiblingHalfStart n 0).1 (2 ^ 0) = [n] := by
                rw [t1]
                have : ∀ s : Fin 16, rangeL (s.val / 2 ^ 0 * 2 ^ 0) (2 ^ 0) = [s] := by decide
                exact this n
              rw [hcin, hr] at hcs
              simp only [csOf, List.filterMap_cons, List.filterMap_nil] at hcs
              cases hcn : (ch n).child H with
              | none => rw [hcn] at hcs; simp at hcs
              | some c' =>
                rw [hcn] at hcs
                simp at hcs
                exact ⟨hcs.2.symm ▸ rfl, .inl hcs.1.1.symm⟩
            | succ h =>
              unfold InternalNode.stopAt at hstop
              rw [hcs] at hstop
              cases rest with
              | cons => simp at hstop
              | nil =>
                refine ⟨rfl, .inr ?_⟩
                simp at hstop
                rw [← child_isLeaf (H := H) (c := c) (by rw [← hchild]; exact hmem.1)]
                exact hstop
          obtain ⟨hr, hin⟩ := hrest
          subst hr
          refine ⟨hin, ?_⟩
          rw [hcin] at hcs
          have hes := (csOf_single hcs).2
          rw [hpath, hes]
          -- the remaining height is irrelevant for a single leaf, and zero at width one
          cases h with
          | zero => rfl
          | succ h =>
            have hlf : (ch i).isLeaf = true := by
              unfold InternalNode.stopAt at hstop
              rw [hcin, hcs] at hstop
              simp at hstop
              rw [← child_isLeaf (H := H) (c := c) (by rw [← hchild]; exact hmem.1)]
              exact hstop
            cases hti : ch i with
            | empty => exact absurd hti hnE
            | node => rw [hti] at hlf; simp [VTree.isLeaf] at hlf
            | leaf => simp [VTree.entries]
      · rw [if_neg hstop]
        have hh0 : h ≠ 0 := by
          rintro rfl
          apply hstop
          unfold InternalNode.stopAt
          split <;> simp
        have hE' : 2 ≤ (esOf ch (rangeL (n.val / 2 ^ h * 2 ^ h) (2 ^ h))).length := by
          rw [← t1]
          have := esOf_length_ge (H := H) hw (rangeL (InternalNode.childAndSiblingHalfStart n h).1 (2 ^ h))
          match hcs : csOf H ch (rangeL (InternalNode.childAndSiblingHalfStart n h).1 (2 ^ h)) with
          | [] => exact absurd (hcin.trans hcs) hz
          | [(i, c)] =>
            obtain ⟨h1, h2⟩ := csOf_single hcs
            rw [h2]
            unfold InternalNode.stopAt at hstop
            rw [hcin, hcs] at hstop
            simp [hh0] at hstop
            rw [child_isLeaf h1] at hstop
            cases hti : ch i with
            | empty => rw [hti] at h1; simp [VTree.child] at h1
            | leaf => rw [hti] at hstop; simp [VTree.isLeaf] at hstop
            | node v' m' ch' => have := hw i; rw [hti] at this; exact this.2
          | _ :: _ :: _ => rw [hcs] at this; simp at this; omega
        obtain ⟨r, sibs', e1, e2⟩ := ih (by omega) (sibs ++ [InternalNode.merkleHash H nd h (InternalNode.childAndSiblingHalfStart n h).2 bm]) hE' hh0
        refine ⟨r, InternalNode.merkleHash H nd h (InternalNode.childAndSiblingHalfStart n h).2 bm :: sibs', ?_, ?_⟩
        · rw [e1, List.append_assoc]; rfl
        · rw [← t1] at e2
          cases r with
          | none =>
            simp only [Found] at e2 ⊢
            rw [hpath, e2]
          | some nk =>
            obtain ⟨i, a, b, c, d⟩ := e2
            refine ⟨i, a, b, c, ?_⟩
            rw [hpath, d]; rfl

theorem rangeL_full (n : Nibble) : rangeL (n.val / 2 ^ 4 * 2 ^ 4) (2 ^ 4) = List.finRange 16 := by
  have : ∀ n : Nibble, rangeL (n.val / 2 ^ 4 * 2 ^ 4) (2 ^ 4) = List.finRange 16 := by decide
  exact this n

theorem getChild_spec (H : Hasher D) {m : Bool} {ch : Nibble → VTree D} {v w : Version} {p : List Nibble} (hwf : WF p (.node w m ch))
    {k : Key} {n : Nibble} (hk : p ++ [n] <+: k.nibbles) :
    ∃ r sibs', (InternalNode.ofFun m (fun i => (ch i).child H)).getChildWithSiblings H ⟨v, p⟩ n = .ok (r, sibs') ∧
      Found H ch p k n (256 - 4 * p.length) (VTree.node w m ch).entries sibs' r := by
  have hp := wf_node_length hwf
  have := getChild_loop H m ch v p hp hwf.1 k n hk 4 (by omega) [] (by rw [rangeL_full]; exact hwf.2) (by omega)
  rw [rangeL_full, show 256 - 4 * (p.length + 1) + 4 = 256 - 4 * p.length by omega] at this
  exact this

/-- The reader holds all nodes of the tree `t` placed at path `p`. -/
def HasTree (H : Hasher D) (r : Reader D) (p : List Nibble) (t : VTree D) : Prop :=
  ∀ v q n, t.at? H v q = some n → r.getNodeOption ⟨v, p ++ q⟩ = some n

theorem HasTree.child {H : Hasher D} {r : Reader D} {p : List Nibble} {v : Version} {m : Bool} {ch : Nibble → VTree D}
    (h : HasTree H r p (.node v m ch)) (i : Nibble) : HasTree H r (p ++ [i]) (ch i) := by
  intro v' q n hn
  have := h v' (i :: q) n (by rw [at?_node_cons]; exact hn)
  simpa using this

theorem HasTree.root {H : Hasher D} {r : Reader D} {p : List Nibble} {t : VTree D} (h : HasTree H r p t) (hn : t ≠ .empty) :
    r.getNodeOption ⟨t.version, p⟩ = some (t.toNode H) := by
  have := h t.version [] _ (by rw [at?_nil H hn, if_pos rfl])
  simpa using this

/-- The proof object of a path. -/
def proofOf (path : List D × Option (Key × D)) : SparseMerkleProof D := ⟨path.2.map (fun e => ⟨e.1, e.2⟩), path.1.reverse⟩

theorem getWithProofLoop_spec (H : Hasher D) (r : Reader D) (k : Key) (ver : Version) (f : Key → Option Value)
    (hval : r.getValueOption ver k = f k) (t : VTree D) (p rest : List Nibble) (hwf : WF p t) (hne : t ≠ .empty)
    (hr : HasTree H r p t) (hf : ∀ h, (k, h) ∈ t.entries → (f k).map H.value = some h)
    (hk : p ++ rest = k.nibbles ∨ t.isLeaf = true) (fuel depth : Nat) (hfu : 64 < fuel + p.length) (sibs : List D) :
    Tree.getWithProofLoop H r k ver fuel depth ⟨t.version, p⟩ rest sibs =
      .ok (match (smtPath H k (256 - 4 * p.length) t.entries).2 with | some e => (if e.1 = k then f k else none) | none => none,
        proofOf (sibs ++ (smtPath H k (256 - 4 * p.length) t.entries).1, (smtPath H k (256 - 4 * p.length) t.entries).2)) := by
  induction t generalizing p rest fuel depth sibs with
  | empty => exact absurd rfl hne
  | leaf v k' h' =>
    have hpl := wf_length hwf hne
    obtain ⟨fuel, rfl⟩ : ∃ f', fuel = f' + 1 := ⟨fuel - 1, by omega⟩
    unfold Tree.getWithProofLoop
    rw [hr.root hne]
    simp only [toNode, entries, smtPath_single, proofOf, List.append_nil, Option.map_some]
    by_cases hkk : k' = k
    · subst hkk
      have := hf h' (by simp [entries])
      cases hfk : f k' with
      | none => rw [hfk] at this; simp at this
      | some x => simp [hval, hfk]
    · simp [hkk]
  | node v m ch ih =>
    have hpl := wf_node_length hwf
    have hk' : p ++ rest = k.nibbles := by
      rcases hk with hk | hk
      · exact hk
      · simp [VTree.isLeaf] at hk
    obtain ⟨fuel, rfl⟩ : ∃ f', fuel = f' + 1 := ⟨fuel - 1, by omega⟩
    cases rest with
    | nil =>
      have := congrArg List.length hk'
      simp at this; omega
    | cons n rest =>
      have hpre : p ++ [n] <+: k.nibbles := ⟨rest, by rw [← hk']; simp⟩
      obtain ⟨res, sibs', e1, e2⟩ := getChild_spec H (v := v) hwf hpre
      unfold Tree.getWithProofLoop
      have hroot : r.getNodeOption ⟨v, p⟩ = _ := hr.root hne
      rw [version_node, hroot]
      simp only [toNode, e1]
      cases res with
      | none =>
        simp only [Found] at e2
        rw [e2]; rfl
      | some nk =>
        obtain ⟨i, h1, h2, h3, h4⟩ := e2
        subst h2
        have := ih i (p ++ [i]) rest (hwf.1 i) h1 (hr.child i) (by
          intro h hm
          exact hf h (by simp only [entries, List.mem_flatMap, List.mem_finRange, true_and]; exact ⟨i, hm⟩)) (by
          rcases h3 with rfl | h3
          · left; rw [← hk']; simp
          · exact .inr h3) fuel (depth + 1) (by simp; omega) (sibs ++ sibs')
        simp only [List.length_append, List.length_cons, List.length_nil, Nat.zero_add] at this
        rw [h4]
        show Tree.getWithProofLoop H r k ver fuel (depth + 1) _ rest (sibs ++ sibs') = _
        rw [this, List.append_assoc]

/-- `get_with_proof` on a reader that holds a whole tree as version `ver`. -/
theorem getWithProof_spec (H : Hasher D) (r : Reader D) (k : Key) (ver : Version) (f : Key → Option Value)
    (hval : r.getValueOption ver k = f k) (t : VTree D) (hwf : WF [] t)
    (hroot : r.getNodeOption ⟨ver, []⟩ = some (t.toNode H)) (hv : t ≠ .empty → t.version = ver)
    (hr : HasTree H r [] t) (hf : ∀ h, (k, h) ∈ t.entries ↔ (f k).map H.value = some h) :
    Tree.getWithProof H r k ver = .ok (f k, proofOf (smtPath H k 256 t.entries)) := by
  by_cases hne : t = .empty
  · subst hne
    have hfk : f k = none := by
      cases hh : f k with
      | none => rfl
      | some x => have := (hf (H.value x)).2 (by simp [hh]); simp [entries] at this
    unfold Tree.getWithProof
    show Tree.getWithProofLoop H r k ver (64 + 1) 0 ⟨ver, []⟩ _ _ = _
    unfold Tree.getWithProofLoop
    rw [hroot]
    simp [toNode, entries, proofOf, hfk]
  · have := getWithProofLoop_spec H r k ver f hval t [] k.nibbles hwf hne hr (fun h hm => (hf h).1 hm) (.inl rfl) 65 0 (by simp) []
    rw [hv hne] at this
    unfold Tree.getWithProof
    show Tree.getWithProofLoop H r k ver 65 0 ⟨ver, []⟩ _ _ = _
    rw [this]
    simp only [List.length_nil, Nat.mul_zero, Nat.sub_zero, List.nil_append]
    congr 2
    have hag : Agree 256 t.entries := agree_top (entries_nodup hwf)
    cases hfk : f k with
    | some x =>
      have := smtPath_find H k 256 hag ((hf (H.value x)).2 (by simp [hfk]))
      rw [this]; simp
    | none =>
      cases hp : (smtPath H k 256 t.entries).2 with
      | none => rfl
      | some e =>
        by_cases he : e.1 = k
        · have hm := smtPath_mem H k 256 hp
          obtain ⟨a, b⟩ := e
          simp only at he
          subst he
          have hm2 := (hf b).1 hm
          rw [hfk] at hm2; simp at hm2
        · simp [he]

end Verif.Jmt
