import Verif.Proofs.RestoreChunks
/-! `JellyfishMerkleRestore::finish_impl`. -/

set_option autoImplicit false

namespace Verif.Jmt
open VTree Verif.Spec
variable {D : Type}

theorem VTree.at?_uni {H : Hasher D} {v : Version} {m : Bool} {t : VTree D} (h : Uni v m t) {w : Version} {q : List Nibble} {n : Node D}
    (ha : t.at? H w q = some n) : w = v := by
  induction t generalizing q with
  | empty => simp at ha
  | leaf v' k d =>
    simp only [at?] at ha
    split at ha
    · rename_i hc; rw [hc.1]; exact h
    · cases ha
  | node v' m' ch ih =>
    cases q with
    | nil =>
      rw [at?_node_nil] at ha
      split at ha
      · rename_i hc; rw [hc]; exact h.1
      · cases ha
    | cons i q =>
      rw [at?_node_cons] at ha
      exact ih i (h.2.2 i) ha

/-- Freezing all internal nodes down to the root. -/
theorem Core.freezeAll {H : Hasher D} {v : Version} {m : Bool} (n : Nat) {z : Zip D} {r : Restore D} (h : Core H v m z false r) (hn : z.n = n)
    (h2 : 2 ≤ (esOf z.B (List.finRange 16)).length) :
    ∃ fz t, Restore.freezeInternalNodes H (n + 1) r = .ok { r with partialNodes := [], frozenNodes := fz } ∧
      fz.values = r.frozenNodes.values ∧ WF [] t ∧ Uni v m t ∧ t.entries = z.entries ∧ 2 ≤ t.entries.length ∧
      (∀ nk x, ({ r with partialNodes := [], frozenNodes := fz } : Restore D).M nk = some x ↔ nk.version = v ∧ t.at? H v nk.path = some x) ∧
      (∀ nk, r.store.nodes.get nk = none ∨ fz.nodes.get nk = none) ∧ fz.nodes.NodupKeys := by
  induction n generalizing z r with
  | zero =>
    have hp0 : z.path z.n = [] := by rw [hn]; rfl
    refine ⟨r.frozenNodes.insertNode ⟨v, z.path z.n⟩ ((z.botNode v m).toNode H), z.botNode v m, ?_, rfl, ?_, h.good.bot_uni, ?_, h2, ?_,
      disj_insert h.disj h.bot_free, h.nodup.set _ _⟩
    · unfold Restore.freezeInternalNodes
      simp only [h.getLast, h.intoInternal h2, h.dropLast, Res.ok_bind]
      rw [hn]
      simp only [List.range_zero, List.map_nil, Restore.updateParent, List.getLast?_nil, Res.ok_bind, Restore.freezeInternalNodes]
      rw [← hn]
      rfl
    · have := h.good.bot_wf h2
      rw [hp0] at this
      exact this
    · unfold Zip.entries
      rw [hn]; rfl
    · intro nk x
      have : ({ r with partialNodes := [], frozenNodes := r.frozenNodes.insertNode ⟨v, z.path z.n⟩ ((z.botNode v m).toNode H) } : Restore D).M nk
        = if nk = ⟨v, z.path z.n⟩ then some ((z.botNode v m).toNode H) else r.M nk := M_insertNode r _ _ nk
      rw [this, hp0]
      obtain ⟨w, q⟩ := nk
      cases q with
      | nil =>
        simp only [NodeKey.mk.injEq, and_true, Zip.botNode, at?_node_nil, if_true]
        by_cases hw : w = v
        · simp [hw]
        · simp only [hw, if_false, false_and, iff_false]
          rw [h.map]
          exact fun hh => hw hh.1
      | cons i q =>
        simp only [NodeKey.mk.injEq, reduceCtorEq, and_false, if_false, Zip.botNode, at?_node_cons]
        rw [h.map]
        simp only [Bool.false_eq_true, false_imp_iff, and_true]
        constructor
        · rintro ⟨rfl, (⟨j, hj, _⟩ | ⟨i', q', he, hx⟩)⟩
          · omega
          · rw [hp0, List.nil_append] at he
            cases he
            exact ⟨rfl, hx⟩
        · rintro ⟨rfl, hx⟩
          exact ⟨rfl, .inr ⟨i, q, by rw [hp0]; rfl, hx⟩⟩
  | succ n ih =>
    obtain ⟨fz, ps, h1, h3, h4⟩ := h.popStep (by omega) h2 (n + 1)
    obtain ⟨fz', t, a1, a2, a3, a4, a5, a6, a7, a8, a9⟩ := ih h4 (by show z.n - 1 = _; omega) (Zip.pop_two h.good (by omega) h2)
    exact ⟨fz', t, by rw [h1, a1], by rw [a2, h3], a3, a4, by rw [a5, Zip.pop_entries h.good (by omega)], a6, a7, a8, a9⟩

/-- One entry below: one child, a leaf. -/
theorem infos_single {H : Hasher D} {p : List Nibble} {B : Nibble → VTree D} (hw : ∀ i, WF (p ++ [i]) (B i)) (L : List Nibble) (k : Key) (d : D) :
    L.filterMap (fun i => (B i).info H) = [.leaf ⟨k, d⟩] ↔ esOf B L = [(k, d)] := by
  have hnil : ∀ L : List Nibble, L.filterMap (fun i => (B i).info H) = [] ↔ esOf B L = [] := by
    intro L
    rw [List.filterMap_eq_nil_iff]
    unfold esOf
    rw [List.flatMap_eq_nil_iff]
    exact forall_congr' fun i => forall_congr' fun _ => by rw [info_eq_none, entries_eq_nil (hw i)]
  induction L with
  | nil => simp [esOf]
  | cons i L ih =>
    have hes : esOf B (i :: L) = (B i).entries ++ esOf B L := rfl
    rw [hes, List.filterMap_cons]
    have hwi := hw i
    cases hB : B i with
    | empty => simpa [VTree.info, entries] using ih
    | leaf v k' d' =>
      have hi : (VTree.leaf v k' d').info H = some (.leaf ⟨k', d'⟩) := rfl
      simp only [hi, entries, List.singleton_append, List.cons.injEq, ChildInfo.leaf.injEq, LeafNode.mk.injEq, hnil, Prod.mk.injEq]
    | node v m ch =>
      rw [hB] at hwi
      have h2 : 2 ≤ (VTree.node v m ch).entries.length := hwi.2
      simp only [VTree.info, List.cons.injEq, reduceCtorEq, false_and, false_iff]
      intro he
      have := congrArg List.length he
      simp only [List.length_append, List.length_singleton] at this
      omega

/-- `finish` when at least one pair has been received; a single pair must have been written. The nodes of the new store are exactly
those of the tree. -/
theorem RInv.finish_exact {H : Hasher D} {v : Version} {m : Bool} {P : List (Key × Value)} {z : Zip D} {r : Restore D}
    (h : RInv H v m P z true r) (hP : P ≠ []) (h1 : P.length = 1 → r.frozenNodes.isEmpty = true) :
    ∃ s' t, r.finish H = .ok s' ∧ VersionFacts H s' v (r.curVal v) t ∧ t.entries = hashed H P ∧ Uni v m t ∧
      (∀ nk x, s'.nodes.get nk = some x ↔ nk.version = v ∧ t.at? H v nk.path = some x) ∧ s'.nodes.NodupKeys ∧
      (∀ k l, s'.valueHistory.get k = some l → ∃ x, l = [(v, x)]) := by
  have hhold : ∀ t : VTree D, WF [] t → t.entries = hashed H P → Holding H t (r.curVal v) := by
    intro t hw he
    refine ⟨hw, ?_⟩
    intro k d
    rw [he]
    constructor
    · intro hm
      obtain ⟨e, he, heq⟩ := List.mem_map.1 hm
      cases heq
      rw [(h.val e.1 e.2).2 he]; rfl
    · intro hm
      obtain ⟨x, hx, rfl⟩ := Option.map_eq_some_iff.1 hm
      exact List.mem_map.2 ⟨(k, x), (h.val k x).1 hx, rfl⟩
  have hlenE : z.entries.length = P.length := by rw [h.ents]; simp [hashed]
  by_cases hl : P.length = 1
  · obtain ⟨e, rfl⟩ := List.length_eq_one_iff.1 hl
    have hn : z.n = 0 := by
      by_contra hne
      have h2 : 2 ≤ _ := h.pen.two (by omega)
      unfold Zip.entries at hlenE
      rw [List.length_append] at hlenE
      omega
    have hes : esOf z.B (List.finRange 16) = [(e.1, H.value e.2)] := by
      have := h.ents
      unfold Zip.entries at this
      rw [hn] at this
      simpa [hashed] using this
    have hri : r.rootInfos = [.leaf ⟨e.1, H.value e.2⟩] := by
      unfold Restore.rootInfos
      rw [h.core.parts, Zip.infos, hn]
      simp only [List.range_zero, List.map_nil, List.nil_append]
      exact (infos_single h.core.good.bwf _ _ _).2 hes
    have hf := h1 rfl
    have hfree : r.M ⟨v, []⟩ = none := by
      have := h.core.bot_free
      rw [hn] at this
      exact this
    obtain ⟨s', w1, w2, w3, w4, w5, w6⟩ := Restore.write_ok (v := v) (r := { r with frozenNodes := r.frozenNodes.insertNode ⟨v, []⟩ (.leaf ⟨e.1, H.value e.2⟩) })
      (h.core.nodup.set _ _) (disj_insert h.core.disj hfree) h.vsorted h.vver h.hist h.snodup
    refine ⟨s', .leaf v e.1 (H.value e.2), ?_, ⟨hhold _ ?_ rfl, ?_, fun _ => rfl, ?_, w3⟩, rfl, rfl, ?_, w6, w5⟩
    · unfold Restore.finish
      rw [hri]
      simp only [hf, assert_true, Res.ok_bind]
      rw [h.core.ver]
      exact w1
    · exact List.nil_prefix
    · show s'.nodes.get ⟨v, []⟩ = _
      rw [w2, M_insertNode]; simp [toNode]
    · intro w q x hx
      simp only [at?] at hx
      split at hx
      · rename_i hc
        obtain ⟨rfl, rfl⟩ := hc
        show s'.nodes.get ⟨w, [] ++ []⟩ = _
        rw [w2, List.nil_append, M_insertNode]; simpa using hx
      · cases hx
    · intro nk x
      rw [w2, M_insertNode]
      obtain ⟨w, q⟩ := nk
      simp only [at?, NodeKey.mk.injEq]
      by_cases hc : w = v ∧ q = []
      · simp [hc]
      · rw [if_neg hc]
        have hno : r.M ⟨w, q⟩ ≠ some x := by
          intro hx
          rw [h.core.map] at hx
          obtain ⟨rfl, hx, hb⟩ := hx
          rcases hx with ⟨j, hj, _⟩ | ⟨i, q', he, hx⟩
          · omega
          · have hp0 : z.path z.n = [] := by rw [hn]; rfl
            rw [hp0, List.nil_append] at he
            obtain ⟨d0, hl0⟩ := h.pen.leaf rfl
            have hmem : ∀ j, ∀ x ∈ (z.B j).entries, x = (e.1, H.value e.2) := by
              intro j x hj
              have : x ∈ esOf z.B (List.finRange 16) := List.mem_flatMap.2 ⟨j, List.mem_finRange j, hj⟩
              rw [hes] at this
              exact List.mem_singleton.1 this
            have hk0 := hmem _ (z.key, d0) (by rw [hl0]; simp [entries])
            obtain ⟨x', hx'⟩ : ∃ x', x' ∈ (z.B i).entries := by
              apply List.exists_mem_of_ne_nil
              rw [Ne, entries_eq_nil (h.core.good.bwf i)]
              intro h0; rw [h0] at hx; simp at hx
            have hpre := mem_entries_prefix (h.core.good.bwf i) hx'
            rw [hp0, List.nil_append, hmem i x' hx', ← hk0] at hpre
            have hi0 : z.path 1 = [i] := (List.prefix_iff_eq_take.1 hpre).symm
            have hi : i = z.key.nibble z.n := by
              rw [hn]
              exact (path_split (z := z) (a := 1) (b := 0) (i := i) (q := []) (by omega) (by omega) hi0).2
            rw [hi, hl0] at hx
            simp only [at?] at hx
            split at hx
            · rename_i hc'
              refine hb rfl ?_
              rw [hn, he, hc'.2]
              exact hi0.symm
            · cases hx
        constructor
        · exact fun hx => absurd hx hno
        · rintro ⟨rfl, hx⟩
          split at hx
          · rename_i h'; exact absurd ⟨rfl, h'.2⟩ hc
          · cases hx
  · have hge : 2 ≤ P.length := by
      have : P.length ≠ 0 := by rw [Ne, List.length_eq_zero_iff]; exact hP
      omega
    have h2 : 2 ≤ (esOf z.B (List.finRange 16)).length := by
      by_cases hn : 0 < z.n
      · exact h.pen.two hn
      · have hn0 : z.n = 0 := by omega
        have : z.entries = esOf z.B (List.finRange 16) := by unfold Zip.entries; rw [hn0]; rfl
        rw [← this, hlenE]; exact hge
    have hri : ∀ node, r.rootInfos ≠ [.leaf node] := by
      intro node hri
      unfold Restore.rootInfos at hri
      split at hri
      · rename_i root hps
        have hlen := h.core.length
        rw [hps] at hlen
        have hn0 : z.n = 0 := by simpa using hlen.symm
        have hroot : root = z.botInfo H v := by
          have := h.core.getLast
          rw [hps] at this
          simpa using this
        rw [hroot] at hri
        have := (infos_single h.core.good.bwf _ _ _).1 hri
        rw [this] at h2
        simp at h2
      · cases hri
    -- freeze the pending leaf
    obtain ⟨fz, b1, b2, b3⟩ : ∃ fz, r.freezePreviousLeaf = .ok { r with frozenNodes := fz } ∧ fz.values = r.frozenNodes.values ∧
        Core H v m z false { r with frozenNodes := fz } := by
      obtain ⟨vh, hb⟩ := h.pen.leaf rfl
      exact h.core.freezeLeaf hb (by rw [Ne, h.pen.num]; simp)
    obtain ⟨fz', t, a1, a2, a3, a4, a5, a6, a7, a8, a9⟩ := b3.freezeAll z.n rfl h2
    have hv : fz'.values = r.frozenNodes.values := by rw [a2, b2]
    obtain ⟨s', w1, w2, w3, w4, w5, w6⟩ := Restore.write_ok (v := v) (r := { r with partialNodes := [], frozenNodes := fz' })
      a9 a8 (by show OMap.Sorted _ fz'.values.entries; rw [hv]; exact h.vsorted)
      (by show ∀ e ∈ fz'.values.entries, _; rw [hv]; exact h.vver) h.hist h.snodup
    have hcur : ∀ k, ({ r with partialNodes := [], frozenNodes := fz' } : Restore D).curVal v k = r.curVal v k := by
      intro k; unfold Restore.curVal; simp only [hv]
    have hne : t ≠ .empty := by rintro rfl; simp [entries] at a6
    refine ⟨s', t, ?_, ⟨hhold t a3 (by rw [a5, h.ents]), ?_, ?_, ?_, ?_⟩, by rw [a5, h.ents], a4, fun nk x => by rw [w2, a7], w6, w5⟩
    · unfold Restore.finish
      split
      · rename_i node hh; exact absurd hh (hri node)
      · unfold Restore.freeze
        rw [b1]
        simp only [Res.ok_bind]
        have hl' := b3.length
        have : ({ r with frozenNodes := fz } : Restore D).partialNodes.length - 0 = z.n + 1 := by rw [hl']; rfl
        rw [this, a1]
        exact w1
    · show s'.nodes.get ⟨v, []⟩ = _
      rw [w2, a7]
      refine ⟨rfl, ?_⟩
      rw [at?_nil H hne, if_pos]
      cases t with
      | empty => exact absurd rfl hne
      | leaf => exact a4.symm
      | node => exact a4.1.symm
    · intro _
      cases t with
      | empty => exact absurd rfl hne
      | leaf => exact a4
      | node => exact a4.1
    · intro w q x hx
      have := VTree.at?_uni a4 hx
      subst this
      show s'.nodes.get ⟨w, [] ++ q⟩ = _
      rw [w2, a7]
      exact ⟨rfl, hx⟩
    · intro k
      show s'.getValueOption v k = _
      rw [w3, hcur]

theorem RInv.finish {H : Hasher D} {v : Version} {m : Bool} {P : List (Key × Value)} {z : Zip D} {r : Restore D}
    (h : RInv H v m P z true r) (hP : P ≠ []) (h1 : P.length = 1 → r.frozenNodes.isEmpty = true) :
    ∃ s' t, r.finish H = .ok s' ∧ VersionFacts H s' v (r.curVal v) t ∧ t.entries = hashed H P := by
  obtain ⟨s', t, a1, a2, a3, _⟩ := h.finish_exact hP h1
  exact ⟨s', t, a1, a2, a3⟩

end Verif.Jmt
