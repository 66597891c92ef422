import Verif.Proofs.RestoreSound
/-! Runs of `add_chunk` and `finish`. -/

set_option autoImplicit false

namespace Verif.Jmt
open VTree Verif.Spec
variable {D : Type}

theorem receive_nil (P : List (Key × Value)) : receive P [] = P := by
  unfold receive
  have e : rising (P.getLast?.map Prod.fst) [] = [] := by cases P.getLast?.map Prod.fst <;> rfl
  rw [e, List.append_nil]

theorem Live.nonempty {H : Hasher D} {v : Version} {m : Bool} {P : List (Key × Value)} {r : Restore D} (h : Live H v m P r) (hP : P ≠ []) :
    ∃ z, RInv H v m P z true r := by
  obtain ⟨z, pend, h1, rfl | rfl⟩ := h
  · exact absurd rfl hP
  · exact ⟨z, h1⟩

/-- One call of `add_chunk`. -/
theorem Live.addChunk {H : Hasher D} [DecidableEq D] {v : Version} {m : Bool} {P : List (Key × Value)} {r : Restore D}
    (h : Live H v m P r) (chunk : List (Key × Value)) (proof : SparseMerkleRangeProof D) :
    ∃ r' out, r.addChunk H chunk proof = .ok (r', out) ∧ Live H v m (receive P chunk) r' ∧ r'.expectedRootHash = r.expectedRootHash ∧
      (out = none ↔ chunk ≠ [] ∧ rising (P.getLast?.map Prod.fst) chunk = chunk ∧
        ∃ z r1, RInv H v m (receive P chunk) z true r1 ∧ r1.expectedRootHash = r.expectedRootHash ∧ r1.verify H proof = .ok () ∧
          r.addPairs H chunk = .ok (r1, none)) ∧
      (out = none → r'.frozenNodes = .empty) := by
  unfold Restore.addChunk
  by_cases hc : chunk = []
  · subst hc
    simp only [List.isEmpty_nil, if_true]
    exact ⟨r, _, rfl, by rw [receive_nil]; exact h, rfl, by simp, by simp⟩
  · have hce : chunk.isEmpty = false := by simpa using hc
    simp only [hce, Bool.false_eq_true, if_false]
    obtain ⟨r1, out, a1, a2, a3, a4, a5⟩ := h.addPairs chunk
    rw [a1]
    cases out with
    | some msg =>
      refine ⟨r1, some msg, rfl, a2, a4, ?_, by simp⟩
      simp only [reduceCtorEq, false_iff] at a5 ⊢
      exact fun hh => a5 hh.2.1
    | none =>
      simp only [true_iff] at a5
      have hne : receive P chunk ≠ [] := by rw [receive, a5]; simp [hc]
      obtain ⟨z, hz⟩ := a2.nonempty hne
      obtain ⟨e, he⟩ : ∃ e, (receive P chunk).getLast? = some e := by
        cases hl : (receive P chunk).getLast? with
        | none => exact absurd (List.getLast?_eq_none_iff.1 hl) hne
        | some e => exact ⟨e, rfl⟩
      simp only [Restore.finishChunk]
      rcases hz.verify_total he proof with hv | ⟨msg, hv⟩
      · obtain ⟨s', w1, w2, w3, w4, w5⟩ := hz.write
        rw [hv, w1]
        refine ⟨_, none, rfl, ⟨z, true, w2, .inr rfl⟩, a4, ?_, fun _ => rfl⟩
        simp only [true_iff]
        exact ⟨hc, a5, z, r1, hz, a4, hv, rfl⟩
      · rw [hv]
        refine ⟨r1, some msg, rfl, a2, a4, ?_, by simp⟩
        simp only [reduceCtorEq, false_iff]
        rintro ⟨_, _, z', r2, _, _, hv', heq⟩
        cases heq
        rw [hv] at hv'; cases hv'

/-- Any list of calls. -/
theorem Live.addChunks {H : Hasher D} [DecidableEq D] {v : Version} {m : Bool} (calls : List (List (Key × Value) × SparseMerkleRangeProof D))
    {P : List (Key × Value)} {r : Restore D} (h : Live H v m P r) :
    ∃ r' outs, r.addChunks H calls = .ok (r', outs) ∧ Live H v m ((calls.map Prod.fst).foldl receive P) r' ∧
      r'.expectedRootHash = r.expectedRootHash ∧ outs.length = calls.length := by
  induction calls generalizing P r with
  | nil => exact ⟨r, [], rfl, h, rfl, rfl⟩
  | cons c t ih =>
    obtain ⟨r1, out, a1, a2, a3, _⟩ := h.addChunk c.1 c.2
    obtain ⟨r', outs, b1, b2, b3, b4⟩ := ih a2
    refine ⟨r', out :: outs, ?_, b2, by rw [b3, a3], by simp [b4]⟩
    unfold Restore.addChunks
    simp only [a1, Res.ok_bind, b1, Res.pure_eq]

theorem addChunks_append {H : Hasher D} [DecidableEq D] (a b : List (List (Key × Value) × SparseMerkleRangeProof D)) (r : Restore D) :
    r.addChunks H (a ++ b) = (r.addChunks H a).bind (fun x => (x.1.addChunks H b).bind (fun y => .ok (y.1, x.2 ++ y.2))) := by
  induction a generalizing r with
  | nil =>
    simp only [List.nil_append, Restore.addChunks, Except.bind]
    cases r.addChunks H b <;> rfl
  | cons c t ih =>
    simp only [List.cons_append, Restore.addChunks]
    cases h1 : r.addChunk H c.1 c.2 with
    | error e => rfl
    | ok x =>
      simp only [Res.ok_bind, ih]
      cases h2 : x.1.addChunks H t with
      | error e => rfl
      | ok y =>
        simp only [Except.bind, Res.ok_bind, Res.pure_eq]
        cases h3 : y.1.addChunks H b <;> rfl

/-- A fresh restore. -/
theorem new_fresh (H : Hasher D) {s : Store D} (hs : s.nodes.entries = []) (v : Version) (root : D) (m : Bool) :
    Restore.new H s v root m = .ok (Restore.newOverwrite s v root m) := by
  unfold Restore.new Store.getRightmostLeaf
  rw [hs]; rfl

theorem Live.fresh (H : Hasher D) {s : Store D} (hs : s.nodes.entries = []) (hv : s.valueHistory.entries = []) (v : Version) (root : D) (m : Bool) :
    Live H v m [] (Restore.newOverwrite s v root m) := ⟨_, _, RInv.fresh H v m root hs hv, .inl rfl⟩

/-! ### soundness -/

theorem sorted_le_last {P : List (Key × Value)} (hs : P.Pairwise (fun a b => a.1 < b.1)) {e : Key × Value} (he : P.getLast? = some e)
    {a : Key × Value} (ha : a ∈ P) : a.1 ≤ e.1 := by
  obtain ⟨ys, rfl⟩ := List.getLast?_eq_some_iff.1 he
  rw [List.pairwise_append] at hs
  rcases List.mem_append.1 ha with ha | ha
  · exact Key.le_of_lt (hs.2.2 a ha _ (by simp))
  · simp only [List.mem_singleton] at ha
    subst ha; exact fun h => Key.lt_irrefl _ h

theorem RInv.sound {H : Hasher D} [DecidableEq D] {v : Version} {m : Bool} {P : List (Key × Value)} {z : Zip D} {r : Restore D}
    (h : RInv H v m P z true r) {e : Key × Value} (he : P.getLast? = some e) {proof : SparseMerkleRangeProof D} (hv : r.verify H proof = .ok ())
    {L : List (Key × D)} (hL : (L.map Prod.fst).Nodup) (hroot : r.expectedRootHash = smtRoot H L) :
    (∀ x, x ∈ hashed H P ↔ x ∈ L ∧ x.1 ≤ e.1) ∨
    (∃ x ∈ smtInputs H 256 (hashed H P), x.digest H = H.placeholder) ∨
    ∃ sibs, sibs.length ≤ 256 ∧ Assembled H (hashed H P) e.1 proof.rightSiblings sibs ∧
      Clash H (climbInputs H sibs e.1.bits (H.leaf e.1 (H.value e.2)) ++ smtInputs H 256 (hashed H P) ++ [.leaf e.1 (H.value e.2)]) (smtInputs H 256 L) := by
  classical
  by_cases hc : NoPlaceholder H (smtInputs H 256 (hashed H P))
  · obtain ⟨sibs, hs⟩ := h.verify_ok he hc.leftFree hv
    rw [hroot] at hs
    have hnd := h.nodup
    rw [h.ents] at hnd
    rcases hs.sound hnd (by
        intro x hx
        obtain ⟨a, ha, rfl⟩ := List.mem_map.1 hx
        exact sorted_le_last h.sorted he ha)
      (List.mem_map.2 ⟨e, List.mem_of_getLast? he, rfl⟩) hc hL with h1 | h1
    · exact .inl h1
    · exact .inr (.inr ⟨sibs, hs.len, hs.asm, h1⟩)
  · right; left
    unfold NoPlaceholder at hc
    simpa using hc

/-! ### completeness -/

/-- Where the path of a present key ends. -/
theorem smtPath_depth (H : Hasher D) (k : Key) (L : List (Key × D)) (hL : (L.map Prod.fst).Nodup) (n : Nat) (hn : n ≤ 256) :
    let d := 256 - n + (smtPath H k n (L.filter (fun e => agreeTo (256 - n) e.1 k))).1.length
    (L.filter (fun e => agreeTo d e.1 k)).length ≤ 1 ∧
      ((smtPath H k n (L.filter (fun e => agreeTo (256 - n) e.1 k))).1 ≠ [] → 2 ≤ (L.filter (fun e => agreeTo (d - 1) e.1 k)).length) := by
  induction n with
  | zero =>
    have hlen := smtPath_length H k 0 (L.filter (fun e => agreeTo (256 - 0) e.1 k))
    have h0 := List.length_eq_zero_iff.1 (Nat.le_zero.1 hlen)
    simp only [h0, List.length_nil, Nat.add_zero]
    refine ⟨?_, by simp⟩
    have hag : Agree 0 (L.filter (fun e => agreeTo (256 - 0) e.1 k)) := by
      refine ⟨(List.filter_sublist.map _).nodup hL, ?_⟩
      intro e he e' he' j hj
      rw [List.mem_filter] at he he'
      rw [agreeTo_iff.1 he.2 j hj, agreeTo_iff.1 he'.2 j hj]
    exact hag.zero
  | succ n ih =>
    have ih := ih (by omega)
    rcases list_cases (L.filter (fun e => agreeTo (256 - (n + 1)) e.1 k)) with h | ⟨a, h⟩ | h
    · simp only [h, smtPath_nil, List.length_nil, Nat.add_zero]
      simp
    · simp only [h, smtPath_single, List.length_nil, Nat.add_zero]
      simp
    · have e1 : 256 - n = 256 - (n + 1) + 1 := by omega
      have f1 : (L.filter (fun e => agreeTo (256 - (n + 1)) e.1 k)).filter
          (fun e => e.1.bit (256 - (n + 1)) == k.bit (256 - (n + 1))) = L.filter (fun e => agreeTo (256 - n) e.1 k) := by
        rw [List.filter_filter, e1]
        congr 1; funext e
        rw [agreeTo_succ, Bool.and_comm]
      rw [smtPath_two H k n _ h, f1]
      generalize hp : (smtPath H k n (L.filter (fun e => agreeTo (256 - n) e.1 k))).1 = p at *
      simp only [List.length_cons]
      have e2 : 256 - (n + 1) + (p.length + 1) = 256 - n + p.length := by omega
      rw [e2]
      refine ⟨ih.1, fun _ => ?_⟩
      by_cases hpe : p = []
      · subst hpe
        have e3 : 256 - n + ([] : List D).length - 1 = 256 - (n + 1) := by simp; omega
        rw [e3]; exact h
      · exact ih.2 hpe

/-- The check succeeds on the genuine leading entries with the genuine right siblings. -/
theorem RInv.complete {H : Hasher D} [DecidableEq D] {v : Version} {m : Bool} {P : List (Key × Value)} {z : Zip D} {r : Restore D}
    (h : RInv H v m P z true r) {e : Key × Value} (he : P.getLast? = some e)
    {L : List (Key × D)} (hL : (L.map Prod.fst).Nodup) (hc : NoPlaceholder H (smtInputs H 256 L)) (hroot : r.expectedRootHash = smtRoot H L)
    (hP : ∀ x, x ∈ hashed H P ↔ x ∈ L ∧ x.1 ≤ e.1) :
    r.verify H ⟨rightSiblings H e.1 (smtPath H e.1 256 L).1.length L⟩ = .ok () := by
  have hlen := smtPath_length H e.1 256 L
  have hdep := smtPath_depth H e.1 L hL 256 (Nat.le_refl _)
  have hsib := smtPath_siblings_top H e.1 L
  have e0 : L.filter (fun x => agreeTo (256 - 256) x.1 e.1) = L := by rw [List.filter_eq_self]; intro a _; rfl
  rw [e0, Nat.sub_self, Nat.zero_add] at hdep
  have hkm : (e.1, H.value e.2) ∈ L := ((hP _).1 (List.mem_map.2 ⟨e, List.mem_of_getLast? he, rfl⟩)).1
  have hfind := smtPath_find H e.1 256 (agree_top hL) hkm
  have hclimb := climb_smtPath H e.1 256 (Nat.le_refl _) (agree_top hL)
  rw [hfind] at hclimb
  simp only [Nat.sub_self, List.drop_zero, leafHash] at hclimb
  have hdn : (smtPath H e.1 256 L).1 ≠ [] ↔ 0 < (smtPath H e.1 256 L).1.length := by
    rw [Ne, ← List.length_eq_zero_iff]; omega
  rw [hdn] at hdep
  generalize hd : (smtPath H e.1 256 L).1.length = d at *
  have hnd := h.nodup
  rw [h.ents] at hnd
  have hperm : (hashed H P).Perm (L.filter (fun x => decide (x.1 ≤ e.1))) := by
    refine (List.perm_ext_iff_of_nodup (nodup_of_map _ hnd) ((nodup_of_map _ hL).filter _)).2 ?_
    intro x
    rw [hP, List.mem_filter]; simp
  have hs : ∀ i, i < 256 → e.1.bit i = true → sibling H e.1 (hashed H P) i = sibling H e.1 L i := by
    intro i hi hb
    rw [sibling_perm H e.1 i hperm, sibling_left H e.1 i hi hb]
  have hfree : LeftFree H e.1 (hashed H P) := by
    intro i hi hb
    have ho : (offPath e.1 i (hashed H P)).Perm (offPath e.1 i L) := by
      refine (offPath_perm e.1 i hperm).trans ?_
      refine (List.perm_ext_iff_of_nodup (((nodup_of_map _ hL).filter _).filter _) ((nodup_of_map _ hL).filter _)).2 ?_
      intro x
      rw [List.mem_filter, List.mem_filter, List.mem_filter, Bool.and_eq_true, bne_iff_ne, hb]
      constructor
      · rintro ⟨⟨h1, _⟩, h2⟩; exact ⟨h1, h2⟩
      · rintro ⟨h1, h2, h3⟩
        exact ⟨⟨h1, by simpa using Key.le_of_lt (lt_of_leaves_left hi h2 (by simpa using h3) hb)⟩, h2, h3⟩
    exact hc.mono (fun x hx => sibling_inputs H e.1 L hi x (smtInputs_perm H _ ho x hx))
  -- beyond the end of the path
  have hbeyond : ∀ i, d ≤ i → i < 256 → sibling H e.1 L i = H.placeholder := by
    intro i hdi hi
    have : offPath e.1 i L = [] := by
      unfold offPath
      rw [List.filter_eq_nil_iff]
      intro x hx hcon
      rw [Bool.and_eq_true, bne_iff_ne] at hcon
      have h1 : x ∈ L.filter (fun x => agreeTo d x.1 e.1) := List.mem_filter.2 ⟨hx, agreeTo_mono hcon.1 hdi⟩
      have h2 : (e.1, H.value e.2) ∈ L.filter (fun x => agreeTo d x.1 e.1) := List.mem_filter.2 ⟨hkm, by rw [agreeTo_iff]; intros; rfl⟩
      have hlen1 := hdep.1
      rcases list_cases (L.filter (fun x => agreeTo d x.1 e.1)) with h0 | ⟨a, h0⟩ | h0
      · rw [h0] at h1; cases h1
      · rw [h0, List.mem_singleton] at h1 h2
        rw [h1, ← h2] at hcon
        exact hcon.2 rfl
      · omega
    rw [sibling, this, smt_nil]
  have hstop : d = 0 ∨ e.1.bit (d - 1) = false ∨ sibling H e.1 (hashed H P) (d - 1) ≠ H.placeholder := by
    by_cases hd0 : d = 0
    · exact .inl hd0
    · right
      cases hb : e.1.bit (d - 1) with
      | false => exact .inl rfl
      | true =>
        right
        rw [hs (d - 1) (by omega) hb]
        have hi : d - 1 < 256 := by omega
        unfold sibling
        rw [Ne, smt_eq_placeholder (fun h0 => by
          have := offPath_agree (k := e.1) hi hL
          rw [h0] at this
          exact this.zero) (hc.mono (sibling_inputs H e.1 L hi))]
        intro hoff
        have h2 := hdep.2 (by omega)
        have heq : L.filter (fun x => agreeTo (d - 1) x.1 e.1) = L.filter (fun x => agreeTo d x.1 e.1) := by
          apply List.filter_congr
          intro x hx
          have ed : d = d - 1 + 1 := by omega
          conv_rhs => rw [ed]
          rw [agreeTo_succ]
          cases hag : agreeTo (d - 1) x.1 e.1 with
          | false => rfl
          | true =>
            by_contra hne
            have : x ∈ offPath e.1 (d - 1) L := by
              unfold offPath
              rw [List.mem_filter, hag]
              refine ⟨hx, ?_⟩
              revert hne
              cases x.1.bit (d - 1) <;> cases e.1.bit (d - 1) <;> simp
            rw [hoff] at this; cases this
        rw [heq] at h2
        have := hdep.1
        omega
  rw [h.verify_eq he hfree]
  have hzero : (rightSiblings H e.1 d L).length = zeros e.1 d := by simp [rightSiblings, zeros]
  have hzle := zeros_mono e.1 hlen
  have hbits : e.1.bits.reverse = ((List.range 256).map e.1.bit).reverse := rfl
  rw [hzero]
  have hens : ensure (decide (zeros e.1 d ≤ zeros e.1 256)) "Too many right siblings in the proof." = .ok () := by
    rw [decide_eq_true hzle, ensure_true]
  rw [hens]
  show (Restore.trimLeft H _ _ _ _).bind _ = _
  have htrim := trimLeft_to (H := H) (k := e.1) (s := sibling H e.1 (hashed H P)) hstop (256 - d) (by
    intro i hi1 hi2 hb
    rw [hs i (by omega) hb]
    exact hbeyond i hi1 (by omega))
  have ed : d + (256 - d) = 256 := by omega
  rw [ed] at htrim
  rw [hbits, htrim]
  show SparseMerkleRangeProof.verify _ _ _ _ _ = _
  have hlefts : (lefts e.1 (sibling H e.1 (hashed H P)) d).reverse = leftSiblings H e.1 d L := by
    unfold lefts leftSiblings
    congr 1
    apply List.map_congr_left
    intro i hi
    rw [List.mem_filter, List.mem_range] at hi
    exact hs i (by omega) hi.2
  rw [hlefts, range_verify_climb H e.1 _ L d hlen, ← hsib, hclimb, hroot]
  simp [smtRoot]

end Verif.Jmt
