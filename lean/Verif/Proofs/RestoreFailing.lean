import Verif.Proofs.RestoreBeside
import Verif.Proofs.RestoreHonest
import Verif.Proofs.Rename
import Mathlib.Data.List.Induction
import Verif.Spec.RestoreFailing
/-! A restore into a store that cannot be written at times. -/

set_option autoImplicit false

namespace Verif.Jmt
variable {D : Type}
open VTree Spec

namespace Restore

/-- The same restore, apart from the store and from what is to be written to it. -/
def Like (r r' : Restore D) : Prop := ∃ s b, r' = { r with store := s, frozenNodes := b }

theorem Like.refl (r : Restore D) : Like r r := ⟨r.store, r.frozenNodes, rfl⟩

theorem freezePreviousLeaf_like {r r' : Restore D} (h : Like r r') : ResRel Like r.freezePreviousLeaf r'.freezePreviousLeaf := by
  obtain ⟨s, b, rfl⟩ := h
  unfold freezePreviousLeaf
  dsimp only
  split
  · exact .ok ⟨_, _, rfl⟩
  · split
    · exact .error _
    · split
      · exact .error _
      · split
        · refine ResRel.bind (ResRel.refl _) ?_
          rintro a _ rfl
          exact .ok ⟨_, _, rfl⟩
        · exact .error _

theorem freezeInternalNodes_like (H : Hasher D) (n : Nat) {r r' : Restore D} (h : Like r r') :
    ResRel Like (freezeInternalNodes H n r) (freezeInternalNodes H n r') := by
  induction n generalizing r r' with
  | zero => exact .ok h
  | succ n ih =>
    obtain ⟨s, b, rfl⟩ := h
    unfold freezeInternalNodes
    dsimp only
    cases r.partialNodes.getLast? with
    | none => exact .error _
    | some last =>
      refine ResRel.bind (ResRel.refl _) ?_
      rintro ⟨nk, node⟩ _ rfl
      refine ResRel.bind (ResRel.refl _) ?_
      rintro ps _ rfl
      exact ih ⟨_, _, rfl⟩

theorem freeze_like (H : Hasher D) (n : Nat) {r r' : Restore D} (h : Like r r') : ResRel Like (r.freeze H n) (r'.freeze H n) := by
  unfold freeze
  refine ResRel.bind (freezePreviousLeaf_like h) ?_
  rintro a b ⟨s, c, rfl⟩
  exact freezeInternalNodes_like H _ ⟨_, _, rfl⟩

theorem insertAtLeaf_like (H : Hasher D) {r r' : Restore D} (h : Like r r') (i : Nibble) (l : LeafNode D) (k : Key) (d : D) (a b : List Nibble) :
    ResRel Like (r.insertAtLeaf H i l k d a b) (r'.insertAtLeaf H i l k d a b) := by
  obtain ⟨s, c, rfl⟩ := h
  unfold insertAtLeaf
  refine ResRel.bind (ResRel.refl _) ?_
  rintro ⟨vis, ps⟩ _ rfl
  refine ResRel.bind (ResRel.refl _) ?_
  rintro _ _ rfl
  refine ResRel.bind (freeze_like H _ ⟨_, _, rfl⟩) ?_
  rintro r1 r2 ⟨_, _, rfl⟩
  refine ResRel.bind (ResRel.refl _) ?_
  rintro _ _ rfl
  exact .ok ⟨_, _, rfl⟩

theorem addOneLoop_like (H : Hasher D) {r r' : Restore D} (h : Like r r') (k : Key) (d : D) (l : List Nibble) (i : Nat) (vis : List Nibble) :
    ResRel Like (r.addOneLoop H k d l i vis) (r'.addOneLoop H k d l i vis) := by
  induction l generalizing i vis with
  | nil => exact .ok h
  | cons nib rest ih =>
    unfold addOneLoop
    have hp : r'.partialNodes = r.partialNodes := by obtain ⟨_, _, rfl⟩ := h; rfl
    rw [hp]
    cases r.partialNodes[i]? with
    | none => exact .error _
    | some info =>
      cases hc : info.children nib with
      | none =>
        simp only [hc]
        refine ResRel.bind (freeze_like H _ h) ?_
        rintro r1 r2 ⟨_, _, rfl⟩
        exact .ok ⟨_, _, rfl⟩
      | some c =>
        cases c with
        | leaf node =>
          simp only [hc]
          refine ResRel.bind (ResRel.refl _) ?_
          rintro _ _ rfl
          exact insertAtLeaf_like H h _ _ _ _ _ _
        | internal _ _ =>
          simp only [hc]
          exact ih _ _

theorem addPairs_like (H : Hasher D) (l : List (Key × Value)) {r r' : Restore D} (h : Like r r') :
    ResRel (fun a b => Like a.1 b.1 ∧ b.2 = a.2) (r.addPairs H l) (r'.addPairs H l) := by
  induction l generalizing r r' with
  | nil => exact .ok ⟨h, rfl⟩
  | cons e t ih =>
    obtain ⟨k, x⟩ := e
    obtain ⟨s, b, rfl⟩ := h
    unfold addPairs addPair
    rw [show Restore.inOrder { r with store := s, frozenNodes := b } k = r.inOrder k from rfl]
    by_cases hk : r.inOrder k = true
    · simp only [hk, if_true]
      refine ResRel.bind (R := Like) (ResRel.bind (addOneLoop_like H ⟨_, _, rfl⟩ _ _ _ _ _) ?_) ?_
      · rintro r1 r2 ⟨_, _, rfl⟩
        exact .ok ⟨_, _, rfl⟩
      · exact fun a b hab => ih hab
    · simp only [hk]
      exact .ok ⟨⟨_, _, rfl⟩, rfl⟩

theorem verify_like (H : Hasher D) [DecidableEq D] {r r' : Restore D} (h : Like r r') (p : SparseMerkleRangeProof D) :
    r'.verify H p = r.verify H p := by
  obtain ⟨s, b, rfl⟩ := h; rfl

theorem addChunkOn_up (H : Hasher D) [DecidableEq D] (r : Restore D) (a : Attempt D) (h : a.up = true) :
    r.addChunkOn H a = r.addChunk H a.chunk a.proof := by
  unfold addChunkOn addChunk finishChunkOn finishChunk
  rw [h]; rfl

end Restore

/-- One call on a store that cannot be written, with the one on a store that can. -/
theorem Live.addChunkOn {H : Hasher D} [DecidableEq D] {v : Version} {m : Bool} {P : List (Key × Value)} {r r' : Restore D}
    (h : Live H v m P r) (h' : Live H v m P r') (hl : r.Like r') (a : Attempt D) :
    ∃ r1 r2 o, r.addChunkOn H a = .ok (r1, a.outcome o) ∧ r'.addChunk H a.chunk a.proof = .ok (r2, o) ∧ r1.Like r2 ∧
      Live H v m (receive P a.chunk) r1 ∧ Live H v m (receive P a.chunk) r2 ∧ (a.outcome o = none → r1.frozenNodes = .empty) ∧
      (o = none → a.chunk ≠ [] ∧ rising (P.getLast?.map Prod.fst) a.chunk = a.chunk ∧
        ∃ z r3, RInv H v m (receive P a.chunk) z true r3 ∧ r3.expectedRootHash = r.expectedRootHash ∧ r3.verify H a.proof = .ok ()) ∧
      r1.expectedRootHash = r.expectedRootHash ∧ (a.outcome o ≠ none → r1.store = r.store) ∧
      (receive P a.chunk = P → r1 = r ∧ o ≠ none) := by
  obtain ⟨c, p, up⟩ := a
  dsimp only
  by_cases hc : c = []
  · subst hc
    refine ⟨r, r', some "Should not add empty chunks.", ?_, rfl, hl, by rw [receive_nil]; exact h, by rw [receive_nil]; exact h', ?_, by simp, rfl, by simp, by simp⟩
    · unfold Attempt.outcome
      cases up <;> rfl
    · unfold Attempt.outcome
      cases up <;> simp
  have hce : c.isEmpty = false := by simpa using hc
  obtain ⟨q1, out, a1, a2, a3, a4, a5⟩ := h.addPairs c
  obtain ⟨q2, out', b1, b2, b3, b4, b5⟩ := h'.addPairs c
  have hrel := Restore.addPairs_like H c hl
  rw [a1, b1] at hrel
  obtain ⟨hq, rfl⟩ : Restore.Like q1 q2 ∧ out' = out := by
    cases hrel with
    | ok hh => exact hh
  have hsame : receive P c = P → q1 = r ∧ out' ≠ none := by
    intro he
    unfold receive at he
    have hr0 : rising (P.getLast?.map Prod.fst) c = [] := by
      have := congrArg List.length he
      rw [List.length_append] at this
      exact List.length_eq_zero_iff.1 (by omega)
    refine ⟨?_, fun h0 => hc ((a5.1 h0).symm.trans hr0)⟩
    obtain ⟨⟨k, x⟩, t, rfl⟩ := List.exists_cons_of_ne_nil hc
    have hno : ¬ r.inOrder k = true := by
      intro hk
      obtain ⟨z, pend, h1, _⟩ := h
      have := (h1.inOrder k).1 hk
      cases hl : P.getLast? with
      | none => rw [hl] at hr0; cases hr0
      | some e => rw [hl] at hr0; simp [rising, this e hl] at hr0
    unfold Restore.addPairs at a1
    simp only [hno] at a1
    cases a1; rfl
  cases out' with
  | some msg =>
    refine ⟨q1, q2, some msg, ?_, ?_, hq, a2, b2, ?_, by simp, a4, fun _ => a3, fun he => ⟨(hsame he).1, by simp⟩⟩
    · unfold Restore.addChunkOn Attempt.outcome
      rw [hce, a1]
      cases up <;> rfl
    · unfold Restore.addChunk
      rw [hce, b1]; rfl
    · unfold Attempt.outcome
      cases up <;> simp
  | none =>
    have hri : rising (P.getLast?.map Prod.fst) c = c := a5.1 rfl
    have hne : receive P c ≠ [] := by rw [receive, hri]; simp [hc]
    have hsame' : receive P c ≠ P := fun he => (hsame he).2 rfl
    obtain ⟨z, hz⟩ := a2.nonempty hne
    obtain ⟨z', hz'⟩ := b2.nonempty hne
    obtain ⟨e, he⟩ : ∃ e, (receive P c).getLast? = some e := by
      cases hl : (receive P c).getLast? with
      | none => exact absurd (List.getLast?_eq_none_iff.1 hl) hne
      | some e => exact ⟨e, rfl⟩
    have hvl := Restore.verify_like H hq p
    rcases hz.verify_total he p with hv | ⟨msg, hv⟩
    · obtain ⟨s', w1, w2, _⟩ := hz'.write
      obtain ⟨s1, y1, y2, _⟩ := hz.write
      have hr2 : r'.addChunk H c p = .ok ({ q2 with store := s', frozenNodes := .empty }, none) := by
        unfold Restore.addChunk Restore.finishChunk
        rw [hce, b1]
        simp only [hvl, hv, w1]; rfl
      obtain ⟨_, _, rfl⟩ := hq
      cases up with
      | true =>
        refine ⟨{ q1 with store := s1, frozenNodes := .empty }, _, none, ?_, hr2, ⟨_, _, rfl⟩, ⟨z, true, y2, .inr rfl⟩, ⟨z', true, w2, .inr rfl⟩,
          fun _ => rfl, fun _ => ⟨hc, hri, z, q1, hz, a4, hv⟩, a4, ?_, fun he => absurd he hsame'⟩
        · unfold Restore.addChunkOn Restore.finishChunkOn
          dsimp only
          rw [hce, a1]
          simp only [hv, y1]; rfl
        · intro hh; exact absurd rfl hh
      | false =>
        refine ⟨q1, _, none, ?_, hr2, ⟨_, _, rfl⟩, a2, ⟨z', true, w2, .inr rfl⟩, ?_, fun _ => ⟨hc, hri, z, q1, hz, a4, hv⟩, a4, fun _ => a3,
          fun he => absurd he hsame'⟩
        · unfold Restore.addChunkOn Restore.finishChunkOn
          dsimp only
          rw [hce, a1]
          simp only [hv]; rfl
        · intro hh; cases hh
    · refine ⟨q1, q2, some msg, ?_, ?_, hq, a2, b2, ?_, by simp, a4, fun _ => a3, fun he => ⟨(hsame he).1, by simp⟩⟩
      · unfold Restore.addChunkOn Restore.finishChunkOn Attempt.outcome
        dsimp only
        rw [hce, a1]
        simp only [hv]
        cases up <;> rfl
      · unfold Restore.addChunk Restore.finishChunk
        rw [hce, b1]
        simp only [hvl, hv]; rfl
      · unfold Attempt.outcome
        cases up <;> simp

theorem Restore.addChunksOn_append {H : Hasher D} [DecidableEq D] (a b : List (Attempt D)) (r : Restore D) :
    r.addChunksOn H (a ++ b) = (r.addChunksOn H a) >>= (fun x => (x.1.addChunksOn H b) >>= (fun y => .ok (y.1, x.2 ++ y.2))) := by
  induction a generalizing r with
  | nil =>
    simp only [List.nil_append, Restore.addChunksOn, Res.ok_bind]
    cases r.addChunksOn H b <;> rfl
  | cons c t ih =>
    simp only [List.cons_append, Restore.addChunksOn]
    cases h1 : r.addChunkOn H c with
    | error e => rfl
    | ok x =>
      simp only [Res.ok_bind, ih]
      cases h2 : x.1.addChunksOn H t with
      | error e => rfl
      | ok y =>
        simp only [Res.ok_bind, Res.pure_eq]
        cases y.1.addChunksOn H b <;> rfl

/-- Any list of calls, with the same calls on a store that can always be written. -/
theorem Live.addChunksOn {H : Hasher D} [DecidableEq D] {v : Version} {m : Bool} (as : List (Attempt D)) {P : List (Key × Value)}
    {r r' : Restore D} (h : Live H v m P r) (h' : Live H v m P r') (hl : r.Like r') :
    ∃ r1 r2 os, r.addChunksOn H as = .ok (r1, List.zipWith Attempt.outcome as os) ∧
      r'.addChunks H (as.map (fun a => (a.chunk, a.proof))) = .ok (r2, os) ∧ os.length = as.length ∧ r1.Like r2 ∧
      Live H v m ((as.map Attempt.chunk).foldl receive P) r1 ∧ Live H v m ((as.map Attempt.chunk).foldl receive P) r2 ∧
      r1.expectedRootHash = r.expectedRootHash := by
  induction as generalizing P r r' with
  | nil => exact ⟨r, r', [], rfl, rfl, rfl, hl, h, h', rfl⟩
  | cons a t ih =>
    obtain ⟨r1, r2, o, a1, a2, a3, a4, a5, _, _, a6, _⟩ := h.addChunkOn h' hl a
    obtain ⟨q1, q2, os, b1, b2, b3, b4, b5, b6, b7⟩ := ih a4 a5 a3
    refine ⟨q1, q2, o :: os, ?_, ?_, by simp [b3], b4, b5, b6, b7.trans a6⟩
    · unfold Restore.addChunksOn
      rw [a1]
      simp only [Res.ok_bind, b1, Res.pure_eq, List.zipWith_cons_cons]
    · simp only [List.map_cons]
      unfold Restore.addChunks
      rw [a2]
      simp only [Res.ok_bind, b2, Res.pure_eq]

theorem Attempt.outcome_none {a : Attempt D} {o : Option String} (h : a.outcome o = none) : o = none := by
  unfold Attempt.outcome at h
  split at h
  · exact h
  · cases o <;> simp at h ⊢

theorem received_snoc (l : List (List (Key × Value))) (c : List (Key × Value)) : received (l ++ [c]) = receive (received l) c := by
  unfold received; rw [List.foldl_append]; rfl

/-- A run on a fresh restore: what is left to be written while at most one pair has been taken. -/
theorem Live.fresh_run (H : Hasher D) [DecidableEq D] {dst : Store D} (hs : dst.nodes.entries = []) (hv : dst.valueHistory.entries = [])
    (v : Version) (root : D) (m : Bool) (as : List (Attempt D)) :
    ∃ r outs, (Restore.newOverwrite dst v root m).addChunksOn H as = .ok (r, outs) ∧ Live H v m (received (as.map Attempt.chunk)) r ∧
      r.expectedRootHash = root ∧
      (received (as.map Attempt.chunk) = [] → r = Restore.newOverwrite dst v root m ∧ none ∉ outs) ∧
      ((received (as.map Attempt.chunk)).length = 1 → (none ∈ outs → r.frozenNodes = .empty) ∧ (none ∉ outs → r.frozenNodes.isEmpty = false)) := by
  induction as using List.reverseRecOn with
  | nil => exact ⟨_, _, rfl, Live.fresh H hs hv v root m, rfl, by simp, by simp [received]⟩
  | append_singleton as a ih =>
    obtain ⟨r, outs, a1, a2, a3, a4, a5⟩ := ih
    obtain ⟨r1, _, o, b1, _, _, b4, _, b6, b7, b8, b9, b10⟩ := a2.addChunkOn a2 (Restore.Like.refl r) a
    rw [List.map_append, List.map_singleton, received_snoc]
    refine ⟨r1, outs ++ [a.outcome o], ?_, b4, b8.trans a3, ?_⟩
    · rw [Restore.addChunksOn_append, a1]
      simp only [Res.ok_bind, Restore.addChunksOn, b1, Res.pure_eq]
    by_cases hn : a.outcome o = none
    · have ho : o = none := Attempt.outcome_none hn
      obtain ⟨c1, c2, _⟩ := b7 ho
      refine ⟨?_, fun _ => ⟨fun _ => b6 hn, fun hh => ?_⟩⟩
      · intro h0
        rw [receive, c2] at h0
        exact absurd (List.append_eq_nil_iff.1 h0).2 c1
      · exact absurd (by simp [hn]) hh
    · have hmem : none ∈ outs ++ [a.outcome o] ↔ none ∈ outs := by
        simp only [List.mem_append, List.mem_singleton]
        exact ⟨fun hh => hh.resolve_right (fun e => hn e.symm), .inl⟩
      rw [hmem]
      by_cases hr : receive (received (as.map Attempt.chunk)) a.chunk = received (as.map Attempt.chunk)
      · rw [hr, (b10 hr).1]
        exact ⟨a4, a5⟩
      · have hlen : ∀ Q c, receive Q c ≠ Q → Q.length < (receive Q c).length := by
          intro Q c hq
          unfold receive at hq ⊢
          rw [List.length_append]
          have : rising (Q.getLast?.map Prod.fst) c ≠ [] := by intro h0; rw [h0, List.append_nil] at hq; exact hq rfl
          have := List.length_pos_iff.2 this
          omega
        have hlt := hlen _ _ hr
        refine ⟨fun h0 => ?_, fun h1 => ?_⟩
        · rw [h0] at hlt; cases hlt
        · have h0 : received (as.map Attempt.chunk) = [] := List.length_eq_zero_iff.1 (by omega)
          obtain ⟨rfl, hno⟩ := a4 h0
          refine ⟨fun hh => absurd hh hno, fun _ => ?_⟩
          cases hfe : r1.frozenNodes.isEmpty with
          | false => rfl
          | true =>
            exfalso
            obtain ⟨e, he⟩ := List.length_eq_one_iff.1 h1
            obtain ⟨z, hz⟩ := b4.nonempty (by rw [he]; simp)
            have hx := (hz.val e.1 e.2).2 (by rw [he]; simp)
            unfold Restore.curVal at hx
            have hve : r1.frozenNodes.values.entries = [] := by
              unfold NodeBatch.isEmpty OMap.isEmpty at hfe
              simp only [Bool.and_eq_true, List.isEmpty_iff] at hfe
              exact hfe.2
            have hg : r1.frozenNodes.values.get (v, e.1) = none := by rw [OMap.get, hve]; rfl
            rw [hg, b9 hn] at hx
            have hvg : dst.valueHistory.get e.1 = none := by rw [FMap.get, hv]; rfl
            simp [Restore.newOverwrite, Store.getValueOption, hvg] at hx

/-- The same call on a store that can be written. -/
def Attempt.onUp (a : Attempt D) : Attempt D := ⟨a.chunk, a.proof, true⟩

theorem Restore.addChunksOn_up (H : Hasher D) [DecidableEq D] (l : List (Attempt D)) (x : Restore D) :
    x.addChunksOn H (l.map Attempt.onUp) = x.addChunks H (l.map (fun a => (a.chunk, a.proof))) := by
  induction l generalizing x with
  | nil => rfl
  | cons a t ih =>
    simp only [List.map_cons]
    unfold Restore.addChunksOn Restore.addChunks
    rw [Restore.addChunkOn_up H x a.onUp rfl]
    simp only [ih]
    rfl

theorem Attempt.none_mem {as : List (Attempt D)} {os : List (Option String)} (h : none ∈ List.zipWith Attempt.outcome as os) : none ∈ os := by
  induction as generalizing os with
  | nil => cases h
  | cons a t ih =>
    cases os with
    | nil => cases h
    | cons o os =>
      simp only [List.zipWith_cons_cons, List.mem_cons] at h ⊢
      rcases h with h | h
      · exact .inl (Attempt.outcome_none h.symm).symm
      · exact .inr (ih h)

/-- The root of a restore that has taken one pair. -/
theorem RInv.single {H : Hasher D} {v : Version} {m : Bool} {e : Key × Value} {z : Zip D} {r : Restore D}
    (h : RInv H v m [e] z true r) : r.rootInfos = [.leaf ⟨e.1, H.value e.2⟩] := by
  have hlenE : z.entries.length = 1 := by rw [h.ents]; simp [hashed]
  have hn : z.n = 0 := by
    by_contra hne
    have h2 : 2 ≤ _ := h.pen.two (by omega)
    unfold Zip.entries at hlenE
    rw [List.length_append] at hlenE
    omega
  have hes : esOf z.B (List.finRange 16) = [(e.1, H.value e.2)] := by
    have := h.ents
    unfold Zip.entries at this
    rw [hn] at this
    simpa [hashed] using this
  unfold Restore.rootInfos
  rw [h.core.parts, Zip.infos, hn]
  simp only [List.range_zero, List.map_nil, List.nil_append]
  exact (infos_single h.core.good.bwf _ _ _).2 hes

/-- `finish` with one pair and something left to be written. -/
theorem Live.finish_panics {H : Hasher D} {v : Version} {m : Bool} {P : List (Key × Value)} {r : Restore D} (h : Live H v m P r)
    (h1 : P.length = 1) (hf : r.frozenNodes.isEmpty = false) :
    r.finish H = .error (.panic "assertion failed: self.frozen_nodes.is_empty()") := by
  obtain ⟨e, rfl⟩ := List.length_eq_one_iff.1 h1
  obtain ⟨z, hz⟩ := h.nonempty (by simp)
  unfold Restore.finish
  rw [hz.single]
  simp only [hf]
  rfl

theorem getValueOption_only {s : Store D} {v : Version} (h : ∀ k l, s.valueHistory.get k = some l → ∃ x, l = [(v, x)]) (u : Version) (k : Key) :
    s.getValueOption u k = if v ≤ u then s.getValueOption v k else none := by
  unfold Store.getValueOption
  cases hg : s.valueHistory.get k with
  | none => simp
  | some l =>
    obtain ⟨x, rfl⟩ := h k l hg
    by_cases hu : v ≤ u <;> simp [hu]

/-- What `finish` leaves in the store is determined by the pairs taken. -/
theorem Live.finish_same {H : Hasher D} {v : Version} {m : Bool} {P : List (Key × Value)} {r r' : Restore D} (h : Live H v m P r)
    (h' : Live H v m P r') (hP : P ≠ []) (h1 : P.length = 1 → r.frozenNodes.isEmpty = true) (h1' : P.length = 1 → r'.frozenNodes.isEmpty = true) :
    ∃ s s', r.finish H = .ok s ∧ r'.finish H = .ok s' ∧ s.reader = s'.reader := by
  obtain ⟨z, hz⟩ := h.nonempty hP
  obtain ⟨z', hz'⟩ := h'.nonempty hP
  obtain ⟨s, t, a1, a2, a3, a4, a5, _, a7⟩ := hz.finish_exact hP h1
  obtain ⟨s', t', b1, b2, b3, b4, b5, _, b7⟩ := hz'.finish_exact hP h1'
  have ht : t = t' := a4.unique a2.hold.1 b2.hold.1 b4 (by rw [a3, b3]; exact fun _ => Iff.rfl)
  subst ht
  refine ⟨s, s', a1, b1, ?_⟩
  have hc : r.curVal v = r'.curVal v := by
    funext k
    apply Option.ext
    intro x
    exact (hz.val k x).trans (hz'.val k x).symm
  have hn : s.nodes.get = s'.nodes.get := by
    funext nk
    apply Option.ext
    intro x
    exact (a5 nk x).trans (b5 nk x).symm
  have hval : s.getValueOption = s'.getValueOption := by
    funext u k
    rw [getValueOption_only a7, getValueOption_only b7, show s.getValueOption v k = r.curVal v k from a2.value k, show s'.getValueOption v k = r'.curVal v k from b2.value k, hc]
  unfold Store.reader
  rw [hn, hval]

/-- The same chunk again, right after a call that was given it. -/
theorem Live.again {H : Hasher D} [DecidableEq D] {v : Version} {m : Bool} {P : List (Key × Value)} {r : Restore D} {a b : Attempt D}
    (hc : a.chunk ≠ []) (hb : b.chunk = a.chunk) (h : Live H v m (receive P a.chunk) r) :
    r.addChunkOn H b = .ok (r, some "Account keys must come in increasing order.") := by
  obtain ⟨c, p, up⟩ := a
  obtain ⟨c', p', up'⟩ := b
  dsimp only at hb hc h
  subst hb
  obtain ⟨⟨k, x⟩, t, rfl⟩ := List.exists_cons_of_ne_nil hc
  obtain ⟨z, pend, hz, _⟩ := h
  have hno : ¬ r.inOrder k = true := by
    intro hk
    have hall := (hz.inOrder k).1 hk
    have hlast : ∃ e, (receive P ((k, x) :: t)).getLast? = some e ∧ ¬ e.1 < k := by
      have hs := hz.sorted
      by_cases hr : rising (P.getLast?.map Prod.fst) ((k, x) :: t) = []
      · rw [receive, hr, List.append_nil]
        cases hl : P.getLast? with
        | none => rw [hl] at hr; cases hr
        | some e =>
          rw [hl] at hr
          refine ⟨e, rfl, fun hlt => ?_⟩
          simp [rising, hlt] at hr
      · have hmem : (k, x) ∈ receive P ((k, x) :: t) := by
          unfold receive
          refine List.mem_append_right _ ?_
          cases hl : P.getLast? with
          | none => simp [rising]
          | some e =>
            rw [hl] at hr
            simp only [Option.map_some, rising] at hr ⊢
            split at hr
            · simp [*]
            · exact absurd rfl hr
        cases hl : (receive P ((k, x) :: t)).getLast? with
        | none => rw [List.getLast?_eq_none_iff.1 hl] at hmem; cases hmem
        | some e => exact ⟨e, rfl, sorted_le_last hs hl hmem⟩
    obtain ⟨e, he, hge⟩ := hlast
    exact hge (hall e he)
  unfold Restore.addChunkOn Restore.addPairs
  simp only [List.isEmpty_cons, hno]
  rfl

end Verif.Jmt
