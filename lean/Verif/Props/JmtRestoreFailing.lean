import Verif.Proofs.RestoreFailing
import Verif.Props.JmtRestore
/-! Property C103: restoring into a store that cannot be written at times. -/

set_option autoImplicit false

namespace Verif.Props
open Verif Verif.Jmt Verif.Spec
variable {D : Type}

/-- **C103, partial.** Any list of `add_chunk` calls on a fresh restore, the store being unable to write during any of them. Every call
has the outcome it has without the failures, except that an `Ok` becomes the error of the store, and a version that can be finished
can be finished without the failures too and is the same, node for node and value for value. Missing: that a chunk whose write has
failed can be given again, which is false (`C103_again_false`). -/
theorem C103_store_down_partial (H : Hasher D) [DecidableEq D] (dst : Store D) (hdst : dst.nodes.entries = [] ∧ dst.valueHistory.entries = [])
    (v : Version) (root : D) (m : Bool) (as : List (Attempt D)) :
    ∃ r0 r r' os, Restore.new H dst v root m = .ok r0 ∧ r0.addChunksOn H as = .ok (r, List.zipWith Attempt.outcome as os) ∧
      r0.addChunks H (as.map (fun a => (a.chunk, a.proof))) = .ok (r', os) ∧ os.length = as.length ∧
      ∀ s, r.finish H = .ok s → ∃ s', r'.finish H = .ok s' ∧ s.reader = s'.reader := by
  have h0 := Live.fresh H hdst.1 hdst.2 v root m
  obtain ⟨r, r', os, a1, a2, a3, _, a5, a6, _⟩ := h0.addChunksOn as h0 (Restore.Like.refl _)
  refine ⟨_, r, r', os, new_fresh H hdst.1 v root m, a1, a2, a3, ?_⟩
  intro s hs
  obtain ⟨q, outs, b1, _, _, b4, b5⟩ := Live.fresh_run H hdst.1 hdst.2 v root m as
  rw [a1] at b1
  cases b1
  obtain ⟨q', outs', c1, _, _, _, c5⟩ := Live.fresh_run H hdst.1 hdst.2 v root m (as.map Attempt.onUp)
  have hmc : (as.map Attempt.onUp).map Attempt.chunk = as.map Attempt.chunk := by rw [List.map_map]; rfl
  rw [Restore.addChunksOn_up, a2] at c1
  cases c1
  rw [hmc] at c5
  by_cases hP : received (as.map Attempt.chunk) = []
  · obtain ⟨rfl, _⟩ := b4 hP
    obtain ⟨msg, he⟩ := C23_finish_empty_panics H dst v root m
    rw [hs] at he; cases he
  · have hone : (received (as.map Attempt.chunk)).length = 1 → r.frozenNodes = .empty ∧ r'.frozenNodes = .empty := by
      intro h1
      by_cases hn : none ∈ List.zipWith Attempt.outcome as os
      · exact ⟨(b5 h1).1 hn, (c5 h1).1 (Attempt.none_mem hn)⟩
      · have := a5.finish_panics h1 ((b5 h1).2 hn)
        rw [hs] at this; cases this
    obtain ⟨s1, s2, e1, e2, e3⟩ := a5.finish_same a6 hP (fun h1 => by rw [(hone h1).1]; rfl) (fun h1 => by rw [(hone h1).2]; rfl)
    rw [hs] at e1
    cases e1
    exact ⟨s2, e2, e3⟩

/-- C103, what `finish` does after any such run, also one in which the last calls or all calls have failed. With two pairs or more
taken, or with one pair taken and one call that returned `Ok`, it leaves a version that holds exactly the pairs taken, under their root
hash. Otherwise it panics. -/
theorem C103_finish (H : Hasher D) [DecidableEq D] (dst : Store D) (hdst : dst.nodes.entries = [] ∧ dst.valueHistory.entries = [])
    (v : Version) (root : D) (m : Bool) (as : List (Attempt D)) :
    let P := received (as.map Attempt.chunk)
    ∃ r0 r outs, Restore.new H dst v root m = .ok r0 ∧ r0.addChunksOn H as = .ok (r, outs) ∧
      (2 ≤ P.length ∨ P.length = 1 ∧ none ∈ outs → ∃ (s' : Store D) (f : Key → Option Value), r.finish H = .ok s' ∧
        Tree.getRootHash H s'.reader v = .ok (smtRoot H (hashed H P)) ∧ (∀ k x, (k, x) ∈ P ↔ f k = some x) ∧
        ∀ k, ∃ p, Tree.getWithProof H s'.reader k v = .ok (f k, p) ∧ p.verify H (smtRoot H (hashed H P)) k (f k) = .ok ()) ∧
      (P = [] ∨ P.length = 1 ∧ none ∉ outs → ∃ msg, r.finish H = .error (.panic msg)) := by
  intro P
  obtain ⟨r, outs, a1, a2, a3, a4, a5⟩ := Live.fresh_run H hdst.1 hdst.2 v root m as
  refine ⟨_, r, outs, new_fresh H hdst.1 v root m, a1, ?_, ?_⟩
  · intro hP
    have hne : P ≠ [] := by intro h0; rw [h0] at hP; simp at hP
    obtain ⟨z, hz⟩ := a2.nonempty hne
    obtain ⟨s', t, d1, d2, d3⟩ := hz.finish hne (fun h1 => by
      rcases hP with hP | hP
      · have h1 : P.length = 1 := h1
        omega
      · rw [(a5 h1).1 hP.2]; rfl)
    have hhash : t.hash H = smtRoot H (hashed H P) := by
      rw [VTree.hash_eq_smt H d2.hold.1, d3]; rfl
    refine ⟨s', _, d1, by rw [d2.getRootHash, hhash], fun k x => (hz.val k x).symm, ?_⟩
    intro k
    refine ⟨_, d2.getWithProof k, ?_⟩
    rw [← hhash]
    exact proofOf_verify H d2.hold k
  · rintro (h0 | ⟨h1, hn⟩)
    · obtain ⟨rfl, _⟩ := a4 h0
      exact C23_finish_empty_panics H dst v root m
    · exact ⟨_, a2.finish_panics h1 ((a5 h1).2 hn)⟩

/-- C103, `finish` on a store that cannot be written: the error of the store, where it would have been `Ok`. -/
theorem C103_finish_down (H : Hasher D) (r : Restore D) (s : Store D) (h : r.finish H = .ok s) :
    r.finishOn H true = .ok s ∧ r.finishOn H false = .error (.err Restore.downError) := by
  refine ⟨h, ?_⟩
  unfold Restore.finish at h
  unfold Restore.finishOn
  simp only [Bool.false_eq_true, if_false]
  split at h
  · rename_i node hr
    rw [hr]
    cases hf : r.frozenNodes.isEmpty with
    | true => rfl
    | false => rw [hf] at h; cases h
  · rename_i hr
    obtain ⟨r1, h1, _⟩ := Res.bind_ok h
    split
    · rename_i node hr'
      exact absurd hr' (hr node)
    · rw [h1]; rfl

/-- C103, soundness as in C22: a run with any failures whose last call returned `Ok`. -/
theorem C103_sound (H : Hasher D) [DecidableEq D] (dst : Store D) (hdst : dst.nodes.entries = [] ∧ dst.valueHistory.entries = [])
    (v : Version) (m : Bool) (L : List (Key × D)) (hL : (L.map Prod.fst).Nodup) (as : List (Attempt D)) (a : Attempt D)
    (r0 r : Restore D) (outs : List (Option String)) (hnew : Restore.new H dst v (smtRoot H L) m = .ok r0)
    (hrun : r0.addChunksOn H (as ++ [a]) = .ok (r, outs ++ [none])) :
    let P := received (as.map Attempt.chunk ++ [a.chunk])
    (∀ k x, r.store.getValueOption v k = some x ↔ (k, x) ∈ P) ∧ P.Pairwise (fun a b => a.1 < b.1) ∧
    ∃ e, P.getLast? = some e ∧ a.chunk.getLast? = some e ∧
      ((∀ x, x ∈ hashed H P ↔ x ∈ L ∧ x.1 ≤ e.1) ∨
       (∃ x ∈ smtInputs H 256 (hashed H P), x.digest H = H.placeholder) ∨
       ∃ sibs, sibs.length ≤ 256 ∧ Assembled H (hashed H P) e.1 a.proof.rightSiblings sibs ∧
        Clash H (climbInputs H sibs e.1.bits (H.leaf e.1 (H.value e.2)) ++ smtInputs H 256 (hashed H P) ++ [.leaf e.1 (H.value e.2)])
          (smtInputs H 256 L)) := by
  intro P
  rw [new_fresh H hdst.1] at hnew
  obtain rfl := Except.ok.inj hnew
  obtain ⟨r1, outs1, a1, a2, a3, _⟩ := Live.fresh_run H hdst.1 hdst.2 v (smtRoot H L) m as
  obtain ⟨r2, _, o, b1, _, _, b4, _, b6, b7, _⟩ := a2.addChunkOn a2 (Restore.Like.refl r1) a
  rw [Restore.addChunksOn_append, a1] at hrun
  simp only [Res.ok_bind, Restore.addChunksOn, b1, Res.pure_eq] at hrun
  simp only [Except.ok.injEq, Prod.mk.injEq] at hrun
  obtain ⟨rfl, h2⟩ := hrun
  have hout : a.outcome o = none := by
    have := congrArg List.getLast? h2
    simpa using this
  have ho : o = none := Attempt.outcome_none hout
  have hP : P = receive (received (as.map Attempt.chunk)) a.chunk := received_snoc _ _
  rw [← hP] at b4 b7
  obtain ⟨c1, c2, z, r3, c3, c4, c5⟩ := b7 ho
  obtain ⟨e, he⟩ : ∃ e, a.chunk.getLast? = some e := by
    cases hl : a.chunk.getLast? with
    | none => exact absurd (List.getLast?_eq_none_iff.1 hl) c1
    | some e => exact ⟨e, rfl⟩
  have hPe : P.getLast? = some e := by
    rw [hP, receive, c2, List.getLast?_append, he]; rfl
  have hPne : P ≠ [] := by intro h0; rw [h0] at hPe; cases hPe
  obtain ⟨z', hz'⟩ := b4.nonempty hPne
  refine ⟨?_, c3.sorted, e, hPe, he, ?_⟩
  · intro k x
    rw [← hz'.val]
    unfold Restore.curVal
    rw [b6 hout]
    rfl
  · exact c3.sound hPe c5 hL (by rw [c4, a3])

/-- C103, calls that do not return `Ok` write nothing: what is in the store stays what the last call that returned `Ok` left. -/
theorem C103_store_kept (H : Hasher D) [DecidableEq D] (dst : Store D) (hdst : dst.nodes.entries = [] ∧ dst.valueHistory.entries = [])
    (v : Version) (root : D) (m : Bool) (as bs : List (Attempt D)) :
    ∃ r0 r r' outs outs', Restore.new H dst v root m = .ok r0 ∧ r0.addChunksOn H as = .ok (r, outs) ∧
      r0.addChunksOn H (as ++ bs) = .ok (r', outs ++ outs') ∧ (none ∉ outs' → r'.store = r.store) := by
  obtain ⟨r, outs, a1, a2, _⟩ := Live.fresh_run H hdst.1 hdst.2 v root m as
  have key : ∀ (bs : List (Attempt D)) (P : List (Key × Value)) (r : Restore D), Live H v m P r →
      ∃ r' outs', r.addChunksOn H bs = .ok (r', outs') ∧ (none ∉ outs' → r'.store = r.store) := by
    intro bs
    induction bs with
    | nil => intro P r _; exact ⟨r, [], rfl, fun _ => rfl⟩
    | cons b t ih =>
      intro P r h
      obtain ⟨r1, _, o, b1, _, _, b4, _, _, _, _, b9, _⟩ := h.addChunkOn h (Restore.Like.refl r) b
      obtain ⟨r', outs', c1, c2⟩ := ih _ _ b4
      refine ⟨r', b.outcome o :: outs', ?_, ?_⟩
      · unfold Restore.addChunksOn
        rw [b1]
        simp only [Res.ok_bind, c1, Res.pure_eq]
      · intro hn
        simp only [List.mem_cons, not_or] at hn
        rw [c2 hn.2, b9 (fun h0 => hn.1 h0.symm)]
  obtain ⟨r', outs', b1, b2⟩ := key bs _ r a2
  refine ⟨_, r, r', outs, outs', new_fresh H hdst.1 v root m, a1, ?_, b2⟩
  rw [Restore.addChunksOn_append, a1]
  simp only [Res.ok_bind, b1]

/-- **C103 is false** for the caller's natural reaction: after any calls, a chunk that is given once more, with whatever proof and whether
the store can be written again or not, is refused for the order of its keys, and the call changes nothing. -/
theorem C103_again_false (H : Hasher D) [DecidableEq D] (dst : Store D) (hdst : dst.nodes.entries = [] ∧ dst.valueHistory.entries = [])
    (v : Version) (root : D) (m : Bool) (as : List (Attempt D)) (a b : Attempt D) (hne : a.chunk ≠ []) (hb : b.chunk = a.chunk) :
    ∃ r0 r outs, Restore.new H dst v root m = .ok r0 ∧ r0.addChunksOn H (as ++ [a]) = .ok (r, outs) ∧
      r.addChunkOn H b = .ok (r, some "Account keys must come in increasing order.") := by
  obtain ⟨r, outs, a1, a2, _⟩ := Live.fresh_run H hdst.1 hdst.2 v root m (as ++ [a])
  rw [List.map_append, List.map_singleton, received_snoc] at a2
  exact ⟨_, r, outs, new_fresh H hdst.1 v root m, a1, Live.again hne hb a2⟩

/-! ### Examples -/

/-- The expected root hash of `exPairs`. -/
def exWanted : Term := smtRoot termHasher (hashed termHasher exPairs)

/-- The outcomes of the calls, and the root hash of the version that `finish` leaves, if it returns `Ok`. -/
def exEnd (as : List (Attempt Term)) : Option (List (Option String) × Option Term) :=
  (do
    let r0 ← Restore.new termHasher (Store.empty : Store Term) 7 exWanted false
    let (r, outs) ← r0.addChunksOn termHasher as
    pure (outs, (do let s ← r.finish termHasher; Tree.getRootHash termHasher s.reader 7).toOption)).toOption

/-- The range proof of the first pair of `exPairs`. -/
def exFirstProof : SparseMerkleRangeProof Term := ⟨[.node (.leaf (key 0x80 0) (.value [5])) (.leaf (key 0xF0 0) (.value [3]))]⟩

-- a store that is down during the first chunk: the second one writes everything
example : exEnd [⟨exPairs.take 1, exFirstProof, false⟩, ⟨exPairs.drop 1, ⟨[]⟩, true⟩] = some ([some Restore.downError, none], some exWanted) := by
  decide +kernel

-- the chunk given again is refused; the next one helps
example : exEnd [⟨exPairs.take 1, exFirstProof, false⟩, ⟨exPairs.take 1, exFirstProof, true⟩, ⟨exPairs.drop 1, ⟨[]⟩, true⟩] =
    some ([some Restore.downError, some "Account keys must come in increasing order.", none], some exWanted) := by decide +kernel

-- a store that is down during all calls and is written by `finish`
example : exEnd [⟨exPairs, ⟨[]⟩, false⟩] = some ([some Restore.downError], some exWanted) := by decide +kernel

-- the same with a tree of one key: `finish` panics
example : exEnd [⟨exPairs.take 1, exFirstProof, false⟩] = some ([some Restore.downError], none) := by decide +kernel

/-- `finish` also writes pairs that no proof has confirmed: both pairs are wrong, the only `add_chunk` call is refused, and `finish`
returns `Ok`, with a version that is not the expected one. -/
theorem C103_unconfirmed_false : ∃ outs d, exEnd [⟨[(key 1 2, [8]), (key 2 2, [9])], ⟨[]⟩, true⟩] = some (outs, some d) ∧ none ∉ outs ∧ d ≠ exWanted :=
  ⟨[some "Missing right sibling."], smtRoot termHasher (hashed termHasher [(key 1 2, [8]), (key 2 2, [9])]), by decide +kernel, by decide, by decide +kernel⟩

end Verif.Props
