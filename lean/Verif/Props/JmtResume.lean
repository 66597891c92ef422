import Verif.Proofs.RestoreResume
import Verif.Props.JmtRestore
/-! Property C24: resuming an interrupted restore. -/

set_option autoImplicit false

namespace Verif.Props
open Verif Verif.Jmt Verif.Spec
variable {D : Type}

/-- Genuine sessions, one after the other. -/
theorem sessions_run {H : Hasher D} [DecidableEq D] {s : Store D} {v : Version} {f : Key → Option Value} {t : VTree D} (hf : VersionFacts H s v f t)
    {P rest : List (Key × Value)} (hsorted : P.Pairwise (fun a b => a.1 < b.1)) (hP : ∀ k x, (k, x) ∈ P ↔ f k = some x)
    (hc : NoPlaceholder H (smtInputs H 256 (hashed H P))) (w : Version) (m : Bool)
    (earlier : List (List (List (Key × Value) × SparseMerkleRangeProof D)))
    (hcalls : ∀ cs ∈ earlier, ∀ c ∈ cs, ∃ e, c.1.getLast? = some e ∧ Tree.getRangeProof H s.reader e.1 v = .ok c.2)
    {A L : List (Key × Value)} {dst : Store D} (hb : Between H w m A dst) (hAL : A.dropLast ++ L = P)
    (hhead : ∀ e, A.getLast? = some e → L.head? = some e) (hfeed : Feeds L (earlier.map (List.map Prod.fst)) rest) :
    ∃ s1 A', Restore.sessions H w (smtRoot H (hashed H P)) m dst earlier = .ok (s1, earlier.map (List.map (fun _ => none))) ∧
      Between H w m A' s1 ∧ A'.dropLast ++ rest = P ∧ ∀ e, A'.getLast? = some e → rest.head? = some e := by
  induction earlier generalizing A L dst with
  | nil => exact ⟨dst, A, rfl, hb, by rw [show rest = L from hfeed]; exact hAL, by rw [show rest = L from hfeed]; exact hhead⟩
  | cons c cs ih =>
    obtain ⟨⟨B, hB⟩, hfeed⟩ := hfeed
    subst hB
    generalize hF : (c.map Prod.fst).flatten = F at *
    rw [← List.append_assoc] at hAL
    subst hAL
    obtain ⟨r0, r, a1, a2, _, a4, a5⟩ := honest_session hf hb c hF (hcalls c List.mem_cons_self) hhead hsorted hP hc rfl
    obtain ⟨A2, b1, b2, b3⟩ : ∃ A2, Between H w m A2 r.store ∧ A2.dropLast ++ (F ++ B).drop (F.length - 1) = A.dropLast ++ F ++ B ∧
        ∀ e, A2.getLast? = some e → ((F ++ B).drop (F.length - 1)).head? = some e := by
      by_cases hce : c = []
      · subst hce
        have : F = [] := by rw [← hF]; rfl
        subst this
        exact ⟨A, by rw [a4 rfl]; exact hb, by simp, by simpa using hhead⟩
      · obtain ⟨c1, c2, c3⟩ := a5 hce
        have hFne : F ≠ [] := by
          obtain ⟨d, ds, rfl⟩ := List.exists_cons_of_ne_nil hce
          obtain ⟨e, he, _⟩ := hcalls _ List.mem_cons_self d List.mem_cons_self
          have : d.1 ≠ [] := by intro h0; rw [h0] at he; cases he
          rw [← hF]
          simp [this]
        obtain ⟨F0, e, rfl⟩ : ∃ F0 e, F = F0 ++ [e] := ⟨_, _, (List.dropLast_concat_getLast hFne).symm⟩
        have hdrop : (F0 ++ [e] ++ B).drop ((F0 ++ [e]).length - 1) = e :: B := by simp
        refine ⟨_, .written c1 c2 c3, ?_, ?_⟩
        · rw [hdrop, ← List.append_assoc, List.dropLast_concat]; simp
        · rw [hdrop, ← List.append_assoc]; simp
    obtain ⟨s1, A', d1, d2⟩ := ih (fun cs' h' => hcalls cs' (List.mem_cons_of_mem _ h')) b1 b2 b3 hfeed
    refine ⟨s1, A', ?_, d2⟩
    unfold Restore.sessions
    rw [a1]
    simp only [Res.ok_bind, a2, d1, Res.pure_eq, List.map_cons]

/-- **C24.** `P` lists the pairs of a readable version in order. They are given in any number of sessions: each one starts a restore
on the store the last one left, adds chunks with genuine range proofs, and is dropped without `finish`. A session goes on from the last
pair of the one before. Then all chunks are taken, the restore of the last session shows as its previous leaf the last pair before
those still to be given, and when it has got the rest, `finish` gives the same root hash, answers and proofs as the source: the
outcome of C21. -/
theorem C24_restore_resumes (H : Hasher D) [DecidableEq D] (v0 next : Version) (ops : List Op) (s : Store D)
    (h : Reached H v0 ops s next) (v : Version) (hv : Readable v0 ops v) (root : D) (hroot : Tree.getRootHash H s.reader v = .ok root)
    (P : List (Key × Value)) (hsorted : P.Pairwise (fun a b => a.1 < b.1)) (hP : ∀ k x, (k, x) ∈ P ↔ contentsAt v0 ops v k = some x)
    (hne : P ≠ []) (hc : ∀ x ∈ smtInputs H 256 (hashed H P), x.digest H ≠ H.placeholder)
    (earlier : List (List (List (Key × Value) × SparseMerkleRangeProof D))) (last : List (List (Key × Value) × SparseMerkleRangeProof D))
    (hfeed : Feeds P (earlier.map (List.map Prod.fst)) (last.map Prod.fst).flatten)
    (hcalls : ∀ cs ∈ earlier ++ [last], ∀ c ∈ cs, ∃ e, c.1.getLast? = some e ∧ Tree.getRangeProof H s.reader e.1 v = .ok c.2)
    (dst : Store D) (hdst : dst.nodes.entries = [] ∧ dst.valueHistory.entries = []) (w : Version) (m : Bool) :
    ∃ s1 before r0 r s', Restore.sessions H w root m dst earlier = .ok (s1, earlier.map (List.map (fun _ => none))) ∧
      Restore.new H s1 w root m = .ok r0 ∧
      before ++ (last.map Prod.fst).flatten = P ∧ r0.previousLeaf = before.getLast?.map (fun e => ⟨e.1, H.value e.2⟩) ∧
      r0.addChunks H last = .ok (r, last.map (fun _ => none)) ∧ r.finish H = .ok s' ∧
      Tree.getRootHash H s'.reader w = .ok root ∧
      ∀ k, Tree.getWithProof H s'.reader k w = Tree.getWithProof H s.reader k v := by
  have hf := h.facts hv
  have hL := lists_hashed (H := H) hsorted hP
  obtain rfl : root = smtRoot H (hashed H P) := by
    have := hf.getRootHash
    rw [hroot] at this
    rw [← hf.hash hL]
    exact Except.ok.inj this
  obtain ⟨s1, A, a1, a2, a3, a4⟩ := sessions_run hf hsorted hP hc w m earlier (fun cs h' => hcalls cs (List.mem_append_left _ h'))
    (.fresh hdst.1 hdst.2) rfl (by simp) hfeed
  have hlast := hcalls last (by simp)
  generalize hF : (last.map Prod.fst).flatten = F at *
  have happ : A.dropLast ++ F ++ [] = P := by simpa using a3
  obtain ⟨r0, r, b1, b2, b3, _, b5⟩ := honest_session hf a2 last hF hlast (rest := []) (by simpa using a4) (by rw [happ]; exact hsorted)
    (by rw [happ]; exact hP) (by rw [happ]; exact hc) (by rw [happ])
  have hlne : last ≠ [] := by
    rintro rfl
    obtain rfl : F = [] := hF.symm
    cases hl : A.getLast? with
    | none =>
      obtain rfl := List.getLast?_eq_none_iff.1 hl
      exact hne a3.symm
    | some e => cases a4 e hl
  obtain ⟨c1, c2, _⟩ := b5 hlne
  rw [a3] at c1
  obtain ⟨s', t, f, d1, d2, d3, d4⟩ := c1.finish hne c2
  have hfe : f = contentsAt v0 ops v := by
    funext k
    apply Option.ext
    intro x
    exact (d4 k x).symm.trans (hP k x)
  have hLf : Lists H f (hashed H P) := by rw [hfe]; exact hL
  refine ⟨s1, A.dropLast, r0, r, s', a1, b1, a3, b3, b2, d1, ?_, ?_⟩
  · rw [d2.getRootHash, d2.hash hLf]
  · intro k
    rw [d2.getWithProof k, hf.getWithProof k, d2.path hLf, hf.path hL, hfe]

-- C24: three pairs in three sessions: the first is dropped after two pairs, the second after one more pair
example : ∃ s root p2 p3 s1 r0 r s', Reached termHasher 0 exOps s 3 ∧ Tree.getRootHash termHasher s.reader 1 = .ok root ∧
    Restore.sessions termHasher 7 root false Store.empty [[(exPairs.take 2, p2)], [(exPairs.drop 1, p3)]] = .ok (s1, [[none], [none]]) ∧
    Restore.new termHasher s1 7 root false = .ok r0 ∧ r0.addChunks termHasher [(exPairs.drop 2, p3)] = .ok (r, [none]) ∧
    r.finish termHasher = .ok s' ∧ Tree.getRootHash termHasher s'.reader 7 = .ok root := by
  obtain ⟨s, h⟩ := exOps_reached
  have hf := h.facts exOps_readable1
  obtain ⟨p2, h2⟩ := exCalls h (key 0x80 0, [5]) (by simp [exPairs])
  obtain ⟨p3, h3⟩ := exCalls h (key 0xF0 0, [3]) (by simp [exPairs])
  obtain ⟨s1, _, r0, r, s', a1, a2, _, _, a3, a4, a5, _⟩ := C24_restore_resumes termHasher _ _ _ _ h _ exOps_readable1 _ hf.getRootHash exPairs
    exPairs_sorted exPairs_mem (by simp [exPairs]) (termHasher_placeholder _) [[(exPairs.take 2, p2)], [(exPairs.drop 1, p3)]]
    [(exPairs.drop 2, p3)] ⟨⟨_, rfl⟩, ⟨[], rfl⟩, rfl⟩
    (by
      intro cs hcs c hc
      simp only [List.cons_append, List.nil_append, List.mem_cons, List.not_mem_nil, or_false] at hcs
      rcases hcs with rfl | rfl | rfl <;> simp only [List.mem_cons, List.not_mem_nil, or_false] at hc <;> subst hc
      · exact ⟨_, rfl, h2⟩
      · exact ⟨_, rfl, h3⟩
      · exact ⟨_, rfl, h3⟩) Store.empty ⟨rfl, rfl⟩ 7 false
  exact ⟨s, _, p2, p3, s1, r0, r, s', h, hf.getRootHash, a1, a2, a3, a4, a5⟩

/-- Two keys below a common node and one beside it. -/
def exResumed : List (Key × Value) := [(key 0x10 0, [7]), (key 0x12 0, [5]), (key 0xF0 0, [3])]

/-- Whether a result is a panic. -/
def panics {A : Type} : Res A → Bool
  | .error (.panic _) => true
  | _ => false

/-- Starting a restore on the store left by `x` and giving it one chunk. -/
def resumeWith (x : Res (Store Term × List (List (Option String)))) (root : Term) (chunk : List (Key × Value)) : Res (Option (Option String)) :=
  match x with
  | .error _ => .ok none
  | .ok (s, _) =>
    match Restore.new termHasher s 7 root false with
    | .error _ => .ok none
    | .ok r => (r.addChunk termHasher chunk ⟨[]⟩).map (fun y => some y.2)

theorem of_resumeWith {x : Res (Store Term × List (List (Option String)))} {root : Term} {chunk : List (Key × Value)}
    (h : panics (resumeWith x root chunk) = true) :
    ∃ s o r msg, x = .ok (s, o) ∧ Restore.new termHasher s 7 root false = .ok r ∧ r.addChunk termHasher chunk ⟨[]⟩ = .error (.panic msg) := by
  cases x with
  | error e => cases h
  | ok y =>
    obtain ⟨s, o⟩ := y
    unfold resumeWith at h
    simp only at h
    cases h4 : Restore.new termHasher s 7 root false with
    | error e => rw [h4] at h; cases h
    | ok r0 =>
      rw [h4] at h
      simp only at h
      cases h5 : r0.addChunk termHasher chunk ⟨[]⟩ with
      | ok x => rw [h5] at h; cases h
      | error e =>
        rw [h5] at h
        cases e with
        | err msg => cases h
        | panic msg => exact ⟨s, o, r0, msg, rfl, h4, h5⟩

theorem exResumed_first : ∃ s1, Restore.sessions termHasher 7 (smtRoot termHasher (hashed termHasher exResumed)) false Store.empty
    [[(exResumed, ⟨[]⟩)]] = .ok (s1, [[none]]) := of_outcomes (by decide +kernel)

theorem exResumed_panics : panics (resumeWith (Restore.sessions termHasher 7 (smtRoot termHasher (hashed termHasher exResumed)) false Store.empty
    [[(exResumed, ⟨[]⟩)]]) (smtRoot termHasher (hashed termHasher exResumed)) [(key 0x13 0, [5])]) = true := by decide +kernel

theorem exResumed_refused : ∃ r1,
    (Restore.newOverwrite Store.empty 7 (smtRoot termHasher (hashed termHasher exResumed)) false).addChunks termHasher
      [(exResumed, ⟨[]⟩), ([(key 0x13 0, [5])], ⟨[]⟩)] = .ok (r1, [none, some "Account keys must come in increasing order."]) :=
  of_outcomes (by decide +kernel)

/-- C53 is limited to restores started on an empty store: a genuine restore is dropped after its only chunk and resumed. The resumed
restore panics on one wrong pair, whose key is greater than the rightmost stored leaf and shares a prefix with it; before the
interruption the same pair is refused. -/
theorem C53_resumed_panics : ∃ (s1 : Store Term) (r0 r1 : Restore Term) (chunk : List (Key × Value)) (msg1 msg2 : String),
    Restore.sessions termHasher 7 (smtRoot termHasher (hashed termHasher exResumed)) false Store.empty [[(exResumed, ⟨[]⟩)]] = .ok (s1, [[none]]) ∧
    Restore.new termHasher s1 7 (smtRoot termHasher (hashed termHasher exResumed)) false = .ok r0 ∧
    r0.addChunk termHasher chunk ⟨[]⟩ = .error (.panic msg1) ∧
    (Restore.newOverwrite Store.empty 7 (smtRoot termHasher (hashed termHasher exResumed)) false).addChunks termHasher
      [(exResumed, ⟨[]⟩), (chunk, ⟨[]⟩)] = .ok (r1, [none, some msg2]) := by
  obtain ⟨s1, h1⟩ := exResumed_first
  obtain ⟨s, o, r, msg, h2, h3, h4⟩ := of_resumeWith exResumed_panics
  obtain ⟨r1, h5⟩ := exResumed_refused
  have := h1.symm.trans h2
  simp only [Except.ok.injEq, Prod.mk.injEq] at this
  obtain ⟨rfl, rfl⟩ := this
  exact ⟨s1, r, r1, _, msg, _, h1, h3, h4, h5⟩

end Verif.Props
