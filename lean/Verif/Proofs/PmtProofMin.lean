import Verif.Proofs.PmtFault
import Verif.Proofs.PmtLight
/-!
A list of byte strings is accepted as a proof exactly if it has all nodes on the way to the key.
-/

set_option autoImplicit false

namespace Verif.Pmt

open PT

variable {K : Keccak} {S : Bytes → Prop} {db : Db}

/-! ### The nodes on the way -/

theorem rank_child (cs : Nib → PT) (v : Option Bytes) (i : Nib) : rank (cs i) < rank (.branch cs v) := by
  have h : rank (cs i) ≤ ∑ i, rank (cs i) := Finset.single_le_sum (f := fun i => rank (cs i)) (fun _ _ => Nat.zero_le _) (Finset.mem_univ i)
  show rank (cs i) < (∑ i, rank (cs i)) + 1
  omega

theorem chain_rank {t s : PT} {p : List Nib} (h : s ∈ chain K t p) : rank s < rank t := by
  induction t generalizing p with
  | empty => cases h
  | leaf => cases h
  | ext q u ih =>
    have hu : rank u < rank (.ext q u) := Nat.lt_succ_self _
    simp only [chain] at h
    split at h
    · rcases List.mem_append.1 h with h | h
      · split at h
        · cases h
        · rw [List.mem_singleton.1 h]; exact hu
      · exact (ih h).trans hu
    · cases h
  | branch cs v ih =>
    cases p with
    | nil => cases h
    | cons i r =>
      have hu := rank_child cs v i
      simp only [chain] at h
      rcases List.mem_append.1 h with h | h
      · split at h
        · cases h
        · rw [List.mem_singleton.1 h]; exact hu
      · exact (ih i h).trans hu

theorem chain_nodup (t : PT) (p : List Nib) : (t :: chain K t p).Nodup := by
  have cons : ∀ (t : PT) (p : List Nib), (chain K t p).Nodup → (t :: chain K t p).Nodup := by
    intro t p h
    refine List.nodup_cons.2 ⟨fun h => Nat.lt_irrefl _ (chain_rank h), h⟩
  have app : ∀ (s : PT) (p : List Nib), (chain K s p).Nodup → ((if (enc K s).length < 32 then [] else [s]) ++ chain K s p).Nodup := by
    intro s p h
    split
    · exact h
    · exact cons s p h
  refine cons t p ?_
  induction t generalizing p with
  | empty => exact List.nodup_nil
  | leaf => exact List.nodup_nil
  | ext q u ih =>
    simp only [chain]
    split
    · exact app _ _ (ih _)
    · exact List.nodup_nil
  | branch cs v ih =>
    cases p with
    | nil => exact List.nodup_nil
    | cons i r => exact app _ _ (ih i r)

theorem chain_length {t : PT} (hok : Ok t (2 ^ 60)) (p : List Nib) : (chain K t p).length ≤ p.length := by
  have app : ∀ (s : PT) (l : List PT), ((if (enc K s).length < 32 then [] else [s]) ++ l).length ≤ l.length + 1 := by
    intro s l
    split <;> simp
  induction t generalizing p with
  | empty => exact Nat.zero_le _
  | leaf => exact Nat.zero_le _
  | ext q u ih =>
    simp only [chain]
    split
    · next hq =>
      obtain ⟨r, rfl⟩ := lcp_eq_length.1 hq
      have h1 := app u (chain K u ((q ++ r).drop q.length))
      have h2 := ih (ok_sub hok) ((q ++ r).drop q.length)
      rw [List.drop_left' rfl] at h1 h2 ⊢
      have hq0 : 0 < q.length := List.length_pos_iff.2 hok.1
      refine h1.trans ?_
      rw [List.length_append]
      omega
    · exact Nat.zero_le _
  | branch cs v ih =>
    cases p with
    | nil => exact Nat.zero_le _
    | cons i r =>
      have h1 := app (cs i) (chain K (cs i) r)
      have h2 := ih i (ok_child hok i) r
      simp only [chain, List.length_cons]
      omega

/-! ### Verification -/

theorem within_refl (d : Db) : Within d d := fun _ _ h => h

/-- What a committed tree answers to any list of byte strings. -/
theorem verifyProof_exact {t : PT} (hok : Ok t (2 ^ 60)) (h : Held K S t) (k : Bytes) {proof : List Bytes}
    (hS : Separate K (fun b => S b ∨ b ∈ proof)) :
    ((∀ s ∈ t :: chain K t (nibsOf k), enc K s ∈ proof) → verifyProof K (K (enc K t)) k proof = .ok (t.get (nibsOf k))) ∧
    (¬ (∀ s ∈ t :: chain K t (nibsOf k), enc K s ∈ proof) → verifyProof K (K (enc K t)) k proof = .error (.err "InvalidProof")) := by
  have hF : Faithful K S (proofDb K (K (enc K t)) proof) := by
    intro b hb c hc
    obtain ⟨h1, h2⟩ := proofDb_get hc
    exact (hS b (.inl hb) c (.inr h2) h1).symm
  have hch := chain_held hok h.2 (nibsOf k)
  constructor
  · intro hall
    have hread : ∀ s, s ∈ t :: chain K t (nibsOf k) → (K (enc K t) = K (enc K s) ∨ 32 ≤ (enc K s).length) →
        (proofDb K (K (enc K t)) proof).get (K (enc K s)) = some (enc K s) := by
      intro s hs hl
      obtain ⟨c, hc⟩ := Option.isSome_iff_exists.1 (proofDb_isSome (hall s hs) hl)
      obtain ⟨h1, h2⟩ := proofDb_get hc
      rw [hc, hS _ (.inr (hall s hs)) _ (.inr h2) h1]
    have hf : fetch (proofDb K (K (enc K t)) proof) (K (enc K t)) = .ok (top K t) := by
      unfold fetch recover
      rw [hread t (by simp) (.inl rfl)]
      simp only
      rw [decodeNode_enc hok]
      rfl
    have hh := hops_ge (db := proofDb K (K (enc K t)) proof) (nibsOf k)
    have : getAt (proofDb K (K (enc K t)) proof) (hops (proofDb K (K (enc K t)) proof) (leafPath (nibsOf k))) (.hash (K (enc K t)))
        (leafPath (nibsOf k)) = .ok (t.get (nibsOf k)) := by
      generalize hops (proofDb K (K (enc K t)) proof) (leafPath (nibsOf k)) = fuel at *
      cases fuel with
      | zero => omega
      | succ f =>
        rw [getAt_hash, hf]
        exact getAt_chain hok f (nibsOf k) (by omega) (fun s hs => hread s (by simp [hs]) (.inr (hch s hs).2.2))
    unfold verifyProof Trie.get Trie.atRoot
    rw [path_eq]
    simp only [this]
  · intro hno
    rcases verifyProof_sound hok h (k := k) hS with e | e
    · exfalso
      apply hno
      have hg : getAt (proofDb K (K (enc K t)) proof) (hops (proofDb K (K (enc K t)) proof) (leafPath (nibsOf k))) (.hash (K (enc K t)))
          (leafPath (nibsOf k)) = .ok (t.get (nibsOf k)) := by
        rcases getAt_faithful (fuel := hops (proofDb K (K (enc K t)) proof) (leafPath (nibsOf k))) (p := nibsOf k) hF hok (.hash h) (hops_ge _) with e' | e'
        · exact e'
        · unfold verifyProof Trie.get Trie.atRoot at e
          rw [path_eq] at e
          simp only [e', missing] at e
          cases e
      obtain ⟨g1, g2⟩ := getAt_ok_held hF hok (within_refl _) h (getAt_ok_chain hF hok (within_refl _)) _ _ _ hg
      intro s hs
      rcases List.mem_cons.1 hs with rfl | hs
      · exact (proofDb_get g1).2
      · exact (proofDb_get (g2 s hs)).2
    · exact e

/-- The nodes of `get_proof` on a committed tree that is not empty. -/
theorem getProof_nodes (hR : Reads K S db) (hS : Separate K S) {tr : Trie} {t : PT} (hok : Ok t (2 ^ 60)) (h : Held K S t) (hne : t ≠ .empty)
    (hroot : tr.root = top K t) (k : Bytes) :
    ∃ tr', tr.getProof K db k = .ok (tr', .ok ((t :: chain K t (nibsOf k)).map (enc K))) ∧ ((t :: chain K t (nibsOf k)).map (enc K)).Nodup := by
  have e1 := pathAt_top hR hok h.2 (hops db (leafPath (nibsOf k))) (nibsOf k) (by have := hops_ge (db := db) (nibsOf k); omega)
  have hch := chain_held hok h.2 (nibsOf k)
  have hall : ∀ s ∈ t :: chain K t (nibsOf k), Below K S s ∧ Ok s (2 ^ 60) := by
    intro s hs
    rcases List.mem_cons.1 hs with rfl | hs
    · exact ⟨h.2, hok⟩
    · exact ⟨(hch s hs).1.2, (hch s hs).2.1⟩
  obtain ⟨w, e2⟩ := encodeAll_top (K := K) (S := S) (l := t :: chain K t (nibsOf k)) hall
  refine ⟨tr.addWritten w, ?_, ?_⟩
  · have e3 : Trie.encodeAll K ((match tr.root with
        | .empty => ((chain K t (nibsOf k)).map (top K)).reverse
        | _ => ((chain K t (nibsOf k)).map (top K)).reverse ++ [tr.root]).reverse)
        = .ok ((t :: chain K t (nibsOf k)).map (enc K), w) := by
      rw [← e2, hroot]
      cases t with
      | empty => exact absurd rfl hne
      | leaf => simp [top]
      | ext => simp [top]
      | branch => simp [top]
    unfold Trie.getProof
    rw [path_eq, hroot, e1, ← hroot]
    dsimp only
    erw [e3]
    rfl
  · refine List.Nodup.map_on ?_ (chain_nodup t (nibsOf k))
    intro a ha b hb hab
    exact enc_inj hS (hall a ha).2 (hall b hb).2 (hall a ha).1 (hall b hb).1 hab

end Verif.Pmt
