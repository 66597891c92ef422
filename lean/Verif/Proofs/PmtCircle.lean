import Verif.Proofs.PmtBytes
import Mathlib.Data.List.Perm.Subperm
import Mathlib.Logic.Relation
/-!
Following bare hashes comes to an end unless they lead in a circle.
-/

set_option autoImplicit false

namespace Verif.Pmt

/-- The node stored under the first hash is nothing but the second hash. -/
def HashStep (db : Db) (x y : H256) : Prop := ∃ b, db.get x = some b ∧ decodeNode b = .ok (.hash y)

theorem get_mem_keys {m : FMap H256 Bytes} {x : H256} {b : Bytes} (h : m.get x = some b) : x ∈ m.entries.map Prod.fst := by
  unfold FMap.get at h
  generalize m.entries = l at h
  induction l with
  | nil => cases h
  | cons e t ih =>
    obtain ⟨a, v⟩ := e
    unfold FMap.lookupL at h
    split at h
    · next e => subst e; simp
    · exact List.mem_cons_of_mem _ (ih h)

theorem keys_le {db : Db} {l : List H256} (hn : l.Nodup) (h : ∀ x ∈ l, ∃ b, db.get x = some b) : l.length ≤ db.len := by
  have hs : l ⊆ db.storage.entries.map Prod.fst := by
    intro x hx
    obtain ⟨b, hb⟩ := h x hx
    exact get_mem_keys hb
  have := (List.subperm_of_subset hn hs).length_le
  rw [List.length_map] at this
  exact this

theorem fetch_calm {db : Db} (hdb : ∀ h b, db.get h = some b → Calm (decodeNode b)) (h : H256) :
    (∃ n b, db.get h = some b ∧ decodeNode b = .ok n ∧ fetch db h = .ok n) ∨ ∃ msg, fetch db h = .error (.err msg) := by
  unfold fetch recover
  rcases hg : db.get h with _ | b
  · exact .inr ⟨_, rfl⟩
  · rcases hd : decodeNode b with e | n
    · cases e with
      | err msg => simp only [hd, Res.error_bind]; exact .inr ⟨msg, rfl⟩
      | panic msg => exact absurd hd (hdb h b hg msg)
    · exact .inl ⟨n, b, rfl, hd, by simp only [hd, Res.ok_bind, Res.pure_eq]⟩

/-- Reading from a hash after a row of bare hashes. -/
theorem getAt_hash_calm {db : Db} (hdb : ∀ h b, db.get h = some b → Calm (decodeNode b)) (hc : ∀ x, ¬ Relation.TransGen (HashStep db) x x) (fuel : Nat) :
    ∀ (h : H256) (p : Nibbles) (S : List H256), (∀ x ∈ p, x ≤ 16) → S.Nodup → (∀ s ∈ S, (∃ b, db.get s = some b) ∧ Relation.TransGen (HashStep db) s h) →
      p.length * (db.len + 1) + (db.len - S.length) + 1 ≤ fuel → Calm (getAt db fuel (.hash h) p) := by
  induction fuel with
  | zero => intro h p S _ _ _ hf; omega
  | succ f ih =>
    intro h p S hp hn hS hf
    show Calm (match fetch db h with
      | .error e => .error e
      | .ok n => getAt db f n p)
    rcases fetch_calm hdb h with ⟨n, b, hg, hd, e⟩ | ⟨msg, e⟩
    · simp only [e]
      by_cases hh : IsHash n
      · obtain ⟨y, rfl⟩ : ∃ y, n = .hash y := by cases n <;> first | exact hh.elim | exact ⟨_, rfl⟩
        have hstep : HashStep db h y := ⟨b, hg, hd⟩
        have hnot : h ∉ S := fun hm => hc h (hS h hm).2
        have hn' : (h :: S).Nodup := List.nodup_cons.2 ⟨hnot, hn⟩
        have hS' : ∀ s ∈ h :: S, (∃ b, db.get s = some b) ∧ Relation.TransGen (HashStep db) s y := by
          intro s hs
          rcases List.mem_cons.1 hs with rfl | hs
          · exact ⟨⟨b, hg⟩, .single hstep⟩
          · exact ⟨(hS s hs).1, (hS s hs).2.tail hstep⟩
        have hlen := keys_le hn' (fun x hx => (hS' x hx).1)
        rw [List.length_cons] at hlen
        refine ih y p (h :: S) hp hn' hS' ?_
        rw [List.length_cons]
        omega
      · have hgo : ∀ q : Nibbles, q.length < p.length → q.length * (db.len + 1) + (db.len + 1) ≤ f := by
          intro q hq
          have h1 : (q.length + 1) * (db.len + 1) ≤ p.length * (db.len + 1) := Nat.mul_le_mul_right _ hq
          rw [Nat.add_mul, Nat.one_mul] at h1
          omega
        cases f with
        | zero => exact getStep_calm hp (decodeAux_decoded hd) hh (fun x q hq _ => by have := hgo q hq; omega)
        | succ f =>
          refine getStep_calm hp (decodeAux_decoded hd) hh (fun x q hq hx => ?_)
          exact ih x q [] hx List.nodup_nil (fun s hs => (nomatch hs)) (by have := hgo q hq; simp only [List.length_nil]; omega)
    · simp only [e]; intro m h; cases h

/-- Reading with the number of rounds that the model allows. -/
theorem get_calm {db : Db} (hdb : ∀ h b, db.get h = some b → Calm (decodeNode b)) (hc : ∀ x, ¬ Relation.TransGen (HashStep db) x x) (h : H256) (k : Bytes) :
    Calm ((Trie.atRoot h).get db k) := by
  refine getAt_hash_calm hdb hc _ h _ [] (path_le k) List.nodup_nil (fun s hs => (nomatch hs)) ?_
  unfold hops
  rw [Nat.add_mul, Nat.one_mul, List.length_nil]
  omega

end Verif.Pmt
