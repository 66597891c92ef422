import Verif.Proofs.PmtCommit
/-!
The nodes of a proof.
-/

set_option autoImplicit false

namespace Verif.Pmt

open PT

variable {K : Keccak} {S : Bytes → Prop} {db : Db}

theorem pathAt_branch_nil (fuel : Nat) (cs : Fin 16 → Node) (v : Option Bytes) : pathAt db fuel (.branch cs v) (leafPath []) = .ok [] := by
  cases fuel <;> rfl

theorem pathAt_branch_cons (fuel : Nat) (cs : Fin 16 → Node) (v : Option Bytes) (i : Nib) (p : List Nib) :
    pathAt db fuel (.branch cs v) (leafPath (i :: p)) = pathAt db fuel (cs i) (leafPath p) := by
  have hi := i.isLt
  have h1 : i.val ≠ 16 := by omega
  cases fuel
  · simp only [pathAt, leafPath, toNibs_cons, List.cons_append, pathStep, h1, if_false, hi, dite_true]
  · simp only [pathAt, leafPath, toNibs_cons, List.cons_append, pathStep, h1, if_false, hi, dite_true]

theorem pathAt_ext (fuel : Nat) (q p : Nibbles) (n : Node) : pathAt db fuel (.ext q n) p =
    if Nibbles.commonPrefix p q = q.length then pathAt db fuel n (p.drop q.length) else .ok [] := by
  cases fuel <;> rfl

theorem pathAt_hash (fuel : Nat) (h : H256) (p : Nibbles) : pathAt db (fuel + 1) (.hash h) p = (do
    let n ← fetch db h
    let rest ← pathAt db fuel n p
    pure (rest ++ [n])) := rfl

/-- A path, top first, in which every node stands for a stored tree, and where the nodes from some tree on are known. -/
def PathOk (K : Keccak) (S : Bytes → Prop) (x : Res (List Node)) : Prop :=
  ∃ l : List PT, x = .ok (l.map (top K)).reverse ∧ ∀ s ∈ l, Held K S s ∧ Ok s (2 ^ 60)

theorem pathAt_held {t : PT} (hR : Reads K S db) (hok : Ok t (2 ^ 60)) (h : Held K S t)
    (ih : ∀ (n : Node) (fuel : Nat) (p : List Nib), Rep K S n t → ¬ IsHash n → p.length ≤ fuel → PathOk K S (pathAt db fuel n (leafPath p)))
    (fuel : Nat) (p : List Nib) (hf : p.length + 1 ≤ fuel) : PathOk K S (pathAt db fuel (.hash (K (enc K t))) (leafPath p)) := by
  cases fuel with
  | zero => omega
  | succ f =>
    rw [pathAt_hash, fetch_held hR h hok]
    obtain ⟨l, h1, h2⟩ := ih _ f p (rep_top h.2) (top_not_hash t) (by omega)
    refine ⟨t :: l, ?_, ?_⟩
    · simp only [Res.ok_bind, h1]
      simp
    · intro s hs
      rcases List.mem_cons.1 hs with rfl | hs
      · exact ⟨h, hok⟩
      · exact h2 s hs

theorem pathAt_node {t : PT} (hR : Reads K S db) (hok : Ok t (2 ^ 60)) (n : Node) (fuel : Nat) (p : List Nib) (h : Rep K S n t)
    (hn : ¬ IsHash n) (hf : p.length ≤ fuel) : PathOk K S (pathAt db fuel n (leafPath p)) := by
  induction t generalizing n fuel p with
  | empty =>
    cases h with
    | empty => exact ⟨[], by cases fuel <;> rfl, by simp⟩
    | hash => exact absurd trivial hn
  | leaf k v =>
    cases h with
    | leaf => exact ⟨[], by cases fuel <;> rfl, by simp⟩
    | hash => exact absurd trivial hn
  | ext q s ih =>
    cases h with
    | hash => exact absurd trivial hn
    | ext _ h =>
      rename_i m
      have hok' := ok_sub hok
      rw [pathAt_ext, commonPrefix_toNibs, toNibs_length]
      split
      · next hq =>
        obtain ⟨r, rfl⟩ := lcp_eq_length.1 hq
        rw [leafPath_drop]
        have hq0 : 0 < q.length := List.length_pos_iff.2 hok.1
        rw [List.length_append] at hf
        by_cases hm : IsHash m
        · cases h with
          | hash hl h => exact pathAt_held hR hok' h (fun n f p h hn hf => ih hok' n f p h hn hf) fuel r (by omega)
          | _ => exact hm.elim
        · exact ih hok' m fuel r h hm (by omega)
      · exact ⟨[], rfl, by simp⟩
  | branch cs v ih =>
    cases h with
    | hash => exact absurd trivial hn
    | branch _ h =>
      rename_i ns
      cases p with
      | nil => rw [pathAt_branch_nil]; exact ⟨[], rfl, by simp⟩
      | cons i r =>
        rw [pathAt_branch_cons]
        have hok' := ok_child hok i
        have h := h i
        simp only [List.length_cons] at hf
        by_cases hm : IsHash (ns i)
        · generalize ns i = m at *
          generalize hc : cs i = c at *
          cases h with
          | hash hl h =>
            subst hc
            exact pathAt_held hR hok' h (fun n f p h hn hf => ih i hok' n f p h hn hf) fuel r (by omega)
          | _ => exact hm.elim
        · exact ih i hok' (ns i) fuel r h hm (by omega)

theorem pathAt_root {t : PT} (hR : Reads K S db) (hok : Ok t (2 ^ 60)) {n : Node} {fuel : Nat} {p : List Nib} (h : RepRoot K S n t)
    (hf : p.length + 1 ≤ fuel) : PathOk K S (pathAt db fuel n (leafPath p)) := by
  have key := fun n fuel p => pathAt_node (n := n) (fuel := fuel) (p := p) hR hok
  have hash := fun (h : Held K S t) => pathAt_held hR hok h key fuel p hf
  cases h with
  | hash h => exact hash h
  | node h =>
    by_cases hm : IsHash n
    · cases h with
      | hash hl h => exact hash h
      | _ => exact hm.elim
    · exact key n fuel p h hm (by omega)

theorem encodeAll_ok {l : List Node} (h : ∀ n ∈ l, ¬ IsHash n ∧ ∃ s, Rep K S n s ∧ Ok s (2 ^ 60)) :
    ∃ bs w, Trie.encodeAll K l = .ok (bs, w) ∧ ∀ e ∈ w, EntryOk K e := by
  induction l with
  | nil => exact ⟨[], [], rfl, by simp⟩
  | cons n t ih =>
    obtain ⟨hn, s, hr, hok⟩ := h n (by simp)
    obtain ⟨w, h1, h2⟩ := encodeRaw_ok hr hok hn
    obtain ⟨bs, ws, g1, g2⟩ := ih (fun m hm => h m (by simp [hm]))
    refine ⟨enc K s :: bs, w ++ ws, ?_, ?_⟩
    · unfold Trie.encodeAll
      rw [h1]
      simp only [Res.ok_bind, g1]
      rfl
    · intro e he
      rcases List.mem_append.1 he with he | he
      · exact h2.1 e he
      · exact g2 e he

end Verif.Pmt
