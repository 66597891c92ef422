import Verif.Proofs.PmtRep
/-!
Removal on nodes standing for trees.
-/

set_option autoImplicit false

namespace Verif.Pmt

open PT

variable {K : Keccak} {S : Bytes → Prop} {db : Db}

theorem held_len (hR : Reads K S db) {b : Bytes} (h : S b) : 1 ≤ db.len := by
  have := hR b h
  unfold Db.len
  by_contra hlt
  have h0 : db.storage.size = 0 := by omega
  have : db.storage.entries = [] := List.length_eq_zero_iff.1 h0
  unfold Db.get FMap.get at *
  simp_all [FMap.lookupL]

theorem degExt_not_ext {p : List Nib} {t : PT} (h : ∀ q s, t ≠ .ext q s) (h' : ∀ k v, t ≠ .leaf k v) : degExt p t = .ext p t := by
  cases t with
  | empty => rfl
  | branch => rfl
  | leaf k v => exact absurd rfl (h' k v)
  | ext q s => exact absurd rfl (h q s)

/-- An extension over a branch or nothing is left as it is; the branch may be read from the database. -/
theorem degenerateExt_branch (hR : Reads K S db) {t : PT} (hok : Ok t (2 ^ 60)) (hb : IsBranch t) {n : Node} (h : Rep K S n t) (fuel : Nat)
    (hf : 1 ≤ fuel) (p : List Nib) : Inserted K S (degenerateExtAt db fuel (toNibs p) n) (.ext p t) := by
  cases t with
  | branch cs v =>
    cases h with
    | branch _ h =>
      cases fuel with
      | zero => omega
      | succ f => exact ⟨_, rfl, .ext p (.branch v h)⟩
    | hash hl h =>
      cases fuel with
      | zero => omega
      | succ f =>
        have e : degenerateExtAt db (f + 1) (toNibs p) (.hash (K (enc K (.branch cs v))))
          = Out.andThen ([K (enc K (.branch cs v))], fetch db (K (enc K (.branch cs v)))) (fun n => degenerateExtAt db f (toNibs p) n) := rfl
        rw [e, fetch_held hR h hok]
        have hrep := rep_top (K := K) (S := S) h.2
        cases f with
        | zero => exact ⟨_, rfl, .ext p hrep⟩
        | succ f => exact ⟨_, rfl, .ext p hrep⟩
  | _ => exact hb.elim

theorem degenerateExt_node (hR : Reads K S db) {t : PT} (hok : Ok t (2 ^ 60)) {n : Node} (h : Rep K S n t) (hn : ¬ IsHash n) (fuel : Nat)
    (hf : 1 ≤ fuel) (p : List Nib) : Inserted K S (degenerateExtAt db fuel (toNibs p) n) (degExt p t) := by
  cases h with
  | hash => exact absurd trivial hn
  | empty =>
    cases fuel with
    | zero => omega
    | succ f => exact ⟨_, rfl, .ext p .empty⟩
  | branch v h =>
    cases fuel with
    | zero => omega
    | succ f => exact ⟨_, rfl, .ext p (.branch v h)⟩
  | leaf k v =>
    cases fuel with
    | zero => omega
    | succ f =>
      refine ⟨.leaf (toNibs p ++ leafPath k) v, rfl, ?_⟩
      rw [← leafPath_append]
      exact .leaf (p ++ k) v
  | ext q h =>
    rename_i m s
    have e : degenerateExtAt db fuel (toNibs p) (.ext (toNibs q) m) = degenerateExtAt db fuel (toNibs (p ++ q)) m := by
      rw [toNibs_append]
      cases fuel <;> rfl
    have e2 : degExt p (.ext q s) = .ext (p ++ q) s := by
      have hb := hok.2.2.1
      cases s with
      | branch cs v => rfl
      | _ => exact hb.elim
    rw [e, e2]
    exact degenerateExt_branch hR (ok_sub hok) hok.2.2.1 h fuel hf (p ++ q)

theorem degenerateExt_rep (hR : Reads K S db) {t : PT} (hok : Ok t (2 ^ 60)) {n : Node} (h : Rep K S n t) (p : List Nib) :
    Inserted K S (degenerateExtAt db (db.len + 1) (toNibs p) n) (degExt p t) := by
  by_cases hn : IsHash n
  · cases h with
    | hash hl h =>
      have hlen := held_len hR h.1
      have e : degenerateExtAt db (db.len + 1) (toNibs p) (.hash (K (enc K t)))
        = Out.andThen ([K (enc K t)], fetch db (K (enc K t))) (fun n => degenerateExtAt db db.len (toNibs p) n) := rfl
      rw [e, fetch_held hR h hok]
      obtain ⟨m, h1, h2⟩ := degenerateExt_node hR hok (rep_top h.2) (top_not_hash t) db.len hlen p
      exact ⟨m, h1, h2⟩
    | _ => exact hn.elim
  · exact degenerateExt_node hR hok h hn _ (by omega) p

theorem used_eq {cs : Fin 16 → Node} {ts : Nib → PT} (h : ∀ i, Rep K S (cs i) (ts i)) : usedIndexes cs = used ts := by
  unfold usedIndexes used
  congr 1
  funext i
  have := rep_empty (h i)
  cases hc : cs i <;> cases ht : ts i <;> simp_all

/-- Bringing a node to normal form. -/
theorem degenerate_rep (hR : Reads K S db) {t : PT} (hok : Ok t (2 ^ 60)) {n : Node} (h : Rep K S n t) (hn : ¬ IsHash n) :
    Inserted K S (degenerate db n) (deg t) := by
  cases h with
  | hash => exact absurd trivial hn
  | empty => exact ⟨_, rfl, .empty⟩
  | leaf k v => exact ⟨_, rfl, .leaf k v⟩
  | ext p h => exact degenerateExt_rep hR (ok_sub hok) h p
  | branch v h =>
    rename_i cs ts
    have hu := used_eq h
    simp only [degenerate, deg, hu]
    rcases used ts with _ | ⟨i, _ | ⟨j, l⟩⟩
    · rcases v with _ | w
      · exact ⟨_, rfl, .branch _ h⟩
      · exact ⟨_, rfl, .leaf [] w⟩
    · rcases v with _ | w
      · exact degenerateExt_rep hR (ok_child hok i) (h i) [i]
      · exact ⟨_, rfl, .branch _ h⟩
    · exact ⟨_, rfl, .branch _ h⟩

/-- Result of a removal. -/
def Deleted (K : Keccak) (S : Bytes → Prop) (x : Out (Node × Bool)) (t : PT) (p : List Nib) : Prop :=
  ∃ n b r, x.2 = .ok (n, b) ∧ Del t p r b ∧ Rep K S n r ∧ ¬ IsHash n

theorem deleteAt_branch_nil (fuel : Nat) (cs : Fin 16 → Node) (w : Option Bytes) :
    deleteAt db fuel (.branch cs w) (leafPath []) = .of (.ok (.branch cs none, true)) := by
  cases fuel <;> rfl

theorem deleteAt_branch_cons (fuel : Nat) (cs : Fin 16 → Node) (w : Option Bytes) (i : Nib) (p : List Nib) :
    deleteAt db fuel (.branch cs w) (leafPath (i :: p)) = Out.andThen (deleteAt db fuel (cs i) (leafPath p)) (fun r =>
      afterDelete db (if r.2 then .branch (fun j => if j = i then r.1 else cs j) w else .branch cs w, r.2)) := by
  have hi := i.isLt
  have h1 : i.val ≠ 16 := by omega
  cases fuel
  · simp only [deleteAt, leafPath, toNibs_cons, List.cons_append, deleteStep, h1, if_false, hi, dite_true]
  · simp only [deleteAt, leafPath, toNibs_cons, List.cons_append, deleteStep, h1, if_false, hi, dite_true]

theorem deleteAt_ext (fuel : Nat) (q p : Nibbles) (n : Node) : deleteAt db fuel (.ext q n) p =
    (if Nibbles.commonPrefix p q = q.length then
      Out.andThen (deleteAt db fuel n (p.drop q.length)) (fun r => afterDelete db (if r.2 then .ext q r.1 else .ext q n, r.2))
    else .of (.ok (.ext q n, false))) := by
  cases fuel <;> rfl

theorem deleteAt_hash (fuel : Nat) (h : H256) (p : Nibbles) : deleteAt db (fuel + 1) (.hash h) p =
    Out.andThen (Out.andThen ([h], fetch db h) (fun n => deleteAt db fuel n p)) (afterDelete db) := rfl

theorem Out.andThen_ok {α β : Type} {x : Out α} {a : α} (h : x.2 = .ok a) (f : α → Out β) : (Out.andThen x f).2 = (f a).2 := by
  unfold Out.andThen
  rw [h]

theorem afterDelete_false (n : Node) : afterDelete db (n, false) = .of (.ok (n, false)) := rfl

theorem afterDelete_true (hR : Reads K S db) {t : PT} (hok : Ok t (2 ^ 60)) {n : Node} (h : Rep K S n t) (hn : ¬ IsHash n) :
    ∃ m, (afterDelete db (n, true)).2 = .ok (m, true) ∧ Rep K S m (deg t) := by
  obtain ⟨m, h1, h2⟩ := degenerate_rep hR hok h hn
  refine ⟨m, ?_, h2⟩
  simp only [afterDelete, if_true, Out.map, h1]
  rfl

theorem degExt_shape (p : List Nib) (t : PT) : (∃ k v, degExt p t = .leaf k v) ∨ ∃ q s, degExt p t = .ext q s ∧ degExt q s = .ext q s := by
  induction t generalizing p with
  | empty => exact .inr ⟨p, .empty, rfl, rfl⟩
  | branch cs v ih => exact .inr ⟨p, .branch cs v, rfl, rfl⟩
  | leaf k v => exact .inl ⟨_, _, rfl⟩
  | ext q s ih => exact ih (p ++ q)

theorem degenerateExt_not_hash (fuel : Nat) (p : Nibbles) (n m : Node) (h : (degenerateExtAt db fuel p n).2 = .ok m) : ¬ IsHash m := by
  induction fuel generalizing p n with
  | zero =>
    induction n generalizing p with
    | empty => cases h; exact id
    | branch cs v => cases h; exact id
    | leaf k v => cases h; exact id
    | hash x => cases h
    | ext q s ih => exact ih (p ++ q) h
  | succ f ihf =>
    induction n generalizing p with
    | empty => cases h; exact id
    | branch cs v => cases h; exact id
    | leaf k v => cases h; exact id
    | ext q s ih => exact ih (p ++ q) h
    | hash x =>
      have e : degenerateExtAt db (f + 1) p (.hash x) = Out.andThen ([x], fetch db x) (fun n => degenerateExtAt db f p n) := rfl
      rw [e] at h
      rcases hx : fetch db x with e | n
      · rw [hx] at h; cases h
      · rw [hx] at h
        exact ihf p n h

theorem degenerate_not_hash {n m : Node} (hn : ¬ IsHash n) (h : (degenerate db n).2 = .ok m) : ¬ IsHash m := by
  cases n with
  | empty => cases h; exact id
  | leaf k v => cases h; exact id
  | hash x => exact absurd trivial hn
  | ext p s => exact degenerateExt_not_hash _ _ _ _ h
  | branch cs v =>
    unfold degenerate at h
    simp only at h
    split at h
    · cases h; exact id
    · exact degenerateExt_not_hash _ _ _ _ h
    · cases h; exact id

theorem afterDelete_not_hash {n m : Node} {b c : Bool} (hn : ¬ IsHash n) (h : (afterDelete db (n, b)).2 = .ok (m, c)) : ¬ IsHash m := by
  cases b with
  | false => cases h; exact hn
  | true =>
    simp only [afterDelete, if_true, Out.map] at h
    rcases hd : (degenerate db n).2 with e | m'
    · rw [hd] at h; cases h
    · rw [hd] at h
      cases h
      exact degenerate_not_hash hn hd

theorem deleteAt_held {t : PT} (hR : Reads K S db) (hok : Ok t (2 ^ 60)) (h : Held K S t)
    (ih : ∀ (n : Node) (fuel : Nat) (p : List Nib), Rep K S n t → ¬ IsHash n → p.length ≤ fuel →
      Deleted K S (deleteAt db fuel n (leafPath p)) t p)
    (fuel : Nat) (p : List Nib) (hf : p.length + 1 ≤ fuel) : Deleted K S (deleteAt db fuel (.hash (K (enc K t))) (leafPath p)) t p := by
  cases fuel with
  | zero => omega
  | succ f =>
    rw [deleteAt_hash, fetch_held hR h hok]
    obtain ⟨n, b, r, h1, h2, h3, h4⟩ := ih _ f p (rep_top h.2) (top_not_hash t) (by omega)
    have e : (Out.andThen ([K (enc K t)], Except.ok (top K t)) (fun n => deleteAt db f n (leafPath p))).2 = .ok (n, b) := by
      rw [Out.andThen_ok rfl]; exact h1
    unfold Deleted
    rw [Out.andThen_ok e]
    cases b with
    | false => exact ⟨n, false, r, rfl, h2, h3, h4⟩
    | true =>
      obtain ⟨m, h5, h6⟩ := afterDelete_true hR (ok_del h2 hok) h3 h4
      exact ⟨m, true, deg r, h5, del_deg h2, h6, afterDelete_not_hash h4 h5⟩

theorem deleteAt_node {t : PT} (hR : Reads K S db) (hok : Ok t (2 ^ 60)) (n : Node) (fuel : Nat) (p : List Nib) (h : Rep K S n t)
    (hn : ¬ IsHash n) (hf : p.length ≤ fuel) : Deleted K S (deleteAt db fuel n (leafPath p)) t p := by
  induction t generalizing n fuel p with
  | empty =>
    cases h with
    | empty =>
      have e : deleteAt db fuel .empty (leafPath p) = .of (.ok (.empty, false)) := by cases fuel <;> rfl
      rw [e]
      exact ⟨_, _, _, rfl, .empty, .empty, id⟩
    | hash => exact absurd trivial hn
  | leaf k w =>
    cases h with
    | leaf =>
      have e : deleteAt db fuel (.leaf (leafPath k) w) (leafPath p)
          = if leafPath k = leafPath p then .of (.ok (.empty, true)) else .of (.ok (.leaf (leafPath k) w, false)) := by cases fuel <;> rfl
      rw [e]
      by_cases hk : k = p
      · subst hk
        rw [if_pos rfl]
        exact ⟨_, _, _, rfl, .leafHit, .empty, id⟩
      · rw [if_neg (fun h => hk (leafPath_inj.1 h))]
        exact ⟨_, _, _, rfl, .leafMiss hk, .leaf k w, id⟩
    | hash => exact absurd trivial hn
  | ext q s ih =>
    cases h with
    | hash => exact absurd trivial hn
    | ext _ h =>
      rename_i m
      have hok' := ok_sub hok
      have hq0 : 0 < q.length := List.length_pos_iff.2 hok.1
      rw [deleteAt_ext, commonPrefix_toNibs, toNibs_length]
      by_cases hq : lcp p q = q.length
      · rw [if_pos hq]
        obtain ⟨r, rfl⟩ := lcp_eq_length.1 hq
        rw [leafPath_drop]
        rw [List.length_append] at hf
        have hdel : Deleted K S (deleteAt db fuel m (leafPath r)) s r := by
          by_cases hm : IsHash m
          · cases h with
            | hash hl h => exact deleteAt_held hR hok' h (fun n f p h hn hf => ih hok' n f p h hn hf) fuel r (by omega)
            | _ => exact hm.elim
          · exact ih hok' m fuel r h hm (by omega)
        obtain ⟨n, b, u, h1, h2, h3, h4⟩ := hdel
        unfold Deleted
        rw [Out.andThen_ok h1]
        cases b with
        | false => exact ⟨.ext (toNibs q) m, false, _, rfl, .extMiss h2, .ext q h, id⟩
        | true =>
          have hd : Del (.ext q s) (q ++ r) (deg (.ext q u)) true := .ext h2
          have hu := ok_del h2 hok'
          have : ∃ m', (afterDelete db (.ext (toNibs q) n, true)).2 = .ok (m', true) ∧ Rep K S m' (deg (.ext q u)) := by
            obtain ⟨m', h5, h6⟩ := degenerateExt_rep hR hu h3 q
            refine ⟨m', ?_, h6⟩
            simp only [afterDelete, if_true, Out.map, degenerate, h5]
            rfl
          obtain ⟨m', h5, h6⟩ := this
          exact ⟨m', true, _, h5, hd, h6, afterDelete_not_hash id h5⟩
      · rw [if_neg hq]
        exact ⟨_, _, _, rfl, .extOff (fun h => hq (lcp_eq_length.2 h)), .ext q h, id⟩
  | branch cs w ih =>
    cases h with
    | hash => exact absurd trivial hn
    | branch _ h =>
      rename_i ns
      cases p with
      | nil => rw [deleteAt_branch_nil]; exact ⟨_, _, _, rfl, .value, .branch _ h, id⟩
      | cons i r =>
        rw [deleteAt_branch_cons]
        have hok' := ok_child hok i
        have hi := h i
        simp only [List.length_cons] at hf
        have hdel : Deleted K S (deleteAt db fuel (ns i) (leafPath r)) (cs i) r := by
          by_cases hm : IsHash (ns i)
          · generalize ns i = m at *
            generalize hc : cs i = c at *
            cases hi with
            | hash hl hh =>
              subst hc
              exact deleteAt_held hR hok' hh (fun n f p h hn hf => ih i hok' n f p h hn hf) fuel r (by omega)
            | _ => exact hm.elim
          · exact ih i hok' (ns i) fuel r hi hm (by omega)
        obtain ⟨n, b, u, h1, h2, h3, h4⟩ := hdel
        unfold Deleted
        rw [Out.andThen_ok h1]
        cases b with
        | false => exact ⟨.branch ns w, false, _, rfl, .childMiss h2, .branch w h, id⟩
        | true =>
          have hb : Ok (.branch (upd cs i u) w) (2 ^ 60) := by
            refine ⟨fun j => ?_, hok.2⟩
            simp only [upd]
            split
            · rcases hok.1 i with h' | h'
              · rw [h'] at h2; cases h2
              · exact .inr ⟨h'.1, ok_del h2 h'.2⟩
            · exact hok.1 j
          have hrep : Rep K S (.branch (fun j => if j = i then n else ns j) w) (.branch (upd cs i u) w) := by
            refine .branch w fun j => ?_
            simp only [upd]
            split
            · exact h3
            · exact h j
          obtain ⟨m, h5, h6⟩ := afterDelete_true hR hb hrep id
          exact ⟨m, true, _, h5, .child h2, h6, afterDelete_not_hash id h5⟩

theorem deleteAt_root {t : PT} (hR : Reads K S db) (hok : Ok t (2 ^ 60)) {n : Node} {fuel : Nat} {p : List Nib}
    (h : RepRoot K S n t) (hf : p.length + 1 ≤ fuel) : Deleted K S (deleteAt db fuel n (leafPath p)) t p := by
  have key := fun n fuel p => deleteAt_node (n := n) (fuel := fuel) (p := p) hR hok
  have hash := fun (h : Held K S t) => deleteAt_held hR hok h key fuel p hf
  cases h with
  | hash h => exact hash h
  | node h =>
    by_cases hm : IsHash n
    · cases h with
      | hash hl h => exact hash h
      | _ => exact hm.elim
    · exact key n fuel p h hm (by omega)

end Verif.Pmt
