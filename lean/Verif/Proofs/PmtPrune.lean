import Mathlib.Algebra.BigOperators.Group.Finset.Basic
import Mathlib.Algebra.Order.BigOperators.Group.Finset
import Mathlib.Data.Fintype.BigOperators
import Verif.Proofs.PmtFault
/-!
The pruning database: which stored trees a trie refers to without having read them, and which ones its operations pass.
-/

set_option autoImplicit false

namespace Verif.Pmt

open PT
open scoped Classical

variable {K : Keccak} {S : Bytes → Prop} {db : Db}

/-- One, if `u` is the tree and is stored by hash. -/
noncomputable def here (K : Keccak) (t u : PT) : Nat := if t = u ∧ 32 ≤ (enc K t).length then 1 else 0

/-- How often `u` is stored by hash strictly below the root of a tree. -/
noncomputable def below (K : Keccak) : PT → PT → Nat
  | .ext _ s, u => here K s u + below K s u
  | .branch cs _, u => ∑ i, (here K (cs i) u + below K (cs i) u)
  | _, _ => 0

/-- How often a node that stands for a tree refers to `u` without having read it. -/
noncomputable def stored (K : Keccak) : PT → Node → PT → Nat
  | .ext _ s, .ext _ m, u => stored K s m u
  | .branch cs _, .branch ns _, u => ∑ i, stored K (cs i) (ns i) u
  | t, .hash _, u => here K t u + below K t u
  | _, _, _ => 0

theorem stored_hash (t : PT) (h : H256) (u : PT) : stored K t (.hash h) u = here K t u + below K t u := by
  cases t <;> rfl

theorem stored_branch (cs : Nib → PT) (ns : Fin 16 → Node) (v w : Option Bytes) (u : PT) :
    stored K (.branch cs v) (.branch ns w) u = ∑ i, stored K (cs i) (ns i) u := rfl

theorem stored_ref (t u : PT) (ih : stored K t (top K t) u = below K t u) :
    stored K t (if (enc K t).length < 32 then top K t else .hash (K (enc K t))) u = here K t u + below K t u := by
  by_cases hl : (enc K t).length < 32
  · rw [if_pos hl, ih, here, if_neg (fun h => by omega), Nat.zero_add]
  · rw [if_neg hl, stored_hash]

theorem stored_top (t u : PT) : stored K t (top K t) u = below K t u := by
  induction t with
  | empty => rfl
  | leaf k v => rfl
  | ext q s ih => exact stored_ref s u ih
  | branch cs v ih => exact Finset.sum_congr rfl fun i _ => stored_ref (cs i) u (ih i)

/-- The trees below a tree that is stored are stored. -/
theorem below_held {t u : PT} (hok : Ok t (2 ^ 60)) (h : Below K S t) (hu : 0 < below K t u) :
    32 ≤ (enc K u).length ∧ Held K S u ∧ Ok u (2 ^ 60) := by
  have child : ∀ {s : PT}, Ok s (2 ^ 60) → ((32 ≤ (enc K s).length → S (enc K s)) ∧ Below K S s) →
      (0 < below K s u → 32 ≤ (enc K u).length ∧ Held K S u ∧ Ok u (2 ^ 60)) → 0 < here K s u + below K s u →
      32 ≤ (enc K u).length ∧ Held K S u ∧ Ok u (2 ^ 60) := by
    intro s hs hb ih hpos
    unfold here at hpos
    split at hpos
    · next h =>
      obtain ⟨rfl, hl⟩ := h
      exact ⟨hl, ⟨hb.1 hl, hb.2⟩, hs⟩
    · exact ih (by omega)
  induction t with
  | empty => exact absurd hu (Nat.lt_irrefl 0)
  | leaf k v => exact absurd hu (Nat.lt_irrefl 0)
  | ext q s ih => exact child (ok_sub hok) h (ih (ok_sub hok) h.2) hu
  | branch cs v ih =>
    obtain ⟨i, _, hi⟩ : ∃ i ∈ Finset.univ, 0 < here K (cs i) u + below K (cs i) u := by
      by_contra hne
      push Not at hne
      have : below K (.branch cs v) u = 0 := Finset.sum_eq_zero fun i hi => Nat.le_zero.1 (hne i hi)
      omega
    exact child (ok_child hok i) (h i) (ih i (ok_child hok i) (h i).2) hi

/-- What a node refers to is stored. -/
theorem stored_held {n : Node} {t u : PT} (h : Rep K S n t) (hok : Ok t (2 ^ 60)) (hu : 0 < stored K t n u) :
    32 ≤ (enc K u).length ∧ Held K S u ∧ Ok u (2 ^ 60) := by
  induction h with
  | empty => exact absurd hu (Nat.lt_irrefl 0)
  | leaf k v => exact absurd hu (Nat.lt_irrefl 0)
  | ext p h ih => exact ih (ok_sub hok) hu
  | branch v h ih =>
    rename_i ns ts
    obtain ⟨i, _, hi⟩ : ∃ i ∈ Finset.univ, 0 < stored K (ts i) (ns i) u := by
      by_contra hne
      push Not at hne
      have : stored K (.branch ts v) (.branch ns v) u = 0 := Finset.sum_eq_zero fun i hi => Nat.le_zero.1 (hne i hi)
      omega
    exact ih i (ok_child hok i) hi
  | hash hl h =>
    rw [stored_hash] at hu
    unfold here at hu
    split at hu
    · next hh =>
      obtain ⟨rfl, _⟩ := hh
      exact ⟨hl, h, hok⟩
    · exact below_held hok h.2 (by omega)

/-- A node without hash nodes refers to nothing. -/
theorem stored_none {n : Node} {t : PT} (h : Rep K (fun _ => False) n t) (u : PT) : stored K t n u = 0 := by
  induction h with
  | empty => rfl
  | leaf k v => rfl
  | ext p h ih => exact ih
  | branch v h ih => exact Finset.sum_eq_zero fun i _ => ih i
  | hash hl h => exact h.1.elim

theorem stored_mk (p : List Nib) (t : PT) (n : Node) (u : PT) :
    stored K (mk p t) (if p = [] then n else .ext (toNibs p) n) u = stored K t n u := by
  unfold mk
  split <;> rfl

/-- Replacing one child of a branch. -/
theorem stored_upd (cs : Nib → PT) (v v' : Option Bytes) (ns : Fin 16 → Node) (i : Nib) (c : PT) (m : Node) (w w' : Option Bytes) (u : PT) :
    stored K (.branch (upd cs i c) v) (.branch (fun j => if j = i then m else ns j) w) u + stored K (cs i) (ns i) u
      = stored K (.branch cs v') (.branch ns w') u + stored K c m u := by
  have e1 := Finset.add_sum_erase Finset.univ (fun j => stored K (upd cs i c j) (if j = i then m else ns j) u) (Finset.mem_univ i)
  have e2 := Finset.add_sum_erase Finset.univ (fun j => stored K (cs j) (ns j) u) (Finset.mem_univ i)
  have e3 : ∑ j ∈ Finset.univ.erase i, stored K (upd cs i c j) (if j = i then m else ns j) u = ∑ j ∈ Finset.univ.erase i, stored K (cs j) (ns j) u := by
    refine Finset.sum_congr rfl fun j hj => ?_
    have : j ≠ i := Finset.ne_of_mem_erase hj
    simp [upd, this]
  have a1 : stored K (.branch (upd cs i c) v) (.branch (fun j => if j = i then m else ns j) w) u
      = ∑ j, stored K (upd cs i c j) (if j = i then m else ns j) u := rfl
  have a2 : stored K (.branch cs v') (.branch ns w') u = ∑ j, stored K (cs j) (ns j) u := rfl
  rw [a1, a2, ← e1, ← e2, e3]
  simp only [upd, if_true]
  omega

/-- An update of a node succeeds, passes the trees of a list, and refers no more to them, but to all others as before. -/
def Moves (K : Keccak) (S : Bytes → Prop) (x : Out Node) (t : PT) (n : Node) (t' : PT) : Prop :=
  ∃ (n' : Node) (L : List PT), x = (L.map (fun s => K (enc K s)), .ok n') ∧ Rep K S n' t' ∧ ∀ u, stored K t' n' u + L.count u = stored K t n u

theorem insertSplit_moves {i : Nib} {t : List Nib} {sub : Node} {s : PT} (h : Rep K S sub s) {p : List Nib} (hp : Apart p (i :: t))
    (v : Bytes) : ∃ n, insertSplit (toNibs (i :: t)) sub (leafPath p) v = .ok n ∧ Rep K S n (split (i :: t) s p v) ∧
      ∀ u, stored K (split (i :: t) s p v) n u = stored K s sub u := by
  have hi := i.isLt
  unfold insertSplit
  have e0 : at' (toNibs (i :: t)) 0 = .ok i.val := rfl
  rw [e0]
  simp only [Res.ok_bind, toNibs_length, List.length_cons, toNibs_cons, List.drop_one, List.tail_cons]
  have hsub : (if t.length + 1 = 1 then sub else .ext (toNibs t) sub) = (if t = [] then sub else .ext (toNibs t) sub) := by
    by_cases ht : t = []
    · subst ht; simp
    · have : t.length ≠ 0 := fun h => ht (List.length_eq_zero_iff.1 h)
      rw [if_neg (by omega), if_neg ht]
  rw [hsub]
  have eb : branchInsert (fun _ => .empty) none i.val (if t = [] then sub else .ext (toNibs t) sub)
      = .ok (fun j => if j = i then (if t = [] then sub else .ext (toNibs t) sub) else .empty, none) := by
    unfold branchInsert
    rw [if_neg (by omega), dif_pos hi]
  rw [eb]
  simp only [Res.ok_bind]
  have hbase : ∀ j, Rep K S (if j = i then (if t = [] then sub else .ext (toNibs t) sub) else .empty) (upd (fun _ => .empty) i (mk t s) j) := by
    intro j
    simp only [upd]
    split
    · exact rep_mk h
    · exact .empty
  have h0 : ∀ u, stored K (.branch (upd (fun _ => .empty) i (mk t s)) none)
      (.branch (fun j => if j = i then (if t = [] then sub else .ext (toNibs t) sub) else .empty) none) u = stored K s sub u := by
    intro u
    have e1 := stored_upd (K := K) (fun _ => .empty) none none (fun _ => .empty) i (mk t s) (if t = [] then sub else .ext (toNibs t) sub) none none u
    have e2 : stored K (.branch (fun _ => .empty) none) (.branch (fun _ => .empty) none) u = 0 := Finset.sum_eq_zero fun _ _ => rfl
    have e3 : stored K .empty .empty u = 0 := rfl
    rw [stored_mk] at e1
    omega
  cases p with
  | nil =>
    exact ⟨_, rfl, .branch (some v) hbase, h0⟩
  | cons j w =>
    have hj := j.isLt
    have ej : at' (leafPath (j :: w)) 0 = .ok j.val := rfl
    rw [ej]
    simp only [Res.ok_bind]
    rw [if_neg (by omega), dif_pos hj]
    refine ⟨_, rfl, .branch none fun l => ?_, fun u => ?_⟩
    · simp only [upd]
      split
      · exact .leaf w v
      · exact hbase l
    · have e1 := stored_upd (K := K) (upd (fun _ => .empty) i (mk t s)) none none
        (fun j => if j = i then (if t = [] then sub else .ext (toNibs t) sub) else .empty) j (.leaf w v) (.leaf (leafPath w) v) none none u
      rw [h0 u] at e1
      have e3 : stored K (.leaf w v) (.leaf (leafPath w) v) u = 0 := rfl
      have e4 : stored K (split (i :: t) s (j :: w) v) (.branch (fun l => if l = j then .leaf (leafPath w) v else
          if l = i then (if t = [] then sub else .ext (toNibs t) sub) else .empty) none) u = stored K s sub u := by
        show stored K (.branch (upd (upd (fun _ => .empty) i (mk t s)) j (.leaf w v)) none) _ u = _
        have hji : j ≠ i := by
          rcases hp with h | h | h
          · cases h
          · cases h
          · exact fun he => h (by rw [he]; rfl)
        simp only [upd, if_neg hji] at e1 ⊢
        have e5 : stored K .empty .empty u = 0 := rfl
        omega
      exact e4

theorem insertAt_moves_held {t : PT} {v : Bytes} (hR : Reads K S db) (hok : Ok t (2 ^ 60)) (h : Held K S t) (hl : 32 ≤ (enc K t).length)
    (ih : ∀ (n : Node) (fuel : Nat) (p : List Nib), Rep K S n t → ¬ IsHash n → p.length ≤ fuel →
      Moves K S (insertAt db v fuel n (leafPath p)) t n (t.insert v p))
    (fuel : Nat) (p : List Nib) (hf : p.length + 1 ≤ fuel) :
    Moves K S (insertAt db v fuel (.hash (K (enc K t))) (leafPath p)) t (.hash (K (enc K t))) (t.insert v p) := by
  cases fuel with
  | zero => omega
  | succ f =>
    rw [insertAt_hash, fetch_held hR h hok]
    obtain ⟨n, L, h1, h2, h3⟩ := ih _ f p (rep_top h.2) (top_not_hash t) (by omega)
    refine ⟨n, t :: L, ?_, h2, fun u => ?_⟩
    · simp only [Out.andThen, h1, List.map_cons, List.singleton_append]
    · have := h3 u
      rw [stored_top] at this
      rw [stored_hash, List.count_cons]
      have hh : here K t u = if t = u then 1 else 0 := by simp [here, hl]
      rw [hh]
      by_cases he : t = u
      · simp [he]; rw [he] at this; omega
      · simp [he]; exact this

theorem insertAt_moves {t : PT} {v : Bytes} (hR : Reads K S db) (hok : Ok t (2 ^ 60)) (n : Node) (fuel : Nat) (p : List Nib)
    (h : Rep K S n t) (hn : ¬ IsHash n) (hf : p.length ≤ fuel) : Moves K S (insertAt db v fuel n (leafPath p)) t n (t.insert v p) := by
  induction t generalizing n fuel p with
  | empty =>
    cases h with
    | empty => rw [insertAt_empty]; exact ⟨_, [], rfl, .leaf p v, fun u => rfl⟩
    | hash => exact absurd trivial hn
  | leaf k w =>
    cases h with
    | leaf =>
      rw [insertAt_leaf]
      obtain ⟨n, e, hr⟩ := insertLeaf_rep (K := K) (S := fun _ => False) k p w v
      exact ⟨n, [], by rw [e]; rfl, hr.mono (fun _ h => h.elim), fun u => by rw [stored_none hr]; rfl⟩
    | hash => exact absurd trivial hn
  | ext q s ih =>
    cases h with
    | hash => exact absurd trivial hn
    | ext _ h =>
      rename_i m
      have hok' := ok_sub hok
      have hq0 : 0 < q.length := List.length_pos_iff.2 hok.1
      rw [insertAt_ext, commonPrefix_toNibs, toNibs_length]
      by_cases hq : lcp p q = q.length
      · rw [if_neg (by omega), if_pos hq]
        have hq' := hq
        obtain ⟨r, rfl⟩ := lcp_eq_length.1 hq
        rw [hq']
        simp only [PT.insert, hq', if_true, leafPath_drop, List.drop_left']
        rw [List.length_append] at hf
        have : Moves K S (insertAt db v fuel m (leafPath r)) s m (s.insert v r) := by
          by_cases hm : IsHash m
          · cases h with
            | hash hl h => exact insertAt_moves_held hR hok' h hl (fun n f p h hn hf => ih hok' n f p h hn hf) fuel r (by omega)
            | _ => exact hm.elim
          · exact ih hok' m fuel r h hm (by omega)
        obtain ⟨n', L, e, h1, h2⟩ := this
        exact ⟨.ext (toNibs q) n', L, by rw [e]; rfl, .ext q h1, h2⟩
      · obtain ⟨c, p', q', rfl, rfl, h3, h4⟩ := lcp_split p q
        have hq' : q' ≠ [] := by
          rintro rfl
          exact hq (by rw [h3]; simp)
        obtain ⟨i, t, rfl⟩ := List.exists_cons_of_ne_nil hq'
        obtain ⟨n, e, hrep, hst⟩ := insertSplit_moves h h4 v
        simp only [PT.insert, hq, if_false]
        rw [h3]
        simp only [List.take_left', List.drop_left', leafPath_drop]
        by_cases hc : c = []
        · subst hc
          simp only [List.length_nil, if_true]
          refine ⟨n, [], ?_, hrep, hst⟩
          show (([], insertSplit (toNibs (i :: t)) m (leafPath p') v) : Out Node) = _
          rw [e]
          rfl
        · have hc' : c.length ≠ 0 := fun h => hc (List.length_eq_zero_iff.1 h)
          rw [if_neg hc']
          have e1 : (toNibs (c ++ i :: t)).drop c.length = toNibs (i :: t) := by
            rw [toNibs_append, List.drop_left' (toNibs_length c)]
          have e2 : (toNibs (c ++ i :: t)).take c.length = toNibs c := by
            rw [toNibs_append, List.take_left' (toNibs_length c)]
          rw [e1, e2, e]
          refine ⟨.ext (toNibs c) n, [], rfl, ?_, fun u => ?_⟩
          · have := rep_mk (p := c) hrep
            rwa [if_neg hc] at this
          · have := stored_mk (K := K) c (split (i :: t) s p' v) n u
            rw [if_neg hc] at this
            rw [this]
            exact hst u
  | branch cs w ih =>
    cases h with
    | hash => exact absurd trivial hn
    | branch _ h =>
      rename_i ns
      cases p with
      | nil => rw [insertAt_branch_nil]; exact ⟨_, [], rfl, .branch _ h, fun u => by
          simp only [PT.insert, stored_branch, List.count_nil, Nat.add_zero]⟩
      | cons i r =>
        rw [insertAt_branch_cons]
        have hok' := ok_child hok i
        have hi := h i
        simp only [List.length_cons] at hf
        have : Moves K S (insertAt db v fuel (ns i) (leafPath r)) (cs i) (ns i) ((cs i).insert v r) := by
          by_cases hm : IsHash (ns i)
          · generalize ns i = m at *
            generalize hc : cs i = c at *
            cases hi with
            | hash hl hh =>
              subst hc
              exact insertAt_moves_held hR hok' hh hl (fun n f p h hn hf => ih i hok' n f p h hn hf) fuel r (by omega)
            | _ => exact hm.elim
          · exact ih i hok' (ns i) fuel r hi hm (by omega)
        obtain ⟨n', L, e, h1, h2⟩ := this
        refine ⟨_, L, by rw [e]; rfl, .branch w fun j => ?_, fun u => ?_⟩
        · simp only [upd]
          split
          · exact h1
          · exact h j
        · have e1 := stored_upd (K := K) cs w w ns i ((cs i).insert v r) n' w w u
          have e2 := h2 u
          show stored K (.branch (upd cs i ((cs i).insert v r)) w) _ u + _ = _
          omega

/-! ### Removal -/

/-- Passing the hash node of a tree. -/
theorem count_pass {t : PT} (hl : 32 ≤ (enc K t).length) (L : List PT) (h : H256) {a : Nat} {u : PT} (hb : a + L.count u = below K t u) :
    a + (t :: L).count u = stored K t (.hash h) u := by
  rw [stored_hash, List.count_cons]
  have hh : here K t u = if t = u then 1 else 0 := by simp [here, hl]
  rw [hh]
  by_cases he : t = u
  · simp [he]; rw [he] at hb; omega
  · simp [he]; exact hb

theorem degenerateExt_moves_branch (hR : Reads K S db) {t : PT} (hok : Ok t (2 ^ 60)) (hb : IsBranch t) {n : Node} (h : Rep K S n t) (fuel : Nat)
    (hf : 1 ≤ fuel) (p : List Nib) : Moves K S (degenerateExtAt db fuel (toNibs p) n) t n (.ext p t) := by
  cases t with
  | branch cs v =>
    cases h with
    | branch _ h =>
      rename_i ns
      cases fuel with
      | zero => omega
      | succ f =>
        refine ⟨.ext (toNibs p) (.branch ns v), [], rfl, .ext p (.branch v h), fun u => ?_⟩
        show stored K (.branch cs v) (.branch ns v) u + 0 = _
        omega
    | hash hl h =>
      cases fuel with
      | zero => omega
      | succ f =>
        have e : degenerateExtAt db (f + 1) (toNibs p) (.hash (K (enc K (.branch cs v))))
          = Out.andThen ([K (enc K (.branch cs v))], fetch db (K (enc K (.branch cs v)))) (fun n => degenerateExtAt db f (toNibs p) n) := rfl
        rw [e, fetch_held hR h hok]
        have hrep := rep_top (K := K) (S := S) h.2
        refine ⟨.ext (toNibs p) (top K (.branch cs v)), [.branch cs v], ?_, .ext p hrep, fun u => count_pass hl [] _ ?_⟩
        · cases f <;> rfl
        · show stored K (.branch cs v) (top K (.branch cs v)) u + 0 = _
          rw [stored_top]
          omega
  | _ => exact hb.elim

theorem degenerateExt_moves_node (hR : Reads K S db) {t : PT} (hok : Ok t (2 ^ 60)) {n : Node} (h : Rep K S n t) (hn : ¬ IsHash n) (fuel : Nat)
    (hf : 1 ≤ fuel) (p : List Nib) : Moves K S (degenerateExtAt db fuel (toNibs p) n) t n (degExt p t) := by
  cases h with
  | hash => exact absurd trivial hn
  | empty =>
    cases fuel with
    | zero => omega
    | succ f => exact ⟨_, [], rfl, .ext p .empty, fun u => rfl⟩
  | branch v h =>
    rename_i ns ts
    cases fuel with
    | zero => omega
    | succ f =>
      refine ⟨.ext (toNibs p) (.branch ns v), [], rfl, .ext p (.branch v h), fun u => ?_⟩
      show stored K (.branch ts v) (.branch ns v) u + 0 = _
      omega
  | leaf k v =>
    cases fuel with
    | zero => omega
    | succ f =>
      refine ⟨.leaf (toNibs p ++ leafPath k) v, [], rfl, ?_, fun u => rfl⟩
      rw [← leafPath_append]
      exact .leaf (p ++ k) v
  | ext q h =>
    rename_i m s
    have e : degenerateExtAt db fuel (toNibs p) (.ext (toNibs q) m) = degenerateExtAt db fuel (toNibs (p ++ q)) m := by
      rw [toNibs_append]
      cases fuel <;> rfl
    have e2 : degExt p (.ext q s) = .ext (p ++ q) s := by
      have hb := hok.2.2.1
      cases s with
      | branch cs v => rfl
      | _ => exact hb.elim
    rw [e, e2]
    exact degenerateExt_moves_branch hR (ok_sub hok) hok.2.2.1 h fuel hf (p ++ q)

theorem degenerateExt_moves (hR : Reads K S db) {t : PT} (hok : Ok t (2 ^ 60)) {n : Node} (h : Rep K S n t) (p : List Nib) :
    Moves K S (degenerateExtAt db (db.len + 1) (toNibs p) n) t n (degExt p t) := by
  by_cases hn : IsHash n
  · cases h with
    | hash hl h =>
      have hlen := held_len hR h.1
      have e : degenerateExtAt db (db.len + 1) (toNibs p) (.hash (K (enc K t)))
        = Out.andThen ([K (enc K t)], fetch db (K (enc K t))) (fun n => degenerateExtAt db db.len (toNibs p) n) := rfl
      rw [e, fetch_held hR h hok]
      obtain ⟨m, L, h1, h2, h3⟩ := degenerateExt_moves_node hR hok (rep_top h.2) (top_not_hash t) db.len hlen p
      refine ⟨m, t :: L, ?_, h2, fun u => count_pass hl L _ ?_⟩
      · simp only [Out.andThen, h1, List.map_cons, List.singleton_append]
      · have := h3 u
        rwa [stored_top] at this
    | _ => exact hn.elim
  · exact degenerateExt_moves_node hR hok h hn _ (by omega) p

theorem stored_empty (n : Node) (u : PT) : stored K .empty n u = 0 := by
  cases n with
  | hash h =>
    rw [stored_hash]
    have : here K .empty u = 0 := if_neg (fun h => absurd h.2 (by simp [enc]))
    rw [this]
    rfl
  | _ => rfl

theorem not_used {ts : Nib → PT} {i : Nib} (h : i ∉ used ts) : ts i = .empty := by
  by_contra hne
  refine h (List.mem_filter.2 ⟨List.mem_finRange i, ?_⟩)
  cases hc : ts i with
  | empty => exact absurd hc hne
  | _ => rfl

/-- Bringing a node to normal form. -/
theorem degenerate_moves (hR : Reads K S db) {t : PT} (hok : Ok t (2 ^ 60)) {n : Node} (h : Rep K S n t) (hn : ¬ IsHash n) :
    Moves K S (degenerate db n) t n (deg t) := by
  cases h with
  | hash => exact absurd trivial hn
  | empty => exact ⟨_, [], rfl, .empty, fun u => rfl⟩
  | leaf k v => exact ⟨_, [], rfl, .leaf k v, fun u => rfl⟩
  | ext p h => exact degenerateExt_moves hR (ok_sub hok) h p
  | branch v h =>
    rename_i cs ts
    have hu := used_eq h
    have same : Moves K S (.of (.ok (.branch cs v))) (.branch ts v) (.branch cs v) (.branch ts v) :=
      ⟨.branch cs v, [], rfl, .branch v h, fun u => by rw [List.count_nil]; omega⟩
    simp only [degenerate, deg, hu]
    rcases hus : used ts with _ | ⟨i, _ | ⟨j, l⟩⟩
    · rcases v with _ | w
      · exact same
      · refine ⟨_, [], rfl, .leaf [] w, fun u => Eq.symm ?_⟩
        rw [stored_branch]
        refine Finset.sum_eq_zero fun i _ => ?_
        rw [not_used (ts := ts) (i := i) (by rw [hus]; simp), stored_empty]
    · rcases v with _ | w
      · obtain ⟨m, L, e, h1, h2⟩ := degenerateExt_moves hR (ok_child hok i) (h i) [i]
        refine ⟨m, L, e, h1, fun u => (h2 u).trans (Eq.symm ?_)⟩
        rw [stored_branch]
        refine Finset.sum_eq_single (f := fun i => stored K (ts i) (cs i) u) i (fun j _ hj => ?_) (fun h => absurd (Finset.mem_univ i) h)
        show stored K (ts j) (cs j) u = 0
        rw [not_used (ts := ts) (i := j) (by rw [hus]; simpa using hj), stored_empty]
      · exact same
    · exact same

theorem afterDelete_moves (hR : Reads K S db) {t : PT} (hok : Ok t (2 ^ 60)) {n : Node} (h : Rep K S n t) (hn : ¬ IsHash n) :
    ∃ (m : Node) (L : List PT), afterDelete db (n, true) = (L.map (fun s => K (enc K s)), .ok (m, true)) ∧ Rep K S m (deg t) ∧ ¬ IsHash m ∧
      ∀ u, stored K (deg t) m u + L.count u = stored K t n u := by
  obtain ⟨m, L, h1, h2, h3⟩ := degenerate_moves hR hok h hn
  refine ⟨m, L, ?_, h2, degenerate_not_hash (db := db) hn (by rw [h1]), h3⟩
  simp only [afterDelete, if_true, Out.map, h1]
  rfl

/-- A removal that finds something passes the trees of a list, and refers no more to them, but to all others as before. -/
def MovesDel (K : Keccak) (S : Bytes → Prop) (x : Out (Node × Bool)) (t : PT) (n : Node) (p : List Nib) : Prop :=
  (∃ n' b r, x.2 = .ok (n', b) ∧ Del t p r b) ∧
  ∀ n', x.2 = .ok (n', true) → ∃ (r : PT) (L : List PT), x.1 = L.map (fun s => K (enc K s)) ∧ Del t p r true ∧ Rep K S n' r ∧ ¬ IsHash n' ∧
    ∀ u, stored K r n' u + L.count u = stored K t n u

theorem Deleted.weak {x : Out (Node × Bool)} {t : PT} {p : List Nib} (h : Deleted K S x t p) : ∃ n' b r, x.2 = .ok (n', b) ∧ Del t p r b := by
  obtain ⟨n, b, r, h1, h2, _⟩ := h
  exact ⟨n, b, r, h1, h2⟩

theorem deleteAt_moves_held {t : PT} (hR : Reads K S db) (hok : Ok t (2 ^ 60)) (h : Held K S t) (hl : 32 ≤ (enc K t).length)
    (ih : ∀ (n : Node) (fuel : Nat) (p : List Nib), Rep K S n t → ¬ IsHash n → p.length ≤ fuel →
      MovesDel K S (deleteAt db fuel n (leafPath p)) t n p)
    (fuel : Nat) (p : List Nib) (hf : p.length + 1 ≤ fuel) :
    MovesDel K S (deleteAt db fuel (.hash (K (enc K t))) (leafPath p)) t (.hash (K (enc K t))) p := by
  refine ⟨(deleteAt_root hR hok (.hash h) hf).weak, ?_⟩
  cases fuel with
  | zero => omega
  | succ f =>
    rw [deleteAt_hash, fetch_held hR h hok]
    obtain ⟨⟨n, b, r0, h1, h2⟩, h3⟩ := ih _ f p (rep_top h.2) (top_not_hash t) (by omega)
    have e : (Out.andThen ([K (enc K t)], Except.ok (top K t)) (fun n => deleteAt db f n (leafPath p)))
        = (K (enc K t) :: (deleteAt db f (top K t) (leafPath p)).1, .ok (n, b)) := by
      simp only [Out.andThen, h1, List.singleton_append]
    intro n' hn'
    rw [e] at hn' ⊢
    rw [Out.andThen_ok rfl] at hn'
    cases b with
    | false => cases hn'
    | true =>
      obtain ⟨r, L, g1, g2, g3, g4, g5⟩ := h3 n h1
      obtain ⟨m, L', k1, k2, k3, k4⟩ := afterDelete_moves hR (ok_del g2 hok) g3 g4
      rw [k1] at hn'
      cases hn'
      refine ⟨deg r, (t :: L) ++ L', ?_, del_deg g2, k2, k3, fun u => ?_⟩
      · simp only [Out.andThen, k1, g1, List.map_append, List.map_cons, List.cons_append]
      · have a1 := g5 u
        have a2 := k4 u
        rw [stored_top] at a1
        have a3 := count_pass (K := K) hl L (K (enc K t)) (a := stored K (deg r) n' u + L'.count u) (u := u) (by omega)
        rw [List.count_append]
        omega

theorem deleteAt_moves {t : PT} (hR : Reads K S db) (hok : Ok t (2 ^ 60)) (n : Node) (fuel : Nat) (p : List Nib) (h : Rep K S n t)
    (hn : ¬ IsHash n) (hf : p.length ≤ fuel) : MovesDel K S (deleteAt db fuel n (leafPath p)) t n p := by
  refine ⟨(deleteAt_node hR hok n fuel p h hn hf).weak, ?_⟩
  induction t generalizing n fuel p with
  | empty =>
    cases h with
    | empty =>
      have e : deleteAt db fuel .empty (leafPath p) = .of (.ok (.empty, false)) := by cases fuel <;> rfl
      rw [e]
      intro n' hn'
      cases hn'
    | hash => exact absurd trivial hn
  | leaf k w =>
    cases h with
    | leaf =>
      have e : deleteAt db fuel (.leaf (leafPath k) w) (leafPath p)
          = if leafPath k = leafPath p then .of (.ok (.empty, true)) else .of (.ok (.leaf (leafPath k) w, false)) := by cases fuel <;> rfl
      rw [e]
      intro n' hn'
      by_cases hk : k = p
      · subst hk
        rw [if_pos rfl] at hn' ⊢
        cases hn'
        exact ⟨.empty, [], rfl, .leafHit, .empty, id, fun u => rfl⟩
      · rw [if_neg (fun h => hk (leafPath_inj.1 h))] at hn'
        cases hn'
    | hash => exact absurd trivial hn
  | ext q s ih =>
    cases h with
    | hash => exact absurd trivial hn
    | ext _ h =>
      rename_i m
      have hok' := ok_sub hok
      have hq0 : 0 < q.length := List.length_pos_iff.2 hok.1
      rw [deleteAt_ext, commonPrefix_toNibs, toNibs_length]
      by_cases hq : lcp p q = q.length
      · rw [if_pos hq]
        obtain ⟨r, rfl⟩ := lcp_eq_length.1 hq
        rw [leafPath_drop]
        rw [List.length_append] at hf
        have hdel : MovesDel K S (deleteAt db fuel m (leafPath r)) s m r := by
          by_cases hm : IsHash m
          · cases h with
            | hash hl h =>
              exact deleteAt_moves_held hR hok' h hl (fun n f p h hn hf => ⟨(deleteAt_node hR hok' n f p h hn hf).weak, ih hok' n f p h hn hf⟩)
                fuel r (by omega)
            | _ => exact hm.elim
          · exact ⟨(deleteAt_node hR hok' m fuel r h hm (by omega)).weak, ih hok' m fuel r h hm (by omega)⟩
        obtain ⟨⟨n, b, u0, h1, h2⟩, h3⟩ := hdel
        intro n' hn'
        rw [Out.andThen_ok h1] at hn'
        cases b with
        | false => cases hn'
        | true =>
          obtain ⟨v, L, g1, g2, g3, g4, g5⟩ := h3 n h1
          obtain ⟨m', L', k1, k2, k3⟩ := degenerateExt_moves hR (ok_del g2 hok') g3 q
          have e : afterDelete db (.ext (toNibs q) n, true) = (L'.map (fun s => K (enc K s)), .ok (m', true)) := by
            simp only [afterDelete, if_true, Out.map, degenerate, k1]
            rfl
          simp only [if_true, e] at hn'
          cases hn'
          refine ⟨_, L ++ L', ?_, .ext g2, k2, degenerateExt_not_hash _ _ _ _ (by rw [k1]), fun u => ?_⟩
          · simp only [Out.andThen, h1, g1, if_true, e, List.map_append]
          · have a1 := g5 u
            have a2 := k3 u
            rw [List.count_append]
            show stored K (degExt q v) n' u + _ = stored K s m u
            omega
      · rw [if_neg hq]
        intro n' hn'
        cases hn'
  | branch cs w ih =>
    cases h with
    | hash => exact absurd trivial hn
    | branch _ h =>
      rename_i ns
      cases p with
      | nil =>
        rw [deleteAt_branch_nil]
        intro n' hn'
        cases hn'
        exact ⟨_, [], rfl, .value, .branch _ h, id, fun u => by simp only [stored_branch, List.count_nil, Nat.add_zero]⟩
      | cons i r =>
        rw [deleteAt_branch_cons]
        have hok' := ok_child hok i
        have hi := h i
        simp only [List.length_cons] at hf
        have hdel : MovesDel K S (deleteAt db fuel (ns i) (leafPath r)) (cs i) (ns i) r := by
          by_cases hm : IsHash (ns i)
          · generalize ns i = m at *
            generalize hc : cs i = c at *
            cases hi with
            | hash hl hh =>
              subst hc
              exact deleteAt_moves_held hR hok' hh hl (fun n f p h hn hf => ⟨(deleteAt_node hR hok' n f p h hn hf).weak, ih i hok' n f p h hn hf⟩)
                fuel r (by omega)
            | _ => exact hm.elim
          · exact ⟨(deleteAt_node hR hok' (ns i) fuel r hi hm (by omega)).weak, ih i hok' (ns i) fuel r hi hm (by omega)⟩
        obtain ⟨⟨n, b, u0, h1, h2⟩, h3⟩ := hdel
        intro n' hn'
        rw [Out.andThen_ok h1] at hn'
        cases b with
        | false => cases hn'
        | true =>
          obtain ⟨v, L, g1, g2, g3, g4, g5⟩ := h3 n h1
          have hb : Ok (.branch (upd cs i v) w) (2 ^ 60) := by
            refine ⟨fun j => ?_, hok.2⟩
            simp only [upd]
            split
            · rcases hok.1 i with h' | h'
              · rw [h'] at g2; cases g2
              · exact .inr ⟨h'.1, ok_del g2 h'.2⟩
            · exact hok.1 j
          have hrep : Rep K S (.branch (fun j => if j = i then n else ns j) w) (.branch (upd cs i v) w) := by
            refine .branch w fun j => ?_
            simp only [upd]
            split
            · exact g3
            · exact h j
          obtain ⟨m', L', k1, k2, k3, k4⟩ := afterDelete_moves hR hb hrep id
          simp only [if_true, k1] at hn'
          cases hn'
          refine ⟨_, L ++ L', ?_, .child g2, k2, k3, fun u => ?_⟩
          · simp only [Out.andThen, h1, g1, if_true, k1, List.map_append]
          · have a1 := g5 u
            have a2 := k4 u
            have a3 := stored_upd (K := K) cs w w ns i v n w w u
            rw [List.count_append]
            omega

end Verif.Pmt
