import Verif.Proofs.PmtIter
import Verif.Proofs.PmtFault
/-!
The iterator over a database from which nodes are missing: it visits the entries that `get` can still read.
-/

set_option autoImplicit false

namespace Verif.Pmt

open PT
open scoped Classical

variable {K : Keccak} {S : Bytes → Prop} {db : Db}

/-! ### More fuel -/

theorem getStep_mono {hop hop' : H256 → Nibbles → Res (Option Bytes)}
    (hh : ∀ h p r, hop h p = r → (∀ m, r ≠ .error (.panic m)) → hop' h p = r) {n : Node} {p : Nibbles} {r : Res (Option Bytes)}
    (h : getStep hop n p = r) (hr : ∀ m, r ≠ .error (.panic m)) : getStep hop' n p = r := by
  induction n generalizing p with
  | empty => exact h
  | leaf k v => exact h
  | ext q n ih =>
    unfold getStep at h ⊢
    split at h
    · next e => rw [if_pos e]; exact ih h
    · next e => rw [if_neg e]; exact h
  | branch cs v ih =>
    unfold getStep at h ⊢
    cases p with
    | nil => exact h
    | cons x t =>
      dsimp only at h ⊢
      by_cases e : x = 16
      · rw [if_pos e] at h ⊢; exact h
      · rw [if_neg e] at h ⊢
        by_cases e' : x < 16
        · rw [dif_pos e'] at h ⊢; exact ih _ h
        · rw [dif_neg e'] at h ⊢; exact h
  | hash x => exact hh x p r h hr

theorem getAt_succ {f : Nat} {n : Node} {p : Nibbles} {r : Res (Option Bytes)} (h : getAt db f n p = r) (hr : ∀ m, r ≠ .error (.panic m)) :
    getAt db (f + 1) n p = r := by
  induction f generalizing n p r with
  | zero => exact getStep_mono (fun x q r e h => absurd e.symm (h _)) h hr
  | succ f ih =>
    refine getStep_mono ?_ h hr
    intro x q r e hr
    cases e1 : fetch db x with
    | error y => rw [e1] at e; exact e
    | ok n => rw [e1] at e; exact ih e hr

theorem getAt_mono {f g : Nat} (hfg : f ≤ g) {n : Node} {p : Nibbles} {r : Res (Option Bytes)} (h : getAt db f n p = r)
    (hr : ∀ m, r ≠ .error (.panic m)) : getAt db g n p = r := by
  induction hfg with
  | refl => exact h
  | step _ ih => exact getAt_succ ih hr

/-! ### Entries that can be read -/

/-- The path can be read from the node. -/
def Readable (db : Db) (n : Node) (x : List Nib) : Prop := ∃ f v, getAt db f n (leafPath x) = .ok v

theorem readable_leaf (k : List Nib) (v : Bytes) (x : List Nib) : Readable db (.leaf (leafPath k) v) x := ⟨0, _, rfl⟩

theorem readable_nil (cs : Fin 16 → Node) (v : Option Bytes) : Readable db (.branch cs v) [] := ⟨0, _, getAt_branch_nil 0 cs v⟩

theorem readable_cons (cs : Fin 16 → Node) (v : Option Bytes) (i : Nib) (x : List Nib) :
    Readable db (.branch cs v) (i :: x) ↔ Readable db (cs i) x := by
  unfold Readable
  simp only [getAt_branch_cons]

theorem readable_ext (q : List Nib) (n : Node) (x : List Nib) : Readable db (.ext (toNibs q) n) (q ++ x) ↔ Readable db n x := by
  unfold Readable
  simp only [getAt_ext, if_pos (lcp_eq_length.2 ⟨x, rfl⟩), List.drop_left' (rfl : q.length = q.length)]

theorem readable_found {h : H256} {n : Node} (e : fetch db h = .ok n) (x : List Nib) : Readable db (.hash h) x ↔ Readable db n x := by
  unfold Readable
  constructor
  · rintro ⟨f, v, hv⟩
    cases f with
    | zero => cases hv
    | succ f =>
      rw [getAt_hash, e] at hv
      exact ⟨f, v, hv⟩
  · rintro ⟨f, v, hv⟩
    refine ⟨f + 1, v, ?_⟩
    rw [getAt_hash, e]
    exact hv

theorem not_readable {h : H256} (e : fetch db h = missing) (x : List Nib) : ¬ Readable db (.hash h) x := by
  rintro ⟨f, v, hv⟩
  cases f with
  | zero => cases hv
  | succ f =>
    rw [getAt_hash, e] at hv
    cases hv

/-- The entries that can be read. -/
noncomputable def left (db : Db) (n : Node) (t : PT) : List (List Nib × Bytes) := t.entries.filter (fun e => Readable db n e.1)

theorem mem_left {n : Node} {t : PT} {e : List Nib × Bytes} : e ∈ left db n t ↔ e ∈ t.entries ∧ Readable db n e.1 := by
  unfold left
  simp [List.mem_filter]

theorem left_sublist (db : Db) (n : Node) (t : PT) : (left db n t).Sublist t.entries := List.filter_sublist

/-- The pairs yielded for a node below a path. -/
noncomputable def leftOuts (db : Db) (q : List Nib) (n : Node) (t : PT) : List (Bytes × Bytes) := (left db n t).map (fun e => (pack (q ++ e.1), e.2))

theorem leftOuts_branch (q : List Nib) (ns : Fin 16 → Node) (cs : Nib → PT) (v : Option Bytes) :
    leftOuts db q (.branch ns v) (.branch cs v) = v.toList.map (fun v => (pack q, v)) ++
      (List.finRange 16).flatMap (fun i => leftOuts db (q ++ [i]) (ns i) (cs i)) := by
  simp only [leftOuts, left, PT.entries, List.filter_append, List.map_append]
  congr 1
  · cases v <;> simp [readable_nil]
  · rw [List.filter_flatMap, List.map_flatMap]
    congr 1
    funext i
    rw [List.filter_map, List.map_map]
    have : ((fun e : List Nib × Bytes => decide (Readable db (.branch ns v) e.1)) ∘ fun e : List Nib × Bytes => (i :: e.1, e.2))
        = fun e : List Nib × Bytes => decide (Readable db (ns i) e.1) := by
      funext e
      simp only [Function.comp, readable_cons]
    rw [this]
    apply List.map_congr_left
    intro e _
    simp

theorem leftOuts_ext (q p : List Nib) (n : Node) (s : PT) : leftOuts db q (.ext (toNibs p) n) (.ext p s) = leftOuts db (q ++ p) n s := by
  simp only [leftOuts, left, PT.entries, List.filter_map, List.map_map]
  have : ((fun e : List Nib × Bytes => decide (Readable db (.ext (toNibs p) n) e.1)) ∘ fun e : List Nib × Bytes => (p ++ e.1, e.2))
      = fun e : List Nib × Bytes => decide (Readable db n e.1) := by
    funext e
    simp only [Function.comp, readable_ext]
  rw [this]
  apply List.map_congr_left
  intro e _
  simp

theorem leftOuts_found (q : List Nib) {h : H256} {n : Node} (e : fetch db h = .ok n) (t : PT) :
    leftOuts db q (.hash h) t = leftOuts db q n t := by
  have : (fun x : List Nib × Bytes => decide (Readable db (.hash h) x.1)) = fun x : List Nib × Bytes => decide (Readable db n x.1) := by
    funext x
    simp only [readable_found e]
  simp only [leftOuts, left, this]

theorem leftOuts_missing (q : List Nib) {h : H256} (e : fetch db h = missing) (t : PT) : leftOuts db q (.hash h) t = [] := by
  simp [leftOuts, left, not_readable e]

theorem leftOuts_leaf (q k : List Nib) (v : Bytes) : leftOuts db q (.leaf (leafPath k) v) (.leaf k v) = [(pack (q ++ k), v)] := by
  simp [leftOuts, left, PT.entries, readable_leaf]

/-! ### The visit -/

/-- The claim about a node: what can be read of its tree is visited, and the state is as before without the node. -/
def Seen (db : Db) (n : Node) (t : PT) : Prop :=
  ∀ (q : List Nib) (rest : List (Node × Status)), Safe q t → Visits db ⟨toNibs q, (n, .start) :: rest⟩ (leftOuts db q n t) ⟨toNibs q, rest⟩

theorem seen_hash (hF : Faithful K S db) {t : PT} (h : Held K S t) (hok : Ok t (2 ^ 60)) (ht : Seen db (top K t) t) :
    Seen db (.hash (K (enc K t))) t := by
  intro q rest hs
  refine Visits.go (it1 := ⟨toNibs q, (.hash (K (enc K t)), .doing) :: rest⟩) rfl ?_
  rcases hg : db.get (K (enc K t)) with _ | c
  · have hrec : recover db (K (enc K t)) = .ok none := by
      unfold recover
      rw [hg]
    rw [leftOuts_missing q (by unfold fetch; rw [hrec])]
    refine Visits.go (it1 := ⟨toNibs q, rest⟩) ?_ (Visits.refl _)
    simp only [Iter.round, hrec]
  · have hrec : recover db (K (enc K t)) = .ok (some (top K t)) := by
      unfold recover
      rw [hg, hF _ h.1 c hg]
      simp only
      rw [decodeNode_enc hok]
      rfl
    rw [leftOuts_found q (by unfold fetch; rw [hrec])]
    refine Visits.go (it1 := ⟨toNibs q, (top K t, .start) :: rest⟩) ?_ (ht q rest hs)
    simp only [Iter.round, hrec]

theorem seen_children {cs : Fin 16 → Node} {ts : Nib → PT} {v : Option Bytes} (h : ∀ i, Seen db (cs i) (ts i)) (q : List Nib)
    (rest : List (Node × Status)) (k : Nat) (hk : k ≤ 15) :
    Visits db ⟨toNibs q, (.branch cs v, .child 0) :: rest⟩ (((List.finRange 16).take k).flatMap (fun i => leftOuts db (q ++ [i]) (cs i) (ts i)))
      ⟨toNibs q ++ (if k = 0 then [] else [k - 1]), (.branch cs v, .child k) :: rest⟩ := by
  induction k with
  | zero => simpa using Visits.refl _
  | succ k ih =>
    have e : (List.finRange 16).take (k + 1) = (List.finRange 16).take k ++ [⟨k, by omega⟩] := by
      rw [List.take_add_one, List.getElem?_eq_getElem (by simp; omega)]
      simp
    rw [e, List.flatMap_append]
    refine (ih (by omega)).trans ?_
    simp only [List.flatMap_cons, List.flatMap_nil, List.append_nil]
    refine Visits.go (it1 := ⟨toNibs (q ++ [⟨k, by omega⟩]), (cs ⟨k, by omega⟩, .start) :: (.branch cs v, .child (k + 1)) :: rest⟩) ?_ ?_
    · simp only [Iter.round, show k < 16 by omega, dite_true, Status.advance, show k < 15 by omega, if_true]
      by_cases h0 : k = 0
      · subst h0; simp
      · simp [h0]
    · have := h ⟨k, by omega⟩ (q ++ [⟨k, by omega⟩]) ((.branch cs v, .child (k + 1)) :: rest) (Safe.of_ne (by simp) _)
      simpa using this

theorem seen_branch {cs : Fin 16 → Node} {ts : Nib → PT} {v : Option Bytes} (h : ∀ i, Seen db (cs i) (ts i)) :
    Seen db (.branch cs v) (.branch ts v) := by
  intro q rest hs
  rw [leftOuts_branch]
  refine Visits.go (it1 := ⟨toNibs q, (.branch cs v, .doing) :: rest⟩) rfl ?_
  refine Visits.trans (b := ⟨toNibs q, (.branch cs v, .child 0) :: rest⟩) ?_ ?_
  · cases v with
    | none => exact Visits.go rfl (Visits.refl _)
    | some w =>
      refine Visits.pair (it1 := ⟨toNibs q, (.branch cs (some w), .child 0) :: rest⟩) ?_ (Visits.refl _)
      simp only [Iter.round, encodeRaw_toNibs (hs ts w rfl)]
      rfl
  · have e : List.finRange 16 = (List.finRange 16).take 15 ++ [15] := by decide
    rw [e, List.flatMap_append]
    refine (seen_children h q rest 15 (Nat.le_refl _)).trans ?_
    simp only [List.flatMap_cons, List.flatMap_nil, List.append_nil]
    refine Visits.go (it1 := ⟨toNibs (q ++ [15]), (cs 15, .start) :: (.branch cs v, .done) :: rest⟩) ?_ ?_
    · simp [Iter.round, Status.advance]
      rfl
    · have h1 := h 15 (q ++ [15]) ((.branch cs v, .done) :: rest) (Safe.of_ne (by simp) _)
      have h2 : Visits db ⟨toNibs (q ++ [15]), (.branch cs v, .done) :: rest⟩ [] ⟨toNibs q, rest⟩ := by
        refine Visits.go ?_ (Visits.refl _)
        simp [Iter.round, Iter.leave]
      simpa using h1.trans h2

theorem seen_ext {p : List Nib} (hp : p ≠ []) {n : Node} {t : PT} (h : Seen db n t) : Seen db (.ext (toNibs p) n) (.ext p t) := by
  intro q rest hs
  rw [leftOuts_ext]
  refine Visits.go (it1 := ⟨toNibs q, (.ext (toNibs p) n, .doing) :: rest⟩) rfl ?_
  refine Visits.go (it1 := ⟨toNibs (q ++ p), (n, .start) :: (.ext (toNibs p) n, .done) :: rest⟩) ?_ ?_
  · simp [Iter.round, Status.advance]
  · have h1 := h (q ++ p) ((.ext (toNibs p) n, .done) :: rest) (Safe.of_ne (by simp [hp]) _)
    have h2 : Visits db ⟨toNibs (q ++ p), (.ext (toNibs p) n, .done) :: rest⟩ [] ⟨toNibs q, rest⟩ := by
      refine Visits.go ?_ (Visits.refl _)
      simp only [Iter.round, Iter.leave, toNibs_append, shorten_append]
      rfl
    simpa using h1.trans h2

theorem seen_leaf (k : List Nib) (v : Bytes) : Seen db (.leaf (leafPath k) v) (.leaf k v) := by
  intro q rest hs
  rw [leftOuts_leaf]
  exact visited_leaf k v q rest hs

theorem seen_empty : Seen db .empty .empty := fun _ _ _ => Visits.go rfl (Visits.refl _)

theorem seen_rep (hF : Faithful K S db) {t : PT} (hok : Ok t (2 ^ 60)) {n : Node} (h : Rep K S n t) : Seen db n t := by
  induction t generalizing n with
  | empty =>
    cases h with
    | empty => exact seen_empty
    | hash hl h => exact seen_hash hF h hok seen_empty
  | leaf k v =>
    cases h with
    | leaf => exact seen_leaf k v
    | hash hl h => exact seen_hash hF h hok (seen_leaf k v)
  | ext p t ih =>
    have key : ∀ {n : Node}, Rep K S n (.ext p t) → ¬ IsHash n → Seen db n (.ext p t) := by
      intro n hn hh
      cases hn with
      | ext p h => exact seen_ext hok.1 (ih (ok_sub hok) h)
      | hash => exact absurd trivial hh
    by_cases hh : IsHash n
    · cases h with
      | ext => exact hh.elim
      | hash hl h => exact seen_hash hF h hok (key (rep_top h.2) (top_not_hash _))
    · exact key h hh
  | branch ts v ih =>
    have key : ∀ {n : Node}, Rep K S n (.branch ts v) → ¬ IsHash n → Seen db n (.branch ts v) := by
      intro n hn hh
      cases hn with
      | branch v h => exact seen_branch (fun i => ih i (ok_child hok i) (h i))
      | hash => exact absurd trivial hh
    by_cases hh : IsHash n
    · cases h with
      | branch => exact hh.elim
      | hash hl h => exact seen_hash hF h hok (key (rep_top h.2) (top_not_hash _))
    · exact key h hh

theorem seen_root (hF : Faithful K S db) {t : PT} (hok : Ok t (2 ^ 60)) {n : Node} (h : RepRoot K S n t) : Seen db n t := by
  cases h with
  | node h => exact seen_rep hF hok h
  | hash h => exact seen_hash hF h hok (seen_rep hF hok (rep_top h.2))

/-- Reading with the fuel of `get`. -/
theorem readable_get (hF : Faithful K S db) {t : PT} (hok : Ok t (2 ^ 60)) {n : Node} (h : RepRoot K S n t) (x : List Nib) :
    Readable db n x ↔ getAt db (hops db (leafPath x)) n (leafPath x) = .ok (t.get x) := by
  constructor
  · rintro ⟨f, v, hv⟩
    rcases getAt_faithful hF hok h (hops_ge (db := db) x) with e | e
    · exact e
    · rcases Nat.le_total f (hops db (leafPath x)) with hle | hle
      · rw [getAt_mono hle hv (fun m h => by cases h)] at e
        cases e
      · rw [getAt_mono hle e (fun m h => by cases h)] at hv
        cases hv
  · exact fun e => ⟨_, _, e⟩

end Verif.Pmt
