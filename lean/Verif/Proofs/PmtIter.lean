import Verif.Pmt.Iter
import Verif.Proofs.PmtProof
/-!
The iterator visits the entries of the tree in order.
-/

set_option autoImplicit false

namespace Verif.Pmt

open PT

variable {K : Keccak} {S : Bytes → Prop} {db : Db}

/-! ### Entries of a tree -/

/-- The entries of a tree, in order. -/
def PT.entries : PT → List (List Nib × Bytes)
  | .empty => []
  | .leaf k v => [(k, v)]
  | .ext q s => s.entries.map (fun e => (q ++ e.1, e.2))
  | .branch cs v => (v.toList.map (fun v => ([], v))) ++ (List.finRange 16).flatMap (fun i => (cs i).entries.map (fun e => (i :: e.1, e.2)))

theorem mem_entries (t : PT) (x : List Nib) (v : Bytes) : (x, v) ∈ t.entries ↔ t.get x = some v := by
  induction t generalizing x with
  | empty => simp [PT.entries, PT.get]
  | leaf k w =>
    simp only [PT.entries, PT.get, List.mem_singleton, Prod.mk.injEq]
    by_cases h : k = x
    · subst h; simp [eq_comm]
    · rw [if_neg h]
      constructor
      · rintro ⟨rfl, _⟩; exact absurd rfl h
      · intro h; cases h
  | ext q s ih =>
    simp only [PT.entries, PT.get, List.mem_map, Prod.mk.injEq, Prod.exists]
    constructor
    · rintro ⟨a, b, h1, rfl, rfl⟩
      rw [if_pos (lcp_eq_length.2 ⟨a, rfl⟩), List.drop_left' rfl]
      exact (ih a).1 h1
    · intro h
      split at h
      · next hp =>
        obtain ⟨r, rfl⟩ := lcp_eq_length.1 hp
        rw [List.drop_left' rfl] at h
        exact ⟨r, v, (ih r).2 h, rfl, rfl⟩
      · cases h
  | branch cs w ih =>
    simp only [PT.entries, List.mem_append, List.mem_map, List.mem_flatMap, List.mem_finRange, true_and, Prod.mk.injEq, Prod.exists, Option.mem_toList]
    cases x with
    | nil =>
      simp only [PT.get]
      constructor
      · rintro (⟨a, h, _, rfl⟩ | ⟨i, a, b, _, h, _⟩)
        · exact h
        · cases h
      · intro h; exact .inl ⟨v, h, trivial, rfl⟩
    | cons i r =>
      simp only [PT.get]
      constructor
      · rintro (⟨a, _, h, _⟩ | ⟨j, a, b, h1, h2, rfl⟩)
        · cases h
        · cases h2; exact (ih i r).1 h1
      · intro h; exact .inr ⟨i, r, v, (ih i r).2 h, rfl, rfl⟩

theorem append_lt (q : List Nib) {a b : List Nib} (h : a < b) : q ++ a < q ++ b := by
  induction q with
  | nil => exact h
  | cons x t ih => exact List.cons_lt_cons_iff.2 (.inr ⟨rfl, ih⟩)

theorem entries_sorted (t : PT) : t.entries.Pairwise (fun a b => a.1 < b.1) := by
  induction t with
  | empty => exact List.Pairwise.nil
  | leaf k v => exact List.pairwise_singleton _ _
  | ext q s ih =>
    simp only [PT.entries]
    exact List.pairwise_map.2 (ih.imp (fun h => append_lt q h))
  | branch cs v ih =>
    simp only [PT.entries]
    rw [List.pairwise_append]
    refine ⟨?_, ?_, ?_⟩
    · cases v <;> simp
    · rw [List.pairwise_flatMap]
      refine ⟨fun i _ => List.pairwise_map.2 ((ih i).imp (fun h => List.cons_lt_cons_iff.2 (.inr ⟨rfl, h⟩))), ?_⟩
      refine (List.pairwise_lt_finRange 16).imp ?_
      intro i j hij a ha b hb
      obtain ⟨a', _, rfl⟩ := List.mem_map.1 ha
      obtain ⟨b', _, rfl⟩ := List.mem_map.1 hb
      exact List.cons_lt_cons_iff.2 (.inl hij)
    · intro a ha b hb
      obtain ⟨_, _, rfl⟩ := List.mem_map.1 ha
      obtain ⟨i, _, hb⟩ := List.mem_flatMap.1 hb
      obtain ⟨b', _, rfl⟩ := List.mem_map.1 hb
      exact List.nil_lt_cons _ _

theorem nibsOf_cons (b : UInt8) (k : Bytes) :
    nibsOf (b :: k) = ⟨b.toNat / 16, by have := b.toNat_lt; omega⟩ :: ⟨b.toNat % 16, by omega⟩ :: nibsOf k := rfl

theorem lt_of_nibsOf_lt {a b : Bytes} (h : nibsOf a < nibsOf b) : a < b := by
  induction a generalizing b with
  | nil =>
    cases b with
    | nil => exact absurd h (List.lt_irrefl _)
    | cons => exact List.nil_lt_cons _ _
  | cons x s ih =>
    cases b with
    | nil => exact absurd h (List.not_lt_nil _)
    | cons y t =>
      rw [nibsOf_cons, nibsOf_cons, List.cons_lt_cons_iff, List.cons_lt_cons_iff] at h
      rw [List.cons_lt_cons_iff]
      simp only [Fin.mk_lt_mk, Fin.mk.injEq] at h
      rw [UInt8.lt_iff_toNat_lt]
      rcases h with h | ⟨h1, h | ⟨h2, h⟩⟩
      · left; omega
      · left; omega
      · exact .inr ⟨byte_ext h1 h2, ih h⟩

/-! ### Rounds -/

/-- Rounds of the iterator, with the pairs yielded on the way. -/
inductive Yields (db : Db) : Nat → Iter → List (Bytes × Bytes) → Iter → Prop
  | refl (it : Iter) : Yields db 0 it [] it
  | go {n : Nat} {it it1 it' : Iter} {l : List (Bytes × Bytes)} (h : it.round db = .ok (.go it1)) (t : Yields db n it1 l it') :
      Yields db (n + 1) it l it'
  | pair {n : Nat} {it it1 it' : Iter} {l : List (Bytes × Bytes)} {k v : Bytes} (h : it.round db = .ok (.pair it1 k v))
      (t : Yields db n it1 l it') : Yields db (n + 1) it ((k, v) :: l) it'

theorem Yields.trans {n m : Nat} {a b c : Iter} {l l' : List (Bytes × Bytes)} (h : Yields db n a l b) (h' : Yields db m b l' c) :
    Yields db (n + m) a (l ++ l') c := by
  induction h with
  | refl it => simpa using h'
  | go h t ih => rw [Nat.add_right_comm]; exact .go h (ih h')
  | pair h t ih => rw [Nat.add_right_comm]; exact .pair h (ih h')

/-- Some number of rounds. -/
def Visits (db : Db) (a : Iter) (l : List (Bytes × Bytes)) (b : Iter) : Prop := ∃ n, Yields db n a l b

theorem Visits.refl (it : Iter) : Visits db it [] it := ⟨0, .refl it⟩

theorem Visits.trans {a b c : Iter} {l l' : List (Bytes × Bytes)} (h : Visits db a l b) (h' : Visits db b l' c) : Visits db a (l ++ l') c := by
  obtain ⟨n, h⟩ := h
  obtain ⟨m, h'⟩ := h'
  exact ⟨_, h.trans h'⟩

theorem Visits.go {it it1 it' : Iter} {l : List (Bytes × Bytes)} (h : it.round db = .ok (.go it1)) (t : Visits db it1 l it') : Visits db it l it' := by
  obtain ⟨n, t⟩ := t
  exact ⟨_, .go h t⟩

theorem Visits.pair {it it1 it' : Iter} {l : List (Bytes × Bytes)} {k v : Bytes} (h : it.round db = .ok (.pair it1 k v))
    (t : Visits db it1 l it') : Visits db it ((k, v) :: l) it' := by
  obtain ⟨n, t⟩ := t
  exact ⟨_, .pair h t⟩

theorem Yields.next {n : Nat} {it it' : Iter} {l : List (Bytes × Bytes)} (h : Yields db n it l it') (he : it'.nodes = []) {fuel : Nat} (hf : n < fuel) :
    match l with
    | [] => it.next db fuel = .ok (it', none)
    | x :: t => ∃ it1 m, m ≤ n ∧ it.next db fuel = .ok (it1, some x) ∧ Yields db m it1 t it' := by
  induction h generalizing fuel with
  | refl it =>
    cases fuel with
    | zero => omega
    | succ f =>
      unfold Iter.next Iter.round
      simp only [he]
  | @go n it it1 it' l h t ih =>
    cases fuel with
    | zero => omega
    | succ f =>
      have hn : it.next db (f + 1) = it1.next db f := by
        rw [Iter.next]
        simp only [h]
      have := ih he (fuel := f) (by omega)
      cases l with
      | nil => simp only at this ⊢; rw [hn]; exact this
      | cons x l =>
        simp only at this ⊢
        obtain ⟨it2, m, h1, h2, h3⟩ := this
        exact ⟨it2, m, by omega, by rw [hn]; exact h2, h3⟩
  | @pair n it it1 it' l k v h t ih =>
    cases fuel with
    | zero => omega
    | succ f =>
      refine ⟨it1, n, by omega, ?_, t⟩
      rw [Iter.next]
      simp only [h]

theorem Yields.collect {n : Nat} {it it' : Iter} {l : List (Bytes × Bytes)} (h : Yields db n it l it') (he : it'.nodes = []) {fuel calls : Nat}
    (hf : n < fuel) (hc : l.length < calls) : it.collect db fuel calls = .ok l := by
  induction l generalizing n it calls with
  | nil =>
    cases calls with
    | zero => simp at hc
    | succ c =>
      have := h.next he hf
      unfold Iter.collect
      simp only at this
      rw [this]
  | cons x t ih =>
    cases calls with
    | zero => simp at hc
    | succ c =>
      obtain ⟨it1, m, h1, h2, h3⟩ := h.next he hf
      unfold Iter.collect
      rw [h2]
      simp only
      rw [ih h3 (by omega) (by simpa using hc)]
      rfl

/-- What a visit that ends gives. -/
theorem Visits.values {t : Trie} {it' : Iter} {l : List (Bytes × Bytes)} (h : Visits db (Iter.new t) l it') (he : it'.nodes = []) :
    ∃ N, ∀ fuel, N ≤ fuel → t.values fuel db = .ok l := by
  obtain ⟨n, h⟩ := h
  exact ⟨n + l.length + 1, fun fuel hf => h.collect he (by omega) (by omega)⟩

/-! ### The visit of a tree -/

/-- The pairs yielded for a tree below a path. -/
def outs (q : List Nib) (t : PT) : List (Bytes × Bytes) := t.entries.map (fun e => (pack (q ++ e.1), e.2))

theorem outs_branch (q : List Nib) (cs : Nib → PT) (v : Option Bytes) :
    outs q (.branch cs v) = v.toList.map (fun v => (pack q, v)) ++ (List.finRange 16).flatMap (fun i => outs (q ++ [i]) (cs i)) := by
  simp only [outs, PT.entries, List.map_append, List.map_map, List.map_flatMap]
  congr 1
  · cases v <;> simp
  · congr 1
    funext i
    apply List.map_congr_left
    intro e _
    simp

theorem outs_ext (q p : List Nib) (s : PT) : outs q (.ext p s) = outs (q ++ p) s := by
  simp only [outs, PT.entries, List.map_map]
  apply List.map_congr_left
  intro e _
  simp

/-- Not a branch with a value at the empty path. -/
def Safe (q : List Nib) (t : PT) : Prop := ∀ cs v, t = .branch cs (some v) → q ≠ []

theorem Safe.of_ne {q : List Nib} (h : q ≠ []) (t : PT) : Safe q t := fun _ _ _ => h

theorem shorten_append (a b : Nibbles) : Iter.shorten (a ++ b) b.length = .ok a := by
  unfold Iter.shorten
  rw [if_pos (by simp)]
  simp

theorem encodeRaw_leafPath (x : List Nib) : Nibbles.encodeRaw (leafPath x) = .ok (pack x, true) := by
  unfold Nibbles.encodeRaw
  rw [isLeaf_leafPath]
  simp only [Res.ok_bind, Res.pure_eq, Nibbles.body, if_true]
  rw [show (leafPath x).dropLast = toNibs x by simp [leafPath], pairs_toNibs]

theorem encodeRaw_toNibs {x : List Nib} (h : x ≠ []) : Nibbles.encodeRaw (toNibs x) = .ok (pack x, false) := by
  unfold Nibbles.encodeRaw
  rw [isLeaf_toNibs h]
  simp only [Res.ok_bind, Res.pure_eq, Nibbles.body, Bool.false_eq_true, if_false]
  rw [pairs_toNibs]

/-- The claim about a node: its tree is visited, and the state is as before without the node. -/
def Visited (db : Db) (n : Node) (t : PT) : Prop :=
  ∀ (q : List Nib) (rest : List (Node × Status)), Safe q t → Visits db ⟨toNibs q, (n, .start) :: rest⟩ (outs q t) ⟨toNibs q, rest⟩

theorem visited_hash (hR : Reads K S db) {t : PT} (h : Held K S t) (hok : Ok t (2 ^ 60)) (ht : Visited db (top K t) t) :
    Visited db (.hash (K (enc K t))) t := by
  intro q rest hs
  have hrec : recover db (K (enc K t)) = .ok (some (top K t)) := by
    unfold recover
    rw [hR _ h.1]
    simp only
    rw [decodeNode_enc hok]
    rfl
  refine Visits.go (it1 := ⟨toNibs q, (.hash (K (enc K t)), .doing) :: rest⟩) rfl ?_
  refine Visits.go (it1 := ⟨toNibs q, (top K t, .start) :: rest⟩) ?_ (ht q rest hs)
  simp only [Iter.round, hrec]

theorem visited_children {cs : Fin 16 → Node} {ts : Nib → PT} {v : Option Bytes} (h : ∀ i, Visited db (cs i) (ts i)) (q : List Nib)
    (rest : List (Node × Status)) (k : Nat) (hk : k ≤ 15) :
    Visits db ⟨toNibs q, (.branch cs v, .child 0) :: rest⟩ (((List.finRange 16).take k).flatMap (fun i => outs (q ++ [i]) (ts i)))
      ⟨toNibs q ++ (if k = 0 then [] else [k - 1]), (.branch cs v, .child k) :: rest⟩ := by
  induction k with
  | zero => simpa using Visits.refl _
  | succ k ih =>
    have e : (List.finRange 16).take (k + 1) = (List.finRange 16).take k ++ [⟨k, by omega⟩] := by
      rw [List.take_add_one, List.getElem?_eq_getElem (by simp; omega)]
      simp
    rw [e, List.flatMap_append]
    refine (ih (by omega)).trans ?_
    simp only [List.flatMap_cons, List.flatMap_nil, List.append_nil]
    refine Visits.go (it1 := ⟨toNibs (q ++ [⟨k, by omega⟩]), (cs ⟨k, by omega⟩, .start) :: (.branch cs v, .child (k + 1)) :: rest⟩) ?_ ?_
    · simp only [Iter.round, show k < 16 by omega, dite_true, Status.advance, show k < 15 by omega, if_true]
      by_cases h0 : k = 0
      · subst h0; simp
      · simp [h0]
    · have := h ⟨k, by omega⟩ (q ++ [⟨k, by omega⟩]) ((.branch cs v, .child (k + 1)) :: rest) (Safe.of_ne (by simp) _)
      simpa using this

theorem visited_branch {cs : Fin 16 → Node} {ts : Nib → PT} {v : Option Bytes} (h : ∀ i, Visited db (cs i) (ts i)) :
    Visited db (.branch cs v) (.branch ts v) := by
  intro q rest hs
  rw [outs_branch]
  refine Visits.go (it1 := ⟨toNibs q, (.branch cs v, .doing) :: rest⟩) rfl ?_
  refine Visits.trans (b := ⟨toNibs q, (.branch cs v, .child 0) :: rest⟩) ?_ ?_
  · cases v with
    | none => exact Visits.go rfl (Visits.refl _)
    | some w =>
      refine Visits.pair (it1 := ⟨toNibs q, (.branch cs (some w), .child 0) :: rest⟩) ?_ (Visits.refl _)
      simp only [Iter.round, encodeRaw_toNibs (hs ts w rfl)]
      rfl
  · have e : List.finRange 16 = (List.finRange 16).take 15 ++ [15] := by decide
    rw [e, List.flatMap_append]
    refine (visited_children h q rest 15 (Nat.le_refl _)).trans ?_
    simp only [List.flatMap_cons, List.flatMap_nil, List.append_nil]
    refine Visits.go (it1 := ⟨toNibs (q ++ [15]), (cs 15, .start) :: (.branch cs v, .done) :: rest⟩) ?_ ?_
    · simp [Iter.round, Status.advance]
      rfl
    · have h1 := h 15 (q ++ [15]) ((.branch cs v, .done) :: rest) (Safe.of_ne (by simp) _)
      have h2 : Visits db ⟨toNibs (q ++ [15]), (.branch cs v, .done) :: rest⟩ [] ⟨toNibs q, rest⟩ := by
        refine Visits.go ?_ (Visits.refl _)
        simp [Iter.round, Iter.leave]
      simpa using h1.trans h2

theorem visited_ext {p : List Nib} (hp : p ≠ []) {n : Node} {t : PT} (h : Visited db n t) : Visited db (.ext (toNibs p) n) (.ext p t) := by
  intro q rest hs
  rw [outs_ext]
  refine Visits.go (it1 := ⟨toNibs q, (.ext (toNibs p) n, .doing) :: rest⟩) rfl ?_
  refine Visits.go (it1 := ⟨toNibs (q ++ p), (n, .start) :: (.ext (toNibs p) n, .done) :: rest⟩) ?_ ?_
  · simp [Iter.round, Status.advance]
  · have h1 := h (q ++ p) ((.ext (toNibs p) n, .done) :: rest) (Safe.of_ne (by simp [hp]) _)
    have h2 : Visits db ⟨toNibs (q ++ p), (.ext (toNibs p) n, .done) :: rest⟩ [] ⟨toNibs q, rest⟩ := by
      refine Visits.go ?_ (Visits.refl _)
      simp only [Iter.round, Iter.leave, toNibs_append, shorten_append]
      rfl
    simpa using h1.trans h2

theorem visited_leaf (k : List Nib) (v : Bytes) : Visited db (.leaf (leafPath k) v) (.leaf k v) := by
  intro q rest _
  refine Visits.go (it1 := ⟨toNibs q, (.leaf (leafPath k) v, .doing) :: rest⟩) rfl ?_
  refine Visits.pair (it1 := ⟨toNibs q ++ leafPath k, (.leaf (leafPath k) v, .done) :: rest⟩) ?_ ?_
  · simp only [Iter.round, ← leafPath_append, encodeRaw_leafPath]
    rfl
  · refine Visits.go ?_ (Visits.refl _)
    simp only [Iter.round, Iter.leave, shorten_append]
    rfl

theorem visited_empty : Visited db .empty .empty := fun _ _ _ => Visits.go rfl (Visits.refl _)

theorem visited_rep (hR : Reads K S db) {t : PT} (hok : Ok t (2 ^ 60)) {n : Node} (h : Rep K S n t) : Visited db n t := by
  induction t generalizing n with
  | empty =>
    cases h with
    | empty => exact visited_empty
    | hash hl h => exact visited_hash hR h hok visited_empty
  | leaf k v =>
    cases h with
    | leaf => exact visited_leaf k v
    | hash hl h => exact visited_hash hR h hok (visited_leaf k v)
  | ext p t ih =>
    have hp : p ≠ [] := hok.1
    have hsub := ok_sub hok
    have key : ∀ {n : Node}, Rep K S n (.ext p t) → ¬ IsHash n → Visited db n (.ext p t) := by
      intro n hn hh
      cases hn with
      | ext p h => exact visited_ext hp (ih hsub h)
      | hash => exact absurd trivial hh
    by_cases hh : IsHash n
    · cases h with
      | ext => exact hh.elim
      | hash hl h => exact visited_hash hR h hok (key (rep_top h.2) (top_not_hash _))
    · exact key h hh
  | branch ts v ih =>
    have key : ∀ {n : Node}, Rep K S n (.branch ts v) → ¬ IsHash n → Visited db n (.branch ts v) := by
      intro n hn hh
      cases hn with
      | branch v h => exact visited_branch (fun i => ih i (ok_child hok i) (h i))
      | hash => exact absurd trivial hh
    by_cases hh : IsHash n
    · cases h with
      | branch => exact hh.elim
      | hash hl h => exact visited_hash hR h hok (key (rep_top h.2) (top_not_hash _))
    · exact key h hh

theorem visited_root (hR : Reads K S db) {t : PT} (hok : Ok t (2 ^ 60)) {n : Node} (h : RepRoot K S n t) : Visited db n t := by
  cases h with
  | node h => exact visited_rep hR hok h
  | hash h => exact visited_hash hR h hok (visited_rep hR hok (rep_top h.2))

/-! ### The value of the empty key -/

theorem next_panics {n : Nat} {it it' : Iter} {m : String} (h : Yields db n it [] it') (hp : it'.round db = .error (.panic m)) {fuel : Nat}
    (hf : n < fuel) : it.next db fuel = .error (.panic m) := by
  generalize hl : ([] : List (Bytes × Bytes)) = l at h
  induction h generalizing fuel with
  | refl it =>
    cases fuel with
    | zero => omega
    | succ f => rw [Iter.next]; simp only [hp]
  | go h t ih =>
    cases fuel with
    | zero => omega
    | succ f => rw [Iter.next]; simp only [h]; exact ih hp (by omega) hl
  | pair => cases hl

/-- The iterator panics on a root branch with a value. -/
theorem root_value_panics (hR : Reads K S db) {cs : Nib → PT} {v : Bytes} (hok : Ok (.branch cs (some v)) (2 ^ 60)) {n : Node}
    (h : RepRoot K S n (.branch cs (some v))) :
    ∃ N, ∀ fuel, N ≤ fuel → Iter.next db fuel ⟨[], [(n, .start)]⟩ = .error (.panic "attempt to subtract with overflow") := by
  have key : ∀ {n : Node}, Rep K S n (.branch cs (some v)) → ¬ IsHash n →
      ∃ it, Yields db 1 ⟨[], [(n, .start)]⟩ [] it ∧ it.round db = .error (.panic "attempt to subtract with overflow") := by
    intro n hn hh
    cases hn with
    | hash => exact absurd trivial hh
    | @branch ns _ _ h => exact ⟨⟨[], [(.branch ns (some v), .doing)]⟩, .go rfl (.refl _), rfl⟩
  have hash : Held K S (.branch cs (some v)) →
      ∃ N, ∀ fuel, N ≤ fuel → Iter.next db fuel ⟨[], [(.hash (K (enc K (.branch cs (some v)))), .start)]⟩
        = .error (.panic "attempt to subtract with overflow") := by
    intro hheld
    obtain ⟨it, h1, h2⟩ := key (rep_top hheld.2) (top_not_hash _)
    refine ⟨4, fun fuel hf => next_panics (n := 3) ?_ h2 (by omega)⟩
    have hrec : recover db (K (enc K (.branch cs (some v)))) = .ok (some (top K (.branch cs (some v)))) := by
      unfold recover
      rw [hR _ hheld.1]
      simp only
      rw [decodeNode_enc hok]
      rfl
    refine .go (it1 := ⟨[], [(.hash (K (enc K (.branch cs (some v)))), .doing)]⟩) rfl ?_
    refine .go (it1 := ⟨[], [(top K (.branch cs (some v)), .start)]⟩) ?_ h1
    simp only [Iter.round, hrec]
  cases h with
  | hash h => exact hash h
  | node h =>
    by_cases hh : IsHash n
    · cases h with
      | branch => exact hh.elim
      | hash hl h => exact hash h
    · obtain ⟨it, h1, h2⟩ := key h hh
      exact ⟨2, fun fuel hf => next_panics h1 h2 (by omega)⟩

end Verif.Pmt
