import Verif.Spec.PmtHeld
import Verif.Proofs.PmtIterAny
/-! Iterating ends if no walk along stored nodes is endless. -/

set_option autoImplicit false

namespace Verif.Pmt

variable {db : Db}

/-- The rounds come to an end. -/
inductive RoundsEnd (db : Db) : Iter → Prop where
  | fails {it : Iter} {e : Err} (h : it.round db = .error e) : RoundsEnd db it
  | none {it it' : Iter} (h : it.round db = .ok (.none it')) : RoundsEnd db it
  | go {it it' : Iter} (h : it.round db = .ok (.go it')) (ih : RoundsEnd db it') : RoundsEnd db it
  | pair {it it' : Iter} {k v : Bytes} (h : it.round db = .ok (.pair it' k v)) (ih : RoundsEnd db it') : RoundsEnd db it

theorem roundsEnd_done {n : Node} {rest : List (Node × Status)} (hr : ∀ nib, RoundsEnd db ⟨nib, rest⟩) (nib : Nibbles) :
    RoundsEnd db ⟨nib, (n, .done) :: rest⟩ := by
  rcases h : Iter.leave nib n with e | nib'
  · refine .fails (e := e) ?_
    simp only [Iter.round, h]
    rfl
  · refine .go (it' := ⟨nib', rest⟩) ?_ (hr nib')
    simp only [Iter.round, h]
    rfl

theorem roundsEnd_start {n : Node} {rest : List (Node × Status)} (hr : ∀ nib, RoundsEnd db ⟨nib, rest⟩)
    (h : ∀ nib, RoundsEnd db ⟨nib, (n, .doing) :: rest⟩) (nib : Nibbles) : RoundsEnd db ⟨nib, (n, .start) :: rest⟩ := by
  cases n with
  | empty => exact .go rfl (hr nib)
  | _ => exact .go rfl (h nib)

theorem roundsEnd_children {cs : Fin 16 → Node} {w : Option Bytes} {rest : List (Node × Status)} (hr : ∀ nib, RoundsEnd db ⟨nib, rest⟩)
    (hc : ∀ i rest, (∀ nib, RoundsEnd db ⟨nib, rest⟩) → ∀ nib, RoundsEnd db ⟨nib, (cs i, .start) :: rest⟩) (k : Nat) :
    ∀ i, i + k = 16 → ∀ nib, RoundsEnd db ⟨nib, (.branch cs w, .child i) :: rest⟩ := by
  induction k with
  | zero =>
    intro i hi nib
    refine .fails (e := .panic "index out of bounds") ?_
    simp [Iter.round, show ¬ i < 16 by omega]
  | succ k ih =>
    intro i hi nib
    have hlt : i < 16 := by omega
    refine .go (it' := ⟨(if i = 0 then nib else nib.dropLast) ++ [i],
      (cs ⟨i, hlt⟩, .start) :: (.branch cs w, (Status.child i).advance (.branch cs w)) :: rest⟩) ?_ ?_
    · simp [Iter.round, hlt]
    · refine hc _ _ (fun nib => ?_) _
      by_cases h : i < 15
      · simp only [Status.advance, h, if_true]
        exact ih (i + 1) (by omega) nib
      · simp only [Status.advance, h, if_false]
        exact roundsEnd_done hr nib

theorem roundsEnd_of {n : Node} (h : Spec.Ending db n) :
    ∀ rest, (∀ nib, RoundsEnd db ⟨nib, rest⟩) → ∀ nib, RoundsEnd db ⟨nib, (n, .start) :: rest⟩ := by
  induction h with
  | empty => exact fun rest hr nib => .go rfl (hr nib)
  | leaf key v =>
    refine fun rest hr => roundsEnd_start hr fun nib => ?_
    rcases h : (nib ++ key).encodeRaw with e | ⟨raw, t⟩
    · refine .fails (e := e) ?_
      simp only [Iter.round, h]
      rfl
    · refine .pair (it' := ⟨nib ++ key, (.leaf key v, .done) :: rest⟩) (k := raw) (v := v) ?_ (roundsEnd_done hr _)
      simp only [Iter.round, h]
      rfl
  | ext pre _ ih =>
    exact fun rest hr => roundsEnd_start hr fun nib => .go rfl (ih _ (fun nib => roundsEnd_done hr nib) _)
  | @branch cs w _ ih =>
    refine fun rest hr => roundsEnd_start hr fun nib => ?_
    have hc := roundsEnd_children (w := w) hr ih 16 0 rfl
    cases w with
    | none => exact .go rfl (hc nib)
    | some v =>
      rcases h : nib.encodeRaw with e | ⟨raw, t⟩
      · refine .fails (e := e) ?_
        simp only [Iter.round, h]
        rfl
      · refine .pair (it' := ⟨nib, (.branch cs (some v), .child 0) :: rest⟩) (k := raw) (v := v) ?_ (hc _)
        simp only [Iter.round, h]
        rfl
  | @hash x _ ih =>
    refine fun rest hr => roundsEnd_start hr fun nib => ?_
    rcases hg : db.get x with _ | b
    · have hrec : recover db x = .ok none := by unfold recover; rw [hg]
      refine .go (it' := ⟨nib, rest⟩) ?_ (hr nib)
      simp only [Iter.round, hrec]
    · rcases hb : decodeNode b with e' | n
      · have hrec : recover db x = .error e' := by unfold recover; rw [hg]; simp only [hb]; rfl
        cases e' with
        | err m =>
          refine .none (it' := ⟨nib, (.hash x, .done) :: rest⟩) ?_
          simp only [Iter.round, hrec]
          rfl
        | panic m =>
          refine .fails (e := .panic m) ?_
          simp only [Iter.round, hrec]
      · have hrec : recover db x = .ok (some n) := by unfold recover; rw [hg]; simp only [hb]; rfl
        refine .go (it' := ⟨nib, (n, .start) :: rest⟩) ?_ (ih b n hg hb rest hr nib)
        simp only [Iter.round, hrec]

/-- `collect` whose first call of `next` has `f` rounds. -/
def collectFrom (db : Db) (fuel : Nat) (calls f : Nat) (it : Iter) : Res (List (Bytes × Bytes)) :=
  match it.next db f with
  | .error e => .error e
  | .ok (_, none) => .ok []
  | .ok (it, some x) => do
    let l ← it.collect db fuel calls
    pure (x :: l)

theorem collectFrom_ends (hd : ∀ x n, fetch db x = .ok n → Spec.Shaped n) {it : Iter} (he : RoundsEnd db it) :
    ∀ {R : List Nib → Bytes → Prop}, Stack db it.nodes it.nibble R → ∃ N, ∀ fuel calls f, N ≤ fuel → N ≤ calls → N ≤ f →
      (∃ L, collectFrom db fuel calls f it = .ok L) ∨
      (∃ x b m, db.get x = some b ∧ decodeNode b = .error (.panic m) ∧ collectFrom db fuel calls f it = .error (.panic m)) ∨ ∃ v, R [] v := by
  induction he with
  | @fails it e h =>
    intro R hst
    refine ⟨1, fun fuel calls f _ _ hf => ?_⟩
    obtain ⟨f, rfl⟩ : ∃ g, f = g + 1 := ⟨f - 1, by omega⟩
    refine .inr ((round_fails hst h).imp ?_ id)
    rintro ⟨x, b, m, h1, h2, rfl⟩
    exact ⟨x, b, m, h1, h2, by simp only [collectFrom, Iter.next, h]⟩
  | @none it it' h =>
    intro R hst
    refine ⟨1, fun fuel calls f _ _ hf => .inl ⟨[], ?_⟩⟩
    obtain ⟨f, rfl⟩ : ∃ g, f = g + 1 := ⟨f - 1, by omega⟩
    simp only [collectFrom, Iter.next, h]
  | @go it it' h _ ih =>
    intro R hst
    cases round_kept hd hst h with
    | go hst' =>
      obtain ⟨N, hN⟩ := ih hst'
      refine ⟨N + 1, fun fuel calls f h1 h2 hf => ?_⟩
      obtain ⟨f, rfl⟩ : ∃ g, f = g + 1 := ⟨f - 1, by omega⟩
      have e : collectFrom db fuel calls (f + 1) it = collectFrom db fuel calls f it' := by
        simp only [collectFrom, Iter.next, h]
      rw [e]
      exact hN fuel calls f (by omega) (by omega) (by omega)
  | @pair it it' k v h _ ih =>
    intro R hst
    cases round_kept hd hst h with
    | pair l hst' hl hR =>
      obtain ⟨N, hN⟩ := ih hst'
      refine ⟨N + 1, fun fuel calls f h1 h2 hf => ?_⟩
      obtain ⟨f, rfl⟩ : ∃ g, f = g + 1 := ⟨f - 1, by omega⟩
      obtain ⟨calls, rfl⟩ : ∃ g, calls = g + 1 := ⟨calls - 1, by omega⟩
      have e : collectFrom db fuel (calls + 1) (f + 1) it = (do let t ← collectFrom db fuel calls fuel it'; pure ((pack l, v) :: t)) := by
        simp only [collectFrom, Iter.next, h, Iter.collect]
        rfl
      rw [e]
      rcases hN fuel calls fuel (by omega) (by omega) (by omega) with ⟨L, hL⟩ | ⟨x, b, m, h1, h2, h3⟩ | ⟨v', h1⟩
      · rw [hL]
        exact .inl ⟨_, rfl⟩
      · rw [h3]
        exact .inr (.inl ⟨x, b, m, h1, h2, rfl⟩)
      · exact .inr (.inr ⟨v', (hR _ _).2 (.inr h1)⟩)

theorem values_end (hd : ∀ x n, fetch db x = .ok n → Spec.Shaped n) {tr : Trie} (ht : Spec.Shaped tr.root) (he : Spec.Ending db tr.root) :
    ∃ N, ∀ fuel, N ≤ fuel → (∃ L, tr.values fuel db = .ok L) ∨
      (∃ x b m, db.get x = some b ∧ decodeNode b = .error (.panic m) ∧ tr.values fuel db = .error (.panic m)) ∨ ∃ v, Bears db tr.root [] v := by
  have hend : RoundsEnd db (Iter.new tr) := roundsEnd_of he [] (fun nib => .none rfl) []
  obtain ⟨N, hN⟩ := collectFrom_ends hd hend (R := Bears db tr.root)
    (.cons (R := fun _ _ => False) [] ht rfl (.nil _ fun _ _ h => h) (fun _ _ h => h.elim) fun l v => by
      constructor
      · exact fun h => .inr ⟨l, rfl, h⟩
      · rintro (h | ⟨l', rfl, h⟩)
        · exact h.elim
        · exact h)
  refine ⟨N + 1, fun fuel hf => ?_⟩
  obtain ⟨g, rfl⟩ : ∃ g, fuel = g + 1 := ⟨fuel - 1, by omega⟩
  exact hN (g + 1) g (g + 1) (by omega) (by omega) (by omega)

end Verif.Pmt
