import Verif.Proofs.Iterator
import Verif.Props.Examples
/-! Properties C16, C17 and C52: iteration. -/

set_option autoImplicit false

namespace Verif.Props
open Verif Verif.Jmt Verif.Spec
variable {D : Type}

/-- Calling `next` again and again yields exactly the pairs of the list, then `None` with the iterator left as it is
(so that every later call returns `None` as well); no call fails. -/
inductive Yields (r : Reader D) : Iter D → List (Key × Value) → Prop
  | stop {it : Iter D} (h : it.next r = .ok (none, it)) : Yields r it []
  | step {it it' : Iter D} {e : Key × Value} {l : List (Key × Value)} (h : it.next r = .ok (some (.ok e), it'))
      (hl : Yields r it' l) : Yields r it (e :: l)

/-- The list of the pairs of a map in increasing order of keys. -/
structure Listing (f : Key → Option Value) (l : List (Key × Value)) : Prop where
  sorted : l.Pairwise (fun a b => a.1 < b.1)
  mem : ∀ k x, (k, x) ∈ l ↔ f k = some x

/-- The entries of a tree with their values. -/
def withValues (f : Key → Option Value) (E : List (Key × D)) : List (Key × Value) :=
  E.filterMap (fun e => (f e.1).map (fun x => (e.1, x)))

theorem yields_of_itOk {H : Hasher D} {r : Reader D} {f : Key → Option Value} {v : Version} {t : VTree D}
    (hroot : r.getNodeOption ⟨v, []⟩ = some (t.toNode H)) (hval : ∀ k, r.getValueOption v k = f k)
    (hf : ∀ k x, (k, x) ∈ t.entries → (f k).isSome = true) (E : List (Key × D)) (it : Iter D) (h : ItOk H r f v t it E) :
    Yields r it (withValues f E) := by
  induction E generalizing it with
  | nil => exact .stop (next_nil hroot h rfl)
  | cons e E ih =>
    obtain ⟨x, it', e1, e2, e3⟩ := next_cons hroot hval hf h rfl
    have : withValues f (e :: E) = (e.1, x) :: withValues f E := by
      unfold withValues
      rw [List.filterMap_cons_some (by rw [e1]; rfl)]
    rw [this]
    exact .step e2 (ih it' e3)

theorem withValues_sorted (f : Key → Option Value) {E : List (Key × D)} (h : E.Pairwise (fun a b => a.1 < b.1)) :
    (withValues f E).Pairwise (fun a b => a.1 < b.1) := by
  unfold withValues
  rw [List.pairwise_filterMap]
  refine h.imp ?_
  intro a b hab x hx y hy
  simp only [Option.map_eq_some_iff] at hx hy
  obtain ⟨_, _, rfl⟩ := hx
  obtain ⟨_, _, rfl⟩ := hy
  exact hab

theorem mem_withValues {f : Key → Option Value} {E : List (Key × D)} {k : Key} {x : Value} :
    (k, x) ∈ withValues f E ↔ f k = some x ∧ ∃ d, (k, d) ∈ E := by
  unfold withValues
  simp only [List.mem_filterMap, Option.map_eq_some_iff, Prod.mk.injEq]
  constructor
  · rintro ⟨⟨k', d⟩, h1, x', h2, rfl, rfl⟩; exact ⟨h2, d, h1⟩
  · rintro ⟨h1, d, h2⟩; exact ⟨(k, d), h2, x, h1, rfl, rfl⟩

/-- Everything the iterator needs to know about a readable version. -/
theorem reached_good {H : Hasher D} {v0 next : Version} {ops : List Op} {s : Store D} (h : Reached H v0 ops s next) {v : Version}
    (hv : Readable v0 ops v) : Good H s.reader (contentsAt v0 ops v) [] (treeAt H v0 (commitsOf ops) v) := by
  have hfa := h.facts hv
  obtain ⟨e1, e2⟩ := h.inv
  refine ⟨hfa.hold.1, hfa.has, ?_⟩
  intro w q l hl
  have hdom := e2.inv.dom w q _ (hfa.has w q _ hl)
  have hle := VTree.at?_version_le (e2.inv.tree v hv.ge hv.lt).2.1 hl
  have hval := e2.leafValue hdom.1 (v - w) (by have := hv.lt; omega) (by rw [show w + (v - w) = v by omega]; exact hl)
  rw [show w + (v - w) = v by omega] at hval
  have hc : contentsAt v0 ops v = contents (((commitsOf ops).take (v + 1 - v0)).map Commit.updates) := by
    rw [contentsAt, ← List.map_take]
  constructor
  · rw [hc, hval]
    exact e2.getValueOption w l.keyHash
  · obtain ⟨d, hd⟩ : ∃ d, (l.keyHash, d) ∈ (treeAt H v0 (commitsOf ops) v).entries := by
      exact ⟨_, VTree.mem_entries_of_at? hl⟩
    have := (hfa.hold.2 _ _).1 hd
    cases hx : contentsAt v0 ops v l.keyHash with
    | none => rw [hx] at this; cases this
    | some _ => rfl

/-! ### C16 -/

/-- C16. Iterating version `v` from key `k` yields exactly the pairs of version `v` with key at least `k`, in strictly
increasing key order, then `None`. -/
theorem C16_iterate_from_key {H : Hasher D} {v0 next : Version} {ops : List Op} {s : Store D} (h : Reached H v0 ops s next)
    {v : Version} (hv : Readable v0 ops v) (k : Key) :
    ∃ it l, Iter.new s.reader v k = .ok it ∧ Yields s.reader it l ∧
      Listing (fun k' => if k ≤ k' then contentsAt v0 ops v k' else none) l := by
  have hfa := h.facts hv
  have hg := reached_good h hv
  have hsome : ∀ k x, (k, x) ∈ (treeAt H v0 (commitsOf ops) v).entries → (contentsAt v0 ops v k).isSome = true := by
    intro k x hm
    have := (hfa.hold.2 k x).1 hm
    cases hx : contentsAt v0 ops v k with
    | none => rw [hx] at this; cases this
    | some _ => rfl
  obtain ⟨it, e1, e2⟩ := new_spec k hg hfa.root hfa.ver
  refine ⟨it, _, e1, yields_of_itOk hfa.root hfa.value hsome _ it e2, ?_, ?_⟩
  · exact withValues_sorted _ ((VTree.entries_sorted hfa.hold.1).filter _)
  · intro k' x
    rw [mem_withValues]
    simp only [geq, List.mem_filter, decide_eq_true_eq]
    constructor
    · rintro ⟨h1, d, _, h2⟩; rw [if_pos h2]; exact h1
    · intro h1
      split at h1
      · rename_i h2
        exact ⟨h1, H.value x, (hfa.hold.2 k' _).2 (by rw [h1]; rfl), h2⟩
      · cases h1

/-! ### C17 -/

/-- C17. `new_by_index(v, i)` yields the pairs of version `v` in increasing key order with the first `i` dropped. -/
theorem C17_iterate_from_index {H : Hasher D} {v0 next : Version} {ops : List Op} {s : Store D} (h : Reached H v0 ops s next)
    {v : Version} (hv : Readable v0 ops v) :
    ∃ l, Listing (contentsAt v0 ops v) l ∧ ∀ i, ∃ it, Iter.newByIndex s.reader v i = .ok it ∧ Yields s.reader it (l.drop i) := by
  have hfa := h.facts hv
  have hg := reached_good h hv
  have hsome : ∀ k x, (k, x) ∈ (treeAt H v0 (commitsOf ops) v).entries → (contentsAt v0 ops v k).isSome = true := by
    intro k x hm
    have := (hfa.hold.2 k x).1 hm
    cases hx : contentsAt v0 ops v k with
    | none => rw [hx] at this; cases this
    | some _ => rfl
  refine ⟨withValues (contentsAt v0 ops v) (treeAt H v0 (commitsOf ops) v).entries, ⟨?_, ?_⟩, ?_⟩
  · exact withValues_sorted _ (VTree.entries_sorted hfa.hold.1)
  · intro k x
    rw [mem_withValues]
    constructor
    · rintro ⟨h1, _⟩; exact h1
    · intro h1; exact ⟨h1, H.value x, (hfa.hold.2 k _).2 (by rw [h1]; rfl)⟩
  · intro i
    obtain ⟨it, e1, e2⟩ := newByIndex_spec i hg hfa.root hfa.ver
    refine ⟨it, e1, ?_⟩
    have := yields_of_itOk hfa.root hfa.value hsome _ it e2
    have hd : ∀ (E : List (Key × D)) (i : Nat), (∀ e ∈ E, (contentsAt v0 ops v e.1).isSome = true) →
        withValues (contentsAt v0 ops v) (E.drop i) = (withValues (contentsAt v0 ops v) E).drop i := by
      intro E
      induction E with
      | nil => intro i _; simp [withValues]
      | cons e E ih =>
        intro i hE
        obtain ⟨x, hx⟩ := Option.isSome_iff_exists.1 (hE e (by simp))
        have hc : withValues (contentsAt v0 ops v) (e :: E) = (e.1, x) :: withValues (contentsAt v0 ops v) E := by
          unfold withValues
          rw [List.filterMap_cons_some (by rw [hx]; rfl)]
        cases i with
        | zero => rfl
        | succ i =>
          rw [hc, List.drop_succ_cons, List.drop_succ_cons]
          exact ih i (fun e he => hE e (List.mem_cons_of_mem _ he))
    rw [hd _ i (fun e he => hsome e.1 e.2 he)] at this
    exact this

/-- C17. `iter(v)` yields all pairs of version `v`. -/
theorem C17_iterate_all {H : Hasher D} {v0 next : Version} {ops : List Op} {s : Store D} (h : Reached H v0 ops s next)
    {v : Version} (hv : Readable v0 ops v) :
    ∃ it l, Tree.iter s.reader v = .ok it ∧ Yields s.reader it l ∧ Listing (contentsAt v0 ops v) l := by
  obtain ⟨l, h1, h2⟩ := C17_iterate_from_index h hv
  obtain ⟨it, h3, h4⟩ := h2 0
  exact ⟨it, l, h3, by simpa using h4, h1⟩

/-- Call `next` up to `n` times. -/
def collect (r : Reader D) : Nat → Iter D → List (Key × Value)
  | 0, _ => []
  | n + 1, it =>
    match it.next r with
    | .ok (some (.ok e), it') => e :: collect r n it'
    | _ => []

/-- Iterate version 1 from a key. -/
def exFrom (s : Store Term) (k : Key) : List (Key × Value) :=
  match Iter.new s.reader 1 k with
  | .ok it => collect s.reader 5 it
  | .error _ => []

/-- Two versions; the second deletes a key. -/
def exIter : List Op :=
  [.update true [[(key 0x12 1, some [1]), (key 0x15 2, some [2]), (key 0x90 0, some [3])]], .update true [[(key 0x12 1, none)]]]

-- a concrete iteration of version 1, from a key that is absent
example : ∃ s, Reached termHasher 0 exIter s 2 ∧ exFrom s (key 0x13 0) = [(key 0x15 2, [2]), (key 0x90 0, [3])] := by
  obtain ⟨s, hs⟩ := Reached.exists (v0 := 0) (ops := exIter) termHasher ⟨.inl rfl, by simp [exIter, commitsOf, Op.commits]⟩
  refine ⟨s, hs, ?_⟩
  have hd : ((runOps termHasher exIter (Store.empty, 0)).map (fun s => decide (exFrom s.1 (key 0x13 0) =
      [(key 0x15 2, [2]), (key 0x90 0, [3])]))).toOption = some true := by decide +kernel
  rw [hs.run] at hd
  exact of_decide_eq_true (Option.some.inj hd)

-- the hypotheses hold for a history with pruning
example : ∃ s it l, Reached termHasher 0 exOps s 3 ∧ Iter.new s.reader 1 (key 0x70 0) = .ok it ∧ Yields s.reader it l ∧
    (key 0x80 0, [5]) ∈ l ∧ (key 1 2, [7]) ∉ l := by
  obtain ⟨s, hs⟩ := exOps_reached
  obtain ⟨it, l, e1, e2, e3⟩ := C16_iterate_from_key hs exOps_readable1 (key 0x70 0)
  refine ⟨s, it, l, hs, e1, e2, (e3.mem _ _).2 (by decide +kernel), ?_⟩
  rw [e3.mem]; decide +kernel

example : ∃ s it l, Reached termHasher 0 exOps s 3 ∧ Tree.iter s.reader 2 = .ok it ∧ Yields s.reader it l ∧ (key 1 2, [7]) ∈ l := by
  obtain ⟨s, hs⟩ := exOps_reached
  obtain ⟨it, l, e1, e2, e3⟩ := C17_iterate_all hs exOps_readable2
  exact ⟨s, it, l, hs, e1, e2, (e3.mem _ _).2 (by decide +kernel)⟩

/-! ### C52 -/

theorem nextLoop_error {r : Reader D} {v : Version} (fuel : Nat) : ∀ (st : List (NodeVisitInfo D)) {e : Err} {it' : Iter D},
    Iter.nextLoop r v fuel st = .ok (some (.error e), it') →
    it'.version = v ∧ it'.done = false ∧ it'.parentStack ≠ [] ∧ ∀ n, Iter.nextLoop r v (n + 1) it'.parentStack = .ok (some (.error e), it') := by
  induction fuel with
  | zero => intro st e it' h; simp [Iter.nextLoop] at h
  | succ fuel ih =>
    intro st e it' h
    cases st with
    | nil => simp [Iter.nextLoop] at h
    | cons info st =>
      have h0 := h
      unfold Iter.nextLoop at h
      simp only at h
      have stuck : ∀ {e'}, it' = ⟨v, info :: st, false⟩ → e' = e →
          (∀ n, Iter.nextLoop r v (n + 1) (info :: st) = .ok (some (.error e'), ⟨v, info :: st, false⟩)) →
          it'.version = v ∧ it'.done = false ∧ it'.parentStack ≠ [] ∧
            ∀ n, Iter.nextLoop r v (n + 1) it'.parentStack = .ok (some (.error e), it') := by
        rintro e' rfl rfl hn
        exact ⟨rfl, rfl, by simp, hn⟩
      split at h
      · cases h
      · rename_i c hc
        split at h
        · cases h
        · rename_i nk hnk
          split at h
          · rename_i n hn
            split at h
            · cases h
            · exact ih _ h
          · rename_i l hl
            split at h
            · split at h
              · cases h
              · cases h
            · rename_i e' he'
              cases h
              refine stuck rfl rfl (fun n => ?_)
              unfold Iter.nextLoop
              simp only [hc, hnk, hl, he']
          · rename_i hl
            cases h
            refine stuck rfl rfl (fun n => ?_)
            unfold Iter.nextLoop
            simp only [hc, hnk, hl]
          · rename_i e' hl
            cases h
            refine stuck rfl rfl (fun n => ?_)
            unfold Iter.nextLoop
            simp only [hc, hnk, hl]

/-- C52. On any reader and from any state: when `next` yields an error, the following call either yields `None` and
leaves the iterator as it is, or yields the same error and leaves the iterator as it is. A pair is never skipped. -/
theorem C52_error_repeats (r : Reader D) (it it' : Iter D) (e : Err) (h : it.next r = .ok (some (.error e), it')) :
    it'.next r = .ok (none, it') ∨ it'.next r = .ok (some (.error e), it') := by
  unfold Iter.next at h
  split at h
  · cases h
  · rename_i hd
    split at h
    · rename_i hst
      unfold Iter.nextRoot at h
      split at h
      · simp only [Except.ok.injEq, Prod.mk.injEq] at h
        rw [← h.2]
        left
        unfold Iter.next; rfl
      · cases h
      · cases h
      · rename_i e' he'
        cases h
        right
        unfold Iter.next
        rw [if_neg hd, if_pos hst]
        unfold Iter.nextRoot
        rw [he']
    · obtain ⟨h1, h2, h3, h4⟩ := nextLoop_error _ _ h
      right
      unfold Iter.next
      rw [h2, h1]
      have : it'.parentStack.isEmpty = false := by
        cases hs : it'.parentStack with
        | nil => exact absurd hs h3
        | cons => rfl
      simp only [this, Bool.false_eq_true, if_false]
      exact h4 65

-- a reader that has lost a node: a frame above a missing child
example : ∃ (r : Reader Term) (it it' : Iter Term) (e : Err), it.next r = .ok (some (.error e), it') ∧
    it'.next r = .ok (some (.error e), it') :=
  ⟨⟨fun _ => none, fun _ _ => none⟩, ⟨0, [], false⟩, _, _, rfl, rfl⟩

end Verif.Props
