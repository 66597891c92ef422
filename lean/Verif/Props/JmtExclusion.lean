import Verif.Spec.Exclusion
import Verif.Proofs.Exclusion
import Verif.Props.Examples
/-! Property C19: proofs of absence by the neighbours of a key. -/

set_option autoImplicit false

namespace Verif.Props
open Verif Verif.Jmt Verif.Spec
variable {D : Type}

/-- What an exclusion proof for `k` has to prove against `root`, for the contents `f`: the proofs in it are inclusion proofs of
the nearest keys with their values, and a missing one means that there is no key on that side. -/
def Bounds (H : Hasher D) [DecidableEq D] (root : D) (f : Key → Option Value) (k : Key) : Tree.ExclusionProof D → Prop
  | .leftmost right => (∀ b, b < k → f b = none) ∧ ∃ r, LeastAbove f k r ∧ right.verify H root r (f r) = .ok ()
  | .middle right left => (∃ l, GreatestBelow f k l ∧ left.verify H root l (f l) = .ok ()) ∧
      ∃ r, LeastAbove f k r ∧ right.verify H root r (f r) = .ok ()
  | .rightmost left => (∃ l, GreatestBelow f k l ∧ left.verify H root l (f l) = .ok ()) ∧ ∀ b, k < b → f b = none

theorem mem_entries_iff {H : Hasher D} {t : VTree D} {f : Key → Option Value} (h : Holding H t f) (k : Key) :
    (∃ x, (k, x) ∈ t.entries) ↔ (f k).isSome = true := by
  constructor
  · rintro ⟨x, hx⟩
    have := (h.2 k x).1 hx
    cases hk : f k with
    | none => rw [hk] at this; cases this
    | some y => rfl
  · intro hk
    obtain ⟨y, hy⟩ := Option.isSome_iff_exists.1 hk
    exact ⟨H.value y, (h.2 k _).2 (by rw [hy]; rfl)⟩

theorem bound_left {H : Hasher D} {t : VTree D} {f : Key → Option Value} (h : Holding H t f) {k : Key} {o : Option Key}
    (hb : Bound .left k t o) : (o = none ∧ ∀ b, b < k → f b = none) ∨ ∃ l, o = some l ∧ GreatestBelow f k l := by
  cases o with
  | none =>
    left
    refine ⟨rfl, fun b hbk => ?_⟩
    cases hfb : f b with
    | none => rfl
    | some x =>
      obtain ⟨y, hy⟩ := (mem_entries_iff h b).2 (by rw [hfb]; rfl)
      exact absurd hbk (hb _ hy)
  | some l =>
    right
    obtain ⟨h1, h2, h3⟩ := hb
    refine ⟨l, rfl, (mem_entries_iff h l).1 h1, h2, ?_⟩
    intro b hbs hbk
    obtain ⟨y, hy⟩ := (mem_entries_iff h b).2 hbs
    rcases h3 _ hy hbk with h4 | h4
    · rw [show b = l from h4]; exact fun hh => List.lt_irrefl _ hh
    · exact fun hh => List.lt_asymm (show b.bytes < l.bytes from h4) hh

theorem bound_right {H : Hasher D} {t : VTree D} {f : Key → Option Value} (h : Holding H t f) {k : Key} {o : Option Key}
    (hb : Bound .right k t o) : (o = none ∧ ∀ b, k < b → f b = none) ∨ ∃ r, o = some r ∧ LeastAbove f k r := by
  cases o with
  | none =>
    left
    refine ⟨rfl, fun b hbk => ?_⟩
    cases hfb : f b with
    | none => rfl
    | some x =>
      obtain ⟨y, hy⟩ := (mem_entries_iff h b).2 (by rw [hfb]; rfl)
      exact absurd hbk (hb _ hy)
  | some l =>
    right
    obtain ⟨h1, h2, h3⟩ := hb
    refine ⟨l, rfl, (mem_entries_iff h l).1 h1, h2, ?_⟩
    intro b hbs hbk
    obtain ⟨y, hy⟩ := (mem_entries_iff h b).2 hbs
    rcases h3 _ hy hbk with h4 | h4
    · rw [show b = l from h4]; exact fun hh => List.lt_irrefl _ hh
    · exact fun hh => List.lt_asymm (show l.bytes < b.bytes from h4) hh

/-- The parts of an exclusion proof are what `get_with_proof` returns for the nearest keys. -/
def Parts (H : Hasher D) (r : Reader D) (v : Version) (f : Key → Option Value) (k : Key) : Tree.ExclusionProof D → Prop
  | .leftmost right => (∀ b, b < k → f b = none) ∧ ∃ b, LeastAbove f k b ∧ Tree.getWithProof H r b v = .ok (f b, right)
  | .middle right left => (∃ a, GreatestBelow f k a ∧ Tree.getWithProof H r a v = .ok (f a, left)) ∧
      ∃ b, LeastAbove f k b ∧ Tree.getWithProof H r b v = .ok (f b, right)
  | .rightmost left => (∃ a, GreatestBelow f k a ∧ Tree.getWithProof H r a v = .ok (f a, left)) ∧ ∀ b, k < b → f b = none

theorem Parts.bounds {H : Hasher D} [DecidableEq D] {s : Store D} {v : Version} {f : Key → Option Value} {t : VTree D}
    (hf : VersionFacts H s v f t) {k : Key} {e : Tree.ExclusionProof D} (h : Parts H s.reader v f k e) : Bounds H (t.hash H) f k e := by
  have hver : ∀ a p, Tree.getWithProof H s.reader a v = .ok (f a, p) → p.verify H (t.hash H) a (f a) = .ok () := by
    intro a p hp
    rw [hf.getWithProof a] at hp
    cases hp
    exact proofOf_verify H hf.hold a
  cases e with
  | leftmost right => obtain ⟨h1, b, h2, h3⟩ := h; exact ⟨h1, b, h2, hver _ _ h3⟩
  | middle right left => obtain ⟨⟨a, h1, h4⟩, b, h2, h3⟩ := h; exact ⟨⟨a, h1, hver _ _ h4⟩, b, h2, hver _ _ h3⟩
  | rightmost left => obtain ⟨⟨a, h1, h4⟩, h2⟩ := h; exact ⟨⟨a, h1, hver _ _ h4⟩, h2⟩

/-- The nearest key `a` of an absent key `k` can be found in version `v`: the walk to `k` has ended at the leaf of `a`, so that the proof
of absence has this leaf, or the node where the path of `a` leaves that of `k` is stored under version `v`. -/
def Findable (H : Hasher D) (r : Reader D) (v : Version) (k a : Key) : Prop :=
  (∃ p l, Tree.getWithProof H r k v = .ok (none, p) ∧ p.leaf = some l ∧ l.keyHash = a) ∨
    ∃ q, Parting k a q ∧ (r.getNodeOption ⟨v, q⟩).isSome = true

theorem greatestBelow_unique {f : Key → Option Value} {k a b : Key} (ha : GreatestBelow f k a) (hb : GreatestBelow f k b) : a = b := by
  have h1 := ha.greatest b hb.present hb.below
  have h2 := hb.greatest a ha.present ha.below
  rcases Key.lt_tri a b with h | h | h
  · exact absurd h h1
  · exact h
  · exact absurd h h2

theorem leastAbove_unique {f : Key → Option Value} {k a b : Key} (ha : LeastAbove f k a) (hb : LeastAbove f k b) : a = b := by
  have h1 := ha.least b hb.present hb.above
  have h2 := hb.least a ha.present ha.above
  rcases Key.lt_tri a b with h | h | h
  · exact absurd h h2
  · exact h
  · exact absurd h h1

/-- All that `get_with_exclusion_proof` can do on a readable version. -/
theorem exclusion_cases' (H : Hasher D) (v0 next : Version) (ops : List Op) (s : Store D) (h : Reached H v0 ops s next)
    (v : Version) (hv : Readable v0 ops v) (k : Key) :
    (∃ x p, contentsAt v0 ops v k = some x ∧ Tree.getWithExclusionProof H s.reader k v = .ok (.present x p) ∧
      Tree.getWithProof H s.reader k v = .ok (some x, p)) ∨
    (contentsAt v0 ops v k = none ∧ (∀ a, contentsAt v0 ops v a = none) ∧
      Tree.getWithExclusionProof H s.reader k v =
        .error (.err "Cannot manufacture nonexistence proof by exclusion for the empty tree")) ∨
    (contentsAt v0 ops v k = none ∧ ∃ e, Tree.getWithExclusionProof H s.reader k v = .ok (.absent e) ∧
      Parts H s.reader v (contentsAt v0 ops v) k e ∧
      ∀ a, GreatestBelow (contentsAt v0 ops v) k a ∨ LeastAbove (contentsAt v0 ops v) k a → Findable H s.reader v k a) ∨
    (contentsAt v0 ops v k = none ∧ Tree.getWithExclusionProof H s.reader k v = .error (.err "Missing node") ∧
      ∃ a q, (GreatestBelow (contentsAt v0 ops v) k a ∨ LeastAbove (contentsAt v0 ops v) k a) ∧ ¬ Findable H s.reader v k a ∧
        Parting k a q ∧ ∀ b, (contentsAt v0 ops v b).isSome = true → q <+: b.nibbles →
          ¬ (v = v0 ∨ ∃ c, (commitsOf ops)[v - v0]? = some c ∧ ∃ x, (b, x) ∈ c.updates)) := by
  have hf := h.facts hv
  obtain ⟨hr, hkey⟩ := h.readsTree hv
  have hp := hf.getWithProof
  generalize treeAt H v0 (commitsOf ops) v = T at *
  generalize hF : contentsAt v0 ops v = f at *
  unfold Tree.getWithExclusionProof
  rw [hp k]
  simp only [Res.ok_bind]
  cases hk : f k with
  | some x =>
    left
    exact ⟨x, _, rfl, rfl, rfl⟩
  | none =>
    right
    simp only
    by_cases hne : T = .empty
    · left
      refine ⟨trivial, ?_, ?_⟩
      · intro a
        cases ha : f a with
        | none => rfl
        | some x =>
          obtain ⟨y, hy⟩ := (mem_entries_iff hf.hold a).2 (by rw [ha]; rfl)
          rw [hne] at hy
          simp [VTree.entries] at hy
      · have := hf.root
        rw [hne] at this
        have e : Tree.searchForClosestNode s.reader v k =
            .error (.err "Cannot manufacture nonexistence proof by exclusion for the empty tree") := by
          unfold Tree.searchForClosestNode Tree.searchLoop NodeKey.newEmptyPath
          rw [this]
          rfl
        unfold Tree.getBoundingPath
        rw [e]
        rfl
    · right
      have hka : ∀ x, (k, x) ∉ T.entries := by
        intro x hx
        have := (mem_entries_iff hf.hold k).1 ⟨x, hx⟩
        rw [hk] at this; cases this
      have hfound : ∀ a, FoundAt s.reader v k a ↔ ∃ p l, Tree.getWithProof H s.reader k v = .ok (none, p) ∧ p.leaf = some l ∧ l.keyHash = a := by
        intro a
        have hpk := hp k
        rw [hk] at hpk
        rw [foundAt_iff hr hne hpk]
        constructor
        · rintro ⟨l, h1, h2⟩; exact ⟨_, l, hpk, h1, h2⟩
        · rintro ⟨p, l, h1, h2, h3⟩
          rw [hpk] at h1
          cases h1
          exact ⟨l, h2, h3⟩
      rcases bounding_spec hr hne hka with ⟨a, b, e1, e2, e3, e4⟩ | ⟨e1, e, a, q, e2, e3, e4, e5, e6⟩
      · left
        refine ⟨trivial, ?_⟩
        rw [e1]
        simp only [Res.ok_bind]
        simp only [hfound] at e4
        rcases bound_left hf.hold e2 with ⟨rfl, h2⟩ | ⟨l, rfl, h2⟩ <;> rcases bound_right hf.hold e3 with ⟨rfl, h3⟩ | ⟨r, rfl, h3⟩
        · exfalso
          obtain ⟨y, hy⟩ : ∃ y, y ∈ T.entries := by
            rcases hl : T.entries with _ | ⟨y, l⟩
            · exact absurd ((VTree.entries_eq_nil hr.wf).1 hl) hne
            · exact ⟨y, by simp⟩
          have hy' := (mem_entries_iff hf.hold y.1).1 ⟨y.2, hy⟩
          rcases Key.lt_tri y.1 k with hlt | heq | hgt
          · rw [h2 _ hlt] at hy'; cases hy'
          · rw [heq, hk] at hy'; cases hy'
          · rw [h3 _ hgt] at hy'; cases hy'
        · simp only
          rw [hp r]
          refine ⟨_, rfl, ⟨h2, r, h3, hp r⟩, ?_⟩
          rintro c (hc | hc)
          · have := hc.present
            rw [h2 c hc.below] at this; cases this
          · exact e4 c (.inr (by rw [leastAbove_unique hc h3]))
        · simp only
          rw [hp l]
          refine ⟨_, rfl, ⟨⟨l, h2, hp l⟩, h3⟩, ?_⟩
          rintro c (hc | hc)
          · exact e4 c (.inl (by rw [greatestBelow_unique hc h2]))
          · have := hc.present
            rw [h3 c hc.above] at this; cases this
        · simp only
          rw [hp l, hp r]
          refine ⟨_, rfl, ⟨⟨l, h2, hp l⟩, r, h3, hp r⟩, ?_⟩
          rintro c (hc | hc)
          · exact e4 c (.inl (by rw [greatestBelow_unique hc h2]))
          · exact e4 c (.inr (by rw [leastAbove_unique hc h3]))
      · right
        refine ⟨trivial, ?_, a, q, ?_, ?_, e4, ?_⟩
        · rw [e1]; rfl
        · cases e with
          | left =>
            rcases bound_left hf.hold e2 with ⟨h1, _⟩ | ⟨l, h1, h2⟩
            · cases h1
            · cases h1; exact .inl h2
          | right =>
            rcases bound_right hf.hold e2 with ⟨h1, _⟩ | ⟨l, h1, h2⟩
            · cases h1
            · cases h1; exact .inr h2
        · rintro (h1 | ⟨q', h1, h2⟩)
          · exact e3 ((hfound a).2 h1)
          · rw [e4.unique h1] at e5
            rw [e5] at h2; cases h2
        · intro b hb hqb hh
          obtain ⟨x, hx⟩ := (mem_entries_iff hf.hold b).2 hb
          exact e6 b x hx hqb (hkey b hh)

theorem Parting.prefix {k a : Key} {q : List Nibble} (h : Parting k a q) : q <+: a.nibbles := by
  obtain ⟨p, i, j, rfl, h2, -, -⟩ := h
  exact h2

theorem exclusion_cases (H : Hasher D) (v0 next : Version) (ops : List Op) (s : Store D) (h : Reached H v0 ops s next)
    (v : Version) (hv : Readable v0 ops v) (k : Key) :
    (∃ x p, contentsAt v0 ops v k = some x ∧ Tree.getWithExclusionProof H s.reader k v = .ok (.present x p) ∧
      Tree.getWithProof H s.reader k v = .ok (some x, p)) ∨
    (contentsAt v0 ops v k = none ∧ (∀ a, contentsAt v0 ops v a = none) ∧
      Tree.getWithExclusionProof H s.reader k v =
        .error (.err "Cannot manufacture nonexistence proof by exclusion for the empty tree")) ∨
    (contentsAt v0 ops v k = none ∧ ∃ e, Tree.getWithExclusionProof H s.reader k v = .ok (.absent e) ∧
      Parts H s.reader v (contentsAt v0 ops v) k e) ∨
    (contentsAt v0 ops v k = none ∧ Tree.getWithExclusionProof H s.reader k v = .error (.err "Missing node") ∧
      ∃ a, (GreatestBelow (contentsAt v0 ops v) k a ∨ LeastAbove (contentsAt v0 ops v) k a) ∧
        ¬ (v = v0 ∨ ∃ c, (commitsOf ops)[v - v0]? = some c ∧ ∃ x, (a, x) ∈ c.updates)) := by
  rcases exclusion_cases' H v0 next ops s h v hv k with h1 | h1 | ⟨h1, e, h2, h3, _⟩ | ⟨h1, h2, a, q, h3, _, h4, h5⟩
  · exact .inl h1
  · exact .inr (.inl h1)
  · exact .inr (.inr (.inl ⟨h1, e, h2, h3⟩))
  · refine .inr (.inr (.inr ⟨h1, h2, a, h3, h5 a ?_ (Parting.prefix h4)⟩))
    rcases h3 with h3 | h3 <;> exact h3.present

/-- **C19**, soundness. Whatever `get_with_exclusion_proof` answers on a readable version is right: a value is the key's value,
with a proof that verifies; an exclusion proof is given only for an absent key, and its parts are inclusion proofs, verifying
against the root hash, of the nearest keys on both sides (on one side only if there is no key on the other). -/
theorem C19_answers_right (H : Hasher D) [DecidableEq D] (v0 next : Version) (ops : List Op) (s : Store D) (h : Reached H v0 ops s next)
    (v : Version) (hv : Readable v0 ops v) (k : Key) (a : Tree.Answer D) (ha : Tree.getWithExclusionProof H s.reader k v = .ok a) :
    ∃ root, Tree.getRootHash H s.reader v = .ok root ∧
      match a with
      | .present x p => contentsAt v0 ops v k = some x ∧ p.verify H root k (some x) = .ok ()
      | .absent e => contentsAt v0 ops v k = none ∧ Bounds H root (contentsAt v0 ops v) k e := by
  have hf := h.facts hv
  rcases exclusion_cases H v0 next ops s h v hv k with ⟨x, p, h1, h2, h3⟩ | ⟨_, _, h2⟩ | ⟨h1, e, h2, h3⟩ | ⟨_, h2, _⟩
  · rw [h2] at ha; cases ha
    refine ⟨_, hf.getRootHash, h1, ?_⟩
    have := proofOf_verify H hf.hold k
    rw [hf.getWithProof k, h1] at h3
    cases h3
    rw [← h1]; exact this
  · rw [h2] at ha; cases ha
  · rw [h2] at ha; cases ha; exact ⟨_, hf.getRootHash, h1, h3.bounds hf⟩
  · rw [h2] at ha; cases ha

/-- **C19**, for present keys: the call succeeds with the value. -/
theorem C19_present (H : Hasher D) (v0 next : Version) (ops : List Op) (s : Store D) (h : Reached H v0 ops s next)
    (v : Version) (hv : Readable v0 ops v) (k : Key) (x : Value) (hk : contentsAt v0 ops v k = some x) :
    ∃ p, Tree.getWithExclusionProof H s.reader k v = .ok (.present x p) := by
  rcases exclusion_cases H v0 next ops s h v hv k with ⟨x', p, h1, h2, _⟩ | ⟨h1, _⟩ | ⟨h1, _⟩ | ⟨h1, _⟩
  · rw [h1] at hk; cases hk; exact ⟨p, h2⟩
  · rw [h1] at hk; cases hk
  · rw [h1] at hk; cases hk
  · rw [h1] at hk; cases hk

/-- **C19**, totality: on a readable version the call never panics. It fails for an absent key only, with one of two errors:
for the empty tree, and when a neighbour's part of the tree is older than the version asked for. -/
theorem C19_total (H : Hasher D) (v0 next : Version) (ops : List Op) (s : Store D) (h : Reached H v0 ops s next)
    (v : Version) (hv : Readable v0 ops v) (k : Key) (e : Err) (he : Tree.getWithExclusionProof H s.reader k v = .error e) :
    contentsAt v0 ops v k = none ∧
      ((e = .err "Cannot manufacture nonexistence proof by exclusion for the empty tree" ∧ ∀ a, contentsAt v0 ops v a = none) ∨
       (e = .err "Missing node" ∧ v ≠ v0)) := by
  rcases exclusion_cases H v0 next ops s h v hv k with ⟨x', p, h1, h2, _⟩ | ⟨h1, h3, h2⟩ | ⟨h1, e', h2, _⟩ | ⟨h1, h2, a, _, h3⟩
  · rw [h2] at he; cases he
  · rw [h2] at he; cases he; exact ⟨h1, .inl ⟨rfl, h3⟩⟩
  · rw [h2] at he; cases he
  · rw [h2] at he; cases he; exact ⟨h1, .inr ⟨rfl, fun hh => h3 (.inl hh)⟩⟩

/-- **C19**, partial: for an absent key of a non-empty readable version the exclusion proof exists and is right, provided that the
nearest key on each side (where there is one) was written by the commit of that very version, or the version is the first one.
The full statement has no such condition; it is false, see `C19_older_neighbour_false`. -/
theorem C19_exclusion_partial (H : Hasher D) [DecidableEq D] (v0 next : Version) (ops : List Op) (s : Store D)
    (h : Reached H v0 ops s next) (v : Version) (hv : Readable v0 ops v) (k : Key) (hk : contentsAt v0 ops v k = none)
    (hne : ∃ a, (contentsAt v0 ops v a).isSome = true)
    (hnew : v = v0 ∨ ∃ c, (commitsOf ops)[v - v0]? = some c ∧
      ∀ a, GreatestBelow (contentsAt v0 ops v) k a ∨ LeastAbove (contentsAt v0 ops v) k a → ∃ x, (a, x) ∈ c.updates) :
    ∃ e root, Tree.getWithExclusionProof H s.reader k v = .ok (.absent e) ∧ Tree.getRootHash H s.reader v = .ok root ∧
      Bounds H root (contentsAt v0 ops v) k e := by
  rcases exclusion_cases H v0 next ops s h v hv k with ⟨x', p, h1, h2, _⟩ | ⟨h1, h3, h2⟩ | ⟨h1, e, h2, h3⟩ | ⟨h1, h2, a, h4, h3⟩
  · rw [h1] at hk; cases hk
  · obtain ⟨a, ha⟩ := hne
    rw [h3 a] at ha; cases ha
  · have hf := h.facts hv
    exact ⟨e, _, h2, hf.getRootHash, h3.bounds hf⟩
  · refine absurd ?_ h3
    rcases hnew with hnew | ⟨c, hc, hall⟩
    · exact .inl hnew
    · exact .inr ⟨c, hc, hall a h4⟩

/-- **C19**, exactly when it fails: for an absent key of a non-empty readable version there is an exclusion proof if and only if the nearest
keys on both sides (where there are any) can be found: the plain proof of absence ends at the leaf of the neighbour, or the node where
the neighbour's path leaves that of the key was written by the commit of this very version. -/
theorem C19_exact (H : Hasher D) (v0 next : Version) (ops : List Op) (s : Store D)
    (h : Reached H v0 ops s next) (v : Version) (hv : Readable v0 ops v) (k : Key) (hk : contentsAt v0 ops v k = none)
    (hne : ∃ a, (contentsAt v0 ops v a).isSome = true) :
    (∃ e, Tree.getWithExclusionProof H s.reader k v = .ok (.absent e)) ↔
      ∀ a, GreatestBelow (contentsAt v0 ops v) k a ∨ LeastAbove (contentsAt v0 ops v) k a →
        (∃ p l, Tree.getWithProof H s.reader k v = .ok (none, p) ∧ p.leaf = some l ∧ l.keyHash = a) ∨
        ∃ q, Parting k a q ∧ (s.nodes.get ⟨v, q⟩).isSome = true := by
  rcases exclusion_cases' H v0 next ops s h v hv k with ⟨x', p, h1, h2, _⟩ | ⟨h1, h3, h2⟩ | ⟨h1, e, h2, h3, h4⟩ | ⟨h1, h2, a, q, h4, h3, _⟩
  · rw [h1] at hk; cases hk
  · obtain ⟨a, ha⟩ := hne
    rw [h3 a] at ha; cases ha
  · exact ⟨fun _ => h4, fun _ => ⟨e, h2⟩⟩
  · constructor
    · rintro ⟨e, he⟩
      rw [h2] at he; cases he
    · intro hall
      exact absurd (hall a h4) h3

/-- **C19**, partial, with a weaker condition than `C19_exclusion_partial`: it is enough that the commit of the version has written some
key that is present and whose path begins like that of the neighbour up to where this leaves the path of the missing key. -/
theorem C19_written_partial (H : Hasher D) [DecidableEq D] (v0 next : Version) (ops : List Op) (s : Store D)
    (h : Reached H v0 ops s next) (v : Version) (hv : Readable v0 ops v) (k : Key) (hk : contentsAt v0 ops v k = none)
    (hne : ∃ a, (contentsAt v0 ops v a).isSome = true) (c : Commit) (hc : (commitsOf ops)[v - v0]? = some c)
    (hnew : ∀ a q, GreatestBelow (contentsAt v0 ops v) k a ∨ LeastAbove (contentsAt v0 ops v) k a → Parting k a q →
      ∃ b x, (contentsAt v0 ops v b).isSome = true ∧ q <+: b.nibbles ∧ (b, x) ∈ c.updates) :
    ∃ e root, Tree.getWithExclusionProof H s.reader k v = .ok (.absent e) ∧ Tree.getRootHash H s.reader v = .ok root ∧
      Bounds H root (contentsAt v0 ops v) k e := by
  rcases exclusion_cases' H v0 next ops s h v hv k with ⟨x', p, h1, h2, _⟩ | ⟨h1, h3, h2⟩ | ⟨h1, e, h2, h3, _⟩ | ⟨h1, h2, a, q, h4, _, h3, h5⟩
  · rw [h1] at hk; cases hk
  · obtain ⟨a, ha⟩ := hne
    rw [h3 a] at ha; cases ha
  · have hf := h.facts hv
    exact ⟨e, _, h2, hf.getRootHash, h3.bounds hf⟩
  · obtain ⟨b, x, hb1, hb2, hb3⟩ := hnew a q h4 h3
    exact absurd (.inr ⟨c, hc, x, hb3⟩) (h5 b hb1 hb2)

/-- **C19**, the empty tree: an error, never a wrong proof. -/
theorem C19_empty_tree (H : Hasher D) (v0 next : Version) (ops : List Op) (s : Store D) (h : Reached H v0 ops s next)
    (v : Version) (hv : Readable v0 ops v) (k : Key) (hempty : ∀ a, contentsAt v0 ops v a = none) :
    Tree.getWithExclusionProof H s.reader k v =
      .error (.err "Cannot manufacture nonexistence proof by exclusion for the empty tree") := by
  rcases exclusion_cases H v0 next ops s h v hv k with ⟨x', p, h1, _⟩ | ⟨h1, h3, h2⟩ | ⟨h1, e, h2, h4⟩ | ⟨h1, h2, a, h4, h3⟩
  · rw [hempty] at h1; cases h1
  · exact h2
  · exfalso
    cases e with
    | leftmost => obtain ⟨_, r, h5, _⟩ := h4; have := h5.present; rw [hempty] at this; cases this
    | middle => obtain ⟨_, r, h5, _⟩ := h4; have := h5.present; rw [hempty] at this; cases this
    | rightmost => obtain ⟨⟨r, h5, _⟩, _⟩ := h4; have := h5.present; rw [hempty] at this; cases this
  · exfalso
    rcases h4 with h4 | h4 <;> (have := h4.present; rw [hempty] at this; cases this)

/-! examples and the counterexample -/

/-- Two versions; the second one touches only the keys beginning with `0x80`. -/
def exExcl : List Op :=
  [.update true [[(key 0x10 1, some [1]), (key 0x10 5, some [2]), (key 0x70 0, some [3])],
    [(key 0x80 1, some [4]), (key 0x80 9, some [5])]]]

theorem exExcl_startable : Startable 0 (commitsOf exExcl) := ⟨.inl rfl, by simp [exExcl, commitsOf, Op.commits]⟩
theorem exExcl_readable0 : Readable 0 exExcl 0 := ⟨by decide, by decide, .inl (by simp [exExcl])⟩
theorem exExcl_readable1 : Readable 0 exExcl 1 := ⟨by decide, by decide, .inl (by simp [exExcl])⟩

theorem exExcl_reached : ∃ s, Reached termHasher 0 exExcl s 2 := Reached.exists termHasher exExcl_startable

/-- The keys of version 1. -/
theorem exExcl_keys (a : Key) (h : (contentsAt 0 exExcl 1 a).isSome = true) :
    a = key 0x10 1 ∨ a = key 0x10 5 ∨ a = key 0x70 0 ∨ a = key 0x80 1 ∨ a = key 0x80 9 := by
  by_contra hc
  simp only [not_or] at hc
  obtain ⟨h1, h2, h3, h4, h5⟩ := hc
  simp [contentsAt, exExcl, commitsOf, Op.commits, Commit.updates, contents, applyUpdates, h1, h2, h3, h4, h5] at h

/-- The second version at a key beyond its own last key: one neighbour, written by this version. -/
example : ∃ s e root, Reached termHasher 0 exExcl s 2 ∧ Tree.getWithExclusionProof termHasher s.reader (key 0x85 0) 1 = .ok (.absent e) ∧
    Tree.getRootHash termHasher s.reader 1 = .ok root ∧ Bounds termHasher root (contentsAt 0 exExcl 1) (key 0x85 0) e := by
  obtain ⟨s, h⟩ := exExcl_reached
  have hpres : (contentsAt 0 exExcl 1 (key 0x80 9)).isSome = true := by decide +kernel
  obtain ⟨e, root, h1, h2, h3⟩ := C19_exclusion_partial termHasher 0 2 exExcl s h 1 exExcl_readable1 (key 0x85 0) (by decide +kernel)
    ⟨key 0x80 9, hpres⟩ (.inr ⟨_, rfl, by
      intro a ha
      have hak : a = key 0x80 9 := by
        rcases ha with ha | ha
        · have hle := ha.greatest (key 0x80 9) hpres (by decide +kernel)
          rcases exExcl_keys a ha.present with rfl | rfl | rfl | rfl | rfl
          · exact absurd hle (by decide +kernel)
          · exact absurd hle (by decide +kernel)
          · exact absurd hle (by decide +kernel)
          · exact absurd hle (by decide +kernel)
          · rfl
        · have hlt := ha.above
          rcases exExcl_keys a ha.present with rfl | rfl | rfl | rfl | rfl
          · exact absurd hlt (by decide +kernel)
          · exact absurd hlt (by decide +kernel)
          · exact absurd hlt (by decide +kernel)
          · exact absurd hlt (by decide +kernel)
          · rfl
      subst hak
      exact ⟨some [5], by simp [Commit.updates]⟩⟩)
  exact ⟨s, e, root, h, h1, h2, h3⟩

/-- The first version, at a key between two others. -/
example : ∃ s e root, Reached termHasher 0 exExcl s 2 ∧ Tree.getWithExclusionProof termHasher s.reader (key 0x10 3) 0 = .ok (.absent e) ∧
    Tree.getRootHash termHasher s.reader 0 = .ok root ∧ Bounds termHasher root (contentsAt 0 exExcl 0) (key 0x10 3) e := by
  obtain ⟨s, h⟩ := exExcl_reached
  obtain ⟨e, root, h1, h2, h3⟩ := C19_exclusion_partial termHasher 0 2 exExcl s h 0 exExcl_readable0 (key 0x10 3) (by decide +kernel)
    ⟨key 0x10 1, by decide +kernel⟩ (.inl rfl)
  exact ⟨s, e, root, h, h1, h2, h3⟩

/-- In the first version `0x10…03` lies between `0x10…01` and `0x10…05`. -/
example : GreatestBelow (contentsAt 0 exExcl 0) (key 0x10 3) (key 0x10 1) := by
  refine ⟨by decide +kernel, by decide +kernel, ?_⟩
  intro b hb hlt
  have : b = key 0x10 1 ∨ b = key 0x10 5 ∨ b = key 0x70 0 := by
    by_contra hc
    simp only [not_or] at hc
    obtain ⟨h1, h2, h3⟩ := hc
    simp [contentsAt, exExcl, commitsOf, Op.commits, Commit.updates, contents, applyUpdates, h1, h2, h3] at hb
  rcases this with rfl | rfl | rfl
  · decide +kernel
  · exact absurd hlt (by decide +kernel)
  · exact absurd hlt (by decide +kernel)

/-- A present key. -/
example : ∃ s p, Reached termHasher 0 exExcl s 2 ∧ Tree.getWithExclusionProof termHasher s.reader (key 0x70 0) 1 = .ok (.present [3] p) := by
  obtain ⟨s, h⟩ := exExcl_reached
  obtain ⟨p, hp⟩ := C19_present termHasher 0 2 exExcl s h 1 exExcl_readable1 (key 0x70 0) [3] (by decide +kernel)
  exact ⟨s, p, h, hp⟩

/-- A version emptied again. -/
example : ∃ s, Reached termHasher 0 [.update true [[(key 1 1, some [1])], [(key 1 1, none)]]] s 2 ∧
    Tree.getWithExclusionProof termHasher s.reader (key 1 1) 1 =
      .error (.err "Cannot manufacture nonexistence proof by exclusion for the empty tree") := by
  obtain ⟨s, h⟩ := Reached.exists termHasher (v0 := 0) (ops := [.update true [[(key 1 1, some [1])], [(key 1 1, none)]]])
    ⟨.inl rfl, by simp [commitsOf, Op.commits]⟩
  refine ⟨s, h, C19_empty_tree termHasher 0 2 _ s h 1 ⟨by decide, by decide, .inl (by simp)⟩ _ ?_⟩
  intro a
  by_cases ha : a = key 1 1
  · subst ha; decide +kernel
  · simp [contentsAt, commitsOf, Op.commits, Commit.updates, contents, applyUpdates, ha]

/-- Two versions; the second one adds a key beside a node with two keys. -/
def exOlder : List Op := [.update true [[(key 0x10 1, some [1]), (key 0x15 0, some [3])], [(key 0x80 1, some [4])]]]

theorem exOlder_keys (a : Key) (h : (contentsAt 0 exOlder 1 a).isSome = true) : a = key 0x10 1 ∨ a = key 0x15 0 ∨ a = key 0x80 1 := by
  by_contra hc
  simp only [not_or] at hc
  obtain ⟨h1, h2, h3⟩ := hc
  simp [contentsAt, exOlder, commitsOf, Op.commits, Commit.updates, contents, applyUpdates, h1, h2, h3] at h

/-- **C19**, the negation of the full statement: in the second of two ordinary versions, with three keys, the absent key
`0x05…` has a neighbour written by the first version, and the call fails. After climbing to the branch of the neighbour, the code
looks it up under the version asked for instead of the version recorded in the parent (`tree.rs:963-968`). -/
theorem C19_older_neighbour_false : ∃ s, Reached termHasher 0 exOlder s 2 ∧ Readable 0 exOlder 1 ∧
    contentsAt 0 exOlder 1 (key 0x05 0) = none ∧ LeastAbove (contentsAt 0 exOlder 1) (key 0x05 0) (key 0x10 1) ∧
    Tree.getWithExclusionProof termHasher s.reader (key 0x05 0) 1 = .error (.err "Missing node") := by
  obtain ⟨s, h⟩ := Reached.exists termHasher (v0 := 0) (ops := exOlder) ⟨.inl rfl, by simp [exOlder, commitsOf, Op.commits]⟩
  have hread : Readable 0 exOlder 1 := ⟨by decide, by decide, .inl (by simp [exOlder])⟩
  refine ⟨s, h, hread, by decide +kernel, ⟨by decide +kernel, by decide +kernel, ?_⟩, ?_⟩
  · intro b hb _
    rcases exOlder_keys b hb with rfl | rfl | rfl <;> decide +kernel
  · have hn : (match runOps termHasher exOlder (Store.empty, 0) with
        | .ok (s, _) => (Tree.getWithExclusionProof termHasher s.reader (key 0x05 0) 1).toOption.isNone
        | .error _ => false) = true := by decide +kernel
    rw [h.run] at hn
    cases he : Tree.getWithExclusionProof termHasher s.reader (key 0x05 0) 1 with
    | ok a => simp only [he] at hn; cases hn
    | error e =>
      rcases (C19_total termHasher 0 2 exOlder s h 1 hread _ e he).2 with ⟨_, h2⟩ | ⟨h1, _⟩
      · have := h2 (key 0x10 1)
        exact absurd this (by decide +kernel)
      · rw [h1]

/-- Two versions; the second one adds a key above the others. -/
def exAbove : List Op := [.update true [[(key 0x10 1, some [1]), (key 0x70 0, some [3])], [(key 0x80 1, some [4])]]]

theorem exAbove_succeeds : (match runOps termHasher exAbove (Store.empty, 0) with
    | .ok (s, _) => (Tree.getWithExclusionProof termHasher s.reader (key 0x75 0) 1).toOption.isSome
    | .error _ => false) = true := by decide +kernel

/-- Both sides of `C19_exact` at a key whose left neighbour is older than the version asked for: the walk ends at this neighbour. -/
example : ∃ s, Reached termHasher 0 exAbove s 2 ∧ (∃ e, Tree.getWithExclusionProof termHasher s.reader (key 0x75 0) 1 = .ok (.absent e)) ∧
    ∀ a, GreatestBelow (contentsAt 0 exAbove 1) (key 0x75 0) a ∨ LeastAbove (contentsAt 0 exAbove 1) (key 0x75 0) a →
      (∃ p l, Tree.getWithProof termHasher s.reader (key 0x75 0) 1 = .ok (none, p) ∧ p.leaf = some l ∧ l.keyHash = a) ∨
      ∃ q, Parting (key 0x75 0) a q ∧ (s.nodes.get ⟨1, q⟩).isSome = true := by
  obtain ⟨s, h⟩ := Reached.exists termHasher (v0 := 0) (ops := exAbove) ⟨.inl rfl, by simp [exAbove, commitsOf, Op.commits]⟩
  have hread : Readable 0 exAbove 1 := ⟨by decide, by decide, .inl (by simp [exAbove])⟩
  have hn := exAbove_succeeds
  rw [h.run] at hn
  have hnone : contentsAt 0 exAbove 1 (key 0x75 0) = none := by decide +kernel
  have he : ∃ e, Tree.getWithExclusionProof termHasher s.reader (key 0x75 0) 1 = .ok (.absent e) := by
    rcases exclusion_cases termHasher 0 2 exAbove s h 1 hread (key 0x75 0) with ⟨x, p, h1, _⟩ | ⟨_, _, h2⟩ | ⟨_, e, h2, _⟩ | ⟨_, h2, _⟩
    · rw [hnone] at h1; cases h1
    · simp only [h2] at hn; cases hn
    · exact ⟨e, h2⟩
    · simp only [h2] at hn; cases hn
  exact ⟨s, h, he, (C19_exact termHasher 0 2 exAbove s h 1 hread (key 0x75 0) hnone ⟨key 0x80 1, by decide +kernel⟩).1 he⟩

/-- Two versions; the second one adds a key beside the neighbour of `0x05…`. -/
def exBeside : List Op := [.update true [[(key 0x10 1, some [1]), (key 0x10 5, some [3])], [(key 0x10 9, some [4])]]]

/-- The neighbour itself is older, but a key beside it is new. -/
example : ∃ s e root, Reached termHasher 0 exBeside s 2 ∧ Tree.getWithExclusionProof termHasher s.reader (key 0x05 0) 1 = .ok (.absent e) ∧
    Tree.getRootHash termHasher s.reader 1 = .ok root ∧ Bounds termHasher root (contentsAt 0 exBeside 1) (key 0x05 0) e := by
  obtain ⟨s, h⟩ := Reached.exists termHasher (v0 := 0) (ops := exBeside) ⟨.inl rfl, by simp [exBeside, commitsOf, Op.commits]⟩
  have hread : Readable 0 exBeside 1 := ⟨by decide, by decide, .inl (by simp [exBeside])⟩
  have hkeys : ∀ a, (contentsAt 0 exBeside 1 a).isSome = true → a = key 0x10 1 ∨ a = key 0x10 5 ∨ a = key 0x10 9 := by
    intro a ha
    by_contra hc
    simp only [not_or] at hc
    obtain ⟨h1, h2, h3⟩ := hc
    simp [contentsAt, exBeside, commitsOf, Op.commits, Commit.updates, contents, applyUpdates, h1, h2, h3] at ha
  have hpart : ∀ a, a = key 0x10 1 ∨ a = key 0x10 5 ∨ a = key 0x10 9 → Parting (key 0x05 0) a [1] := by
    rintro a (rfl | rfl | rfl) <;>
      exact ⟨[], 1, 0, rfl, ⟨_, (List.singleton_append ..)⟩, ⟨_, (List.singleton_append ..)⟩, by decide⟩
  obtain ⟨e, root, h1, h2, h3⟩ := C19_written_partial termHasher 0 2 exBeside s h 1 hread (key 0x05 0) (by decide +kernel)
    ⟨key 0x10 1, by decide +kernel⟩ _ rfl (by
      intro a q ha hq
      have hpres : (contentsAt 0 exBeside 1 a).isSome = true := by rcases ha with ha | ha <;> exact ha.present
      refine ⟨key 0x10 9, some [4], by decide +kernel, ?_, by simp [Commit.updates]⟩
      rw [hq.unique (hpart a (hkeys a hpres))]
      exact ⟨_, (List.singleton_append ..)⟩)
  exact ⟨s, e, root, h, h1, h2, h3⟩

end Verif.Props
