import Verif.Proofs.FailingUpdate
import Verif.Proofs.FailingIter
import Verif.Props.JmtSnapshot
/-! Properties C95 and C96: what lookups that fail do to the calls that make them. -/

set_option autoImplicit false

namespace Verif.Props
open Verif Verif.Jmt Verif.Spec
variable {D : Type}

/-! ### C95 -/

/-- **C95** (partial) for the reads that go through `get_with_proof`: the result is that of a reader without errors, or the error of a lookup, or,
where the lookup of the root fails, the error for a missing root. The full claim leaves the last case out; it is false, see
`C95_root_false`. -/
theorem C95_reads_partial (H : Hasher D) [DecidableEq D] (r : FReader D) (k : Key) (v : Version) (root : D) (p : SparseMerkleProof D) :
    OrFail (FailsAt r v) (r.getWithProof H k v) (Tree.getWithProof H r.held k v) ∧
    OrFail (FailsAt r v) (r.getProof H k v) (Tree.getProof H r.held k v) ∧
    OrFail (FailsAt r v) (r.getRangeProof H k v) (Tree.getRangeProof H r.held k v) ∧
    OrFail (FailsAt r v) (r.getWithExclusionProof H k v) (Tree.getWithExclusionProof H r.held k v) ∧
    OrFail (FailsAt r v) (r.verifyProof H k v root p) (Tree.verifyProof H r.held k v root p) :=
  ⟨FReader.getWithProof_fail (fun _ h => h) H k, FReader.getProof_fail (fun _ h => h) H k, FReader.getRangeProof_fail (fun _ h => h) H k,
    FReader.getWithExclusionProof_fail (fun _ h => h) H k, FReader.verifyProof_fail (fun _ h => h) H k root p⟩

/-- **C95** (partial) for `get_with_ics23_proof`. -/
theorem C95_ics23_partial (sha : List UInt8 → Key) (r : FReader Key) (k : List UInt8) (v : Version) :
    OrFail (FailsAt r v) (r.getWithIcs23Proof sha k v) (Tree.getWithIcs23Proof sha r.held r.heldPreimage k v) :=
  FReader.getWithIcs23Proof_fail (fun _ h => h) sha k

/-- **C95** for the other reads: the result is that of a reader without errors, or the error of a lookup. -/
theorem C95_lookups (H : Hasher D) (r : FReader D) (k : Key) (v : Version) (m : Bool) (i : Nat) (it : Iter D) :
    OrFail (Fails r) (r.getRootHash H v) (Tree.getRootHash H r.held v) ∧
    OrFail (Fails r) (r.getRootHashOption H v) (.ok (Tree.getRootHashOption H r.held v)) ∧
    OrFail (Fails r) (r.getLeafCount m v) (Tree.getLeafCount m r.held v) ∧
    OrFail (Fails r) (r.get k v) (.ok (Tree.get r.held k v)) ∧
    OrFail (Fails r) (r.contains k v) (.ok (Tree.contains r.held k v)) ∧
    OrFail (Fails r) (r.newIter v k) (Iter.new r.held v k) ∧
    OrFail (Fails r) (r.newByIndex v i) (Iter.newByIndex r.held v i) ∧
    (r.next it = it.next r.held ∨ ∃ e it', Fails r e ∧ r.next it = .ok (some (.error (.err e)), it')) :=
  have hP : ∀ e, Fails r e → Fails r e := fun _ h => h
  ⟨FReader.getRootHash_fail hP H v, FReader.getRootHashOption_fail hP H v, FReader.getLeafCount_fail hP m v, FReader.get_fail hP k v,
    FReader.contains_fail hP k v, FReader.newIter_fail hP v k, FReader.newByIndex_fail hP v i, FReader.next_fail hP it⟩

/-- **C95** for updates: `put_value_sets`, `put_value_set` and `batch_put_value_sets` compute the roots and the batch that they compute without
errors, or return the error of a lookup. -/
theorem C95_updates (H : Hasher D) (r : FReader D) (m : Bool) (sets : List Tree.ValueSet) (set : Tree.ValueSet)
    (puts : List (List (Key × Value))) (hashes : Option (List (Tree.HashCache D))) (ver : Version) :
    OrFail (Fails r) (r.putValueSets H m sets ver) (Tree.putValueSets H m r.held sets ver) ∧
    OrFail (Fails r) (r.putValueSet H m set ver) (Tree.putValueSet H m r.held set ver) ∧
    OrFail (Fails r) (r.batchPutValueSets H m puts hashes ver) (Tree.batchPutValueSets H m r.held puts hashes ver) :=
  have hP : ∀ e, Fails r e → Fails r e := fun _ h => h
  ⟨FReader.putValueSets_fail hP H m sets ver, FReader.putValueSet_fail hP H m set ver, FReader.batchPutValueSets_fail hP H m puts hashes ver⟩

/-- **C95** for the recovery of an interrupted restore. -/
theorem C95_restore (H : Hasher D) (r : FReader D) (s : Store D) (hs : r.held = s.reader) (ver : Version) (root : D) (m : Bool) :
    OrFail (Fails r) (r.newRestore H s ver root m) (Restore.new H s ver root m) :=
  FReader.newRestore_fail (fun _ h => h) H hs ver root m

/-- **C95** in a store: as long as a version has not been given up, reading it with failing lookups gives the right answer with a proof that
verifies, or an error; it never says of a key that it is absent when it is there, or the reverse. -/
theorem C95_right_or_error (H : Hasher D) (v0 next : Version) (ops : List Op) (s : Store D) (h : Reached H v0 ops s next) (v : Version)
    (hv : Readable v0 ops v) (r : FReader D) (hr : View H v0 ops v r.held) (k : Key) (L : List (Key × D))
    (hL : Lists H (contentsAt v0 ops v) L) :
    ((∃ p, r.getWithProof H k v = .ok (contentsAt v0 ops v k, p) ∧ ∀ [DecidableEq D], p.verify H (smtRoot H L) k (contentsAt v0 ops v k) = .ok ()) ∨
      ∃ m, FailsAt r v m ∧ r.getWithProof H k v = .error (.err m)) ∧
    (r.get k v = .ok (contentsAt v0 ops v k) ∨ ∃ m, Fails r m ∧ r.get k v = .error (.err m)) ∧
    (r.contains k v = .ok (contentsAt v0 ops v k).isSome ∨ ∃ m, Fails r m ∧ r.contains k v = .error (.err m)) ∧
    (r.getRootHash H v = .ok (smtRoot H L) ∨ ∃ m, Fails r m ∧ r.getRootHash H v = .error (.err m)) ∧
    (r.getLeafCount true v = .ok (some L.length) ∨ ∃ m, Fails r m ∧ r.getLeafCount true v = .error (.err m)) := by
  have hg : Tree.get r.held k v = contentsAt v0 ops v k := (view_holdsAt hv.lt hr).value k
  have hroot := C79_root_hash H v0 next ops s h v hv L hL r.held hr
  refine ⟨?_, ?_, ?_, ?_, ?_⟩
  · obtain ⟨p, hp1, hp2⟩ := C79_get_with_proof H v0 next ops s h v hv k
    rcases FReader.getWithProof_fail (r := r) (version := v) (P := FailsAt r v) (fun _ h => h) H k with e | e
    · exact .inl ⟨p, e.trans (hp2 _ hr), hp1 L hL⟩
    · exact .inr e
  · have := FReader.get_fail (r := r) (P := Fails r) (fun _ h => h) k v
    rw [hg] at this
    exact this
  · have := FReader.contains_fail (r := r) (P := Fails r) (fun _ h => h) k v
    unfold Tree.contains at this
    rw [hg] at this
    exact this
  · have := FReader.getRootHash_fail (r := r) (P := Fails r) (fun _ h => h) H v
    rw [hroot.1] at this
    exact this
  · have := FReader.getLeafCount_fail (r := r) (P := Fails r) (fun _ h => h) true v
    rw [hroot.2] at this
    exact this

/-- **C95** without failing lookups: nothing is changed by the way the code handles errors. -/
theorem C95_flawless (H : Hasher D) (r : FReader D) (hr : ∀ m, ¬ Fails r m) (k : Key) (v : Version) (m : Bool) (sets : List Tree.ValueSet)
    (puts : List (List (Key × Value))) (hashes : Option (List (Tree.HashCache D))) :
    r.getWithProof H k v = Tree.getWithProof H r.held k v ∧
    r.getWithExclusionProof H k v = Tree.getWithExclusionProof H r.held k v ∧
    r.putValueSets H m sets v = Tree.putValueSets H m r.held sets v ∧
    r.batchPutValueSets H m puts hashes v = Tree.batchPutValueSets H m r.held puts hashes v := by
  have hP : ∀ m, Fails r m → False := fun m h => hr m h
  have hQ : ∀ m, FailsAt r v m → False := by
    rintro m (h | ⟨_, m', h⟩)
    · exact hr m h
    · exact hr m' (.inl ⟨_, h⟩)
  have key : ∀ {α : Type} {x y : Res α}, OrFail (fun _ => False) x y → x = y := by
    rintro α x y (h | ⟨_, h, _⟩)
    · exact h
    · exact h.elim
  exact ⟨key (FReader.getWithProof_fail hQ H k), key (FReader.getWithExclusionProof_fail hQ H k), key (FReader.putValueSets_fail hP H m sets v),
    key (FReader.batchPutValueSets_fail hP H m puts hashes v)⟩

/-- A reader of the store in which the lookups named by `ne` and `ve` fail. -/
def failing {D : Type} (s : Store D) (ne : NodeKey → Option String) (ve : Version → Key → Option String) : FReader D :=
  ⟨s.reader, fun _ => none, ne, ve, fun _ => none, none⟩

/-- The store itself is one of the things a reader may find. -/
theorem view_self {H : Hasher D} {v0 next : Version} {ops : List Op} {s : Store D} (h : Reached H v0 ops s next) {v : Version}
    (hv : Readable v0 ops v) : View H v0 ops v s.reader := by
  have hv' : Readable v0 (ops ++ [.purge 0]) v := by
    obtain ⟨h1, h2, h3⟩ := hv
    have e : (commitsOf (ops ++ [.purge 0])).length = (commitsOf ops).length := by simp [commitsOf, Op.commits]
    refine ⟨h1, by rw [e]; exact h2, ?_⟩
    rw [e]
    refine h3.imp_left (fun h3 m hm => ?_)
    rcases List.mem_append.1 hm with hm | hm
    · exact h3 m hm
    · simp only [List.mem_singleton, Op.purge.injEq] at hm
      subst hm
      exact Nat.zero_le v
  obtain ⟨s', g, hm⟩ := (C79_moments H v0 next ops s h v).2 0 hv' [] _ (.refl _)
  cases g
  exact hm.view

/-- The full claim of C95, that the error is that of a lookup, is false. The store holds version 2, which has not been given up; its disk cannot
be read for a moment; `get_with_proof` answers that the root is missing and probably pruned. -/
theorem C95_root_false : ∃ (s : Store Term) (r : FReader Term), Reached termHasher 0 exOps s 3 ∧ Readable 0 exOps 2 ∧ r.held = s.reader ∧
    (∀ m, Fails r m ↔ m = "disk") ∧ (∀ k, r.getWithProof termHasher k 2 = .error (.err "Missing root")) ∧
    ∀ k, ∃ p, Tree.getWithProof termHasher r.held k 2 = .ok (contentsAt 0 exOps 2 k, p) := by
  obtain ⟨s, h⟩ := exOps_reached
  refine ⟨s, failing s (fun _ => some "disk") (fun _ _ => none), h, exOps_readable2, rfl, ?_, fun k => rfl, ?_⟩
  · intro m
    constructor
    · rintro (⟨_, h⟩ | ⟨_, _, h⟩ | ⟨_, h⟩ | h)
      · cases h; rfl
      · cases h
      · cases h
      · cases h
    · rintro rfl; exact .inl ⟨⟨0, []⟩, rfl⟩
  · intro k
    obtain ⟨p, _, hp⟩ := C79_get_with_proof _ _ _ _ _ h 2 exOps_readable2 k
    exact ⟨p, hp _ (view_self h exOps_readable2)⟩

/-! ### C96 -/

/-- The version has exactly one key. -/
def OneKey (f : Key → Option Value) : Prop := ∃ k, ∀ k', (f k').isSome = true ↔ k' = k

theorem oneKey_of_leaf {H : Hasher D} {f : Key → Option Value} {t : VTree D} (h : Holding H t f) (ht : t.isLeaf = true) : OneKey f := by
  cases t with
  | empty => cases ht
  | node => cases ht
  | leaf w k x =>
    refine ⟨k, fun k' => ?_⟩
    have := h.2 k'
    simp only [VTree.entries, List.mem_singleton, Prod.mk.injEq] at this
    cases hf : f k' with
    | none =>
      rw [hf] at this
      constructor
      · intro h; cases h
      · intro h; have := (this x).1 ⟨h, rfl⟩; cases this
    | some y =>
      rw [hf] at this
      exact ⟨fun _ => ((this (H.value y)).2 rfl).1, fun _ => rfl⟩

/-- **C96** (partial). An iterator made at version `v` is called again and again, and each call may see other lookups fail, and the store may
change meanwhile as in C79. There is no panic; the pairs that are returned are the first pairs of the version from key `k` on, in order, none left
out and none twice; an error is that of a lookup of the call; and `None` is returned only when every pair has been returned, so that a caller who
goes on after an error loses nothing. The last is claimed only for versions with no key or several, or while no value lookup fails: for a version
with one key it is false, see `C96_single_false`. -/
theorem C96_resume_partial (H : Hasher D) (v0 next : Version) (ops : List Op) (s : Store D) (h : Reached H v0 ops s next) (v : Version)
    (hv : Readable v0 ops v) (k : Key) (r0 : FReader D) (hr0 : View H v0 ops v r0.held) (it : Iter D) (hit : r0.newIter v k = .ok it)
    (rs : List (FReader D)) (hrs : ∀ r ∈ rs, View H v0 ops v r.held) :
    ∃ l as, Listing (fun k' => if k ≤ k' then contentsAt v0 ops v k' else none) l ∧ calls rs it = .ok as ∧ as.length = rs.length ∧
      pairs as <+: l ∧
      (∀ (i : Nat) r e, rs[i]? = some r → as[i]? = some (some (.error e)) → ∃ m, e = .err m ∧ Fails r m) ∧
      (¬ OneKey (contentsAt v0 ops v) ∨ (∀ r ∈ rs, ∀ k', r.valueError v k' = none) →
        ∀ i : Nat, as[i]? = some none → pairs (as.take i) = l) := by
  have hs := sound_reached h hv
  obtain ⟨it', e1, e2⟩ := new_spec k hs.core.good hs.core.root hs.ver
  have hh := view_holdsAt hv.lt hr0
  have e3 := (hh.below.newIter v k).ok e1
  rcases FReader.newIter_fail (r := r0) (P := Fails r0) (fun _ h => h) v k with e | ⟨m, _, e⟩
  swap
  · rw [e] at hit; cases hit
  rw [e, e3] at hit
  cases hit
  obtain ⟨as, h1, h0, h2, h3, h4⟩ := calls_spec hs rs (fun r hr => view_holdsAt hv.lt (hrs r hr)) it _ e2
  refine ⟨_, as, ⟨?_, ?_⟩, h1, h0, h2, h4, fun hc => h3 (hc.imp (fun hc => ?_) id)⟩
  · exact withValues_sorted _ ((VTree.entries_sorted hs.hold.1).filter _)
  · intro k' x
    have := mem_withValues (f := contentsAt v0 ops v) (E := geq k (treeAt H v0 (commitsOf ops) v).entries) (k := k') (x := x)
    unfold withValues at this
    rw [this]
    simp only [geq, List.mem_filter, decide_eq_true_eq]
    constructor
    · rintro ⟨h1, d, _, h2⟩; rw [if_pos h2]; exact h1
    · intro h1
      split at h1
      · rename_i h2
        exact ⟨h1, H.value x, (hs.hold.2 k' _).2 (by rw [h1]; rfl), h2⟩
      · cases h1
  · rw [Bool.eq_false_iff]
    exact fun ht => hc (oneKey_of_leaf hs.hold ht)

/-- **C96** (partial) for iterators that start at an index. -/
theorem C96_resume_index_partial (H : Hasher D) (v0 next : Version) (ops : List Op) (s : Store D) (h : Reached H v0 ops s next) (v : Version)
    (hv : Readable v0 ops v) (n : Nat) (r0 : FReader D) (hr0 : View H v0 ops v r0.held) (it : Iter D) (hit : r0.newByIndex v n = .ok it)
    (rs : List (FReader D)) (hrs : ∀ r ∈ rs, View H v0 ops v r.held) :
    ∃ l as, Listing (contentsAt v0 ops v) l ∧ calls rs it = .ok as ∧ as.length = rs.length ∧ pairs as <+: l.drop n ∧
      (∀ (i : Nat) r e, rs[i]? = some r → as[i]? = some (some (.error e)) → ∃ m, e = .err m ∧ Fails r m) ∧
      (¬ OneKey (contentsAt v0 ops v) ∨ (∀ r ∈ rs, ∀ k', r.valueError v k' = none) →
        ∀ i : Nat, as[i]? = some none → pairs (as.take i) = l.drop n) := by
  have hs := sound_reached h hv
  obtain ⟨it', e1, e2⟩ := newByIndex_spec n hs.core.good hs.core.root hs.ver
  have hh := view_holdsAt hv.lt hr0
  have e3 := (hh.below.newByIndex v n).ok e1
  rcases FReader.newByIndex_fail (r := r0) (P := Fails r0) (fun _ h => h) v n with e | ⟨m, _, e⟩
  swap
  · rw [e] at hit; cases hit
  rw [e, e3] at hit
  cases hit
  obtain ⟨as, h1, h0, h2, h3, h4⟩ := calls_spec hs rs (fun r hr => view_holdsAt hv.lt (hrs r hr)) it _ e2
  have hd := withValues_drop (contentsAt v0 ops v) (treeAt H v0 (commitsOf ops) v).entries n (fun e he => hs.some he)
  unfold withValues at hd
  rw [hd] at h2 h3
  refine ⟨_, as, ⟨?_, ?_⟩, h1, h0, h2, h4, fun hc => h3 (hc.imp (fun hc => ?_) id)⟩
  · exact withValues_sorted _ (VTree.entries_sorted hs.hold.1)
  · intro k' x
    have := mem_withValues (f := contentsAt v0 ops v) (E := (treeAt H v0 (commitsOf ops) v).entries) (k := k') (x := x)
    unfold withValues at this
    rw [this]
    constructor
    · rintro ⟨h1, _⟩; exact h1
    · intro h1; exact ⟨h1, H.value x, (hs.hold.2 k' _).2 (by rw [h1]; rfl)⟩
  · rw [Bool.eq_false_iff]
    exact fun ht => hc (oneKey_of_leaf hs.hold ht)

theorem listing_unique {f : Key → Option Value} {l l' : List (Key × Value)} (h : Listing f l) (h' : Listing f l') : l = l' := by
  have n : ∀ {l : List (Key × Value)}, Listing f l → l.Nodup := by
    intro l h
    refine List.Pairwise.imp ?_ h.sorted
    rintro a b hab rfl
    exact Key.lt_irrefl _ hab
  have hp : l.Perm l' := (List.perm_ext_iff_of_nodup (n h) (n h')).2 (fun a => (h.mem a.1 a.2).trans (h'.mem a.1 a.2).symm)
  refine hp.eq_of_pairwise (le := fun a b => a.1 < b.1) ?_ h.sorted h'.sorted
  intro a b _ _ h1 h2
  exact absurd (Key.lt_trans h1 h2) (Key.lt_irrefl _)

theorem pairs_enough {sub rs : List (FReader D)} (hsub : List.Sublist sub rs) (hf : ∀ r ∈ sub, ∀ m, ¬ Fails r m)
    (as : List (Option (Res (Key × Value)))) (hl : as.length = rs.length)
    (he : ∀ (i : Nat) r e, rs[i]? = some r → as[i]? = some (some (.error e)) → ∃ m, e = .err m ∧ Fails r m)
    (hn : ∀ i : Nat, as[i]? ≠ some none) : sub.length ≤ (pairs as).length := by
  induction hsub generalizing as with
  | slnil => exact Nat.zero_le _
  | @cons l1 l2 r hs ih =>
    cases as with
    | nil => cases hl
    | cons a as =>
      have := ih hf as (by simpa using hl) (fun i r e h1 h2 => he (i + 1) r e (by simpa using h1) (by simpa using h2))
        (fun i h => hn (i + 1) (by simpa using h))
      refine Nat.le_trans this ?_
      unfold pairs
      rw [List.filterMap_cons]
      split <;> simp
  | @cons_cons l1 l2 r hs ih =>
    cases as with
    | nil => cases hl
    | cons a as =>
      have := ih (fun r hr => hf r (by simp [hr])) as (by simpa using hl)
        (fun i r e h1 h2 => he (i + 1) r e (by simpa using h1) (by simpa using h2)) (fun i h => hn (i + 1) (by simpa using h))
      cases a with
      | none => exact absurd rfl (hn 0)
      | some a =>
        cases a with
        | error e =>
          obtain ⟨m, _, hm⟩ := he 0 r e rfl rfl
          exact absurd hm (hf r (by simp) m)
        | ok x => simpa [pairs] using this

/-- **C96** (partial): all of it is read in the end. As many calls without failures as there are pairs, whatever calls with failures come between
them, return every pair. -/
theorem C96_all_in_the_end_partial (H : Hasher D) (v0 next : Version) (ops : List Op) (s : Store D) (h : Reached H v0 ops s next) (v : Version)
    (hv : Readable v0 ops v) (hone : ¬ OneKey (contentsAt v0 ops v)) (k : Key) (r0 : FReader D) (hr0 : View H v0 ops v r0.held) (it : Iter D)
    (hit : r0.newIter v k = .ok it) (l : List (Key × Value)) (hl : Listing (fun k' => if k ≤ k' then contentsAt v0 ops v k' else none) l)
    (rs sub : List (FReader D)) (hrs : ∀ r ∈ rs, View H v0 ops v r.held) (hsub : List.Sublist sub rs) (hf : ∀ r ∈ sub, ∀ m, ¬ Fails r m)
    (hn : l.length ≤ sub.length) : ∃ as, calls rs it = .ok as ∧ pairs as = l := by
  obtain ⟨l', as, h1, h2, h3, h4, h5, h6⟩ := C96_resume_partial H v0 next ops s h v hv k r0 hr0 it hit rs hrs
  cases listing_unique h1 hl
  refine ⟨as, h2, ?_⟩
  by_cases hnone : ∃ i : Nat, as[i]? = some none
  · obtain ⟨i, hi⟩ := hnone
    have h7 := h6 (.inl hone) i hi
    have h8 : pairs (as.take i) <+: pairs as := by
      unfold pairs
      exact (List.take_prefix i as).filterMap _
    rw [h7] at h8
    exact h4.eq_of_length_le h8.length_le
  · have := pairs_enough hsub hf as h3 h5 (fun i hi => hnone ⟨i, hi⟩)
    exact h4.eq_of_length_le (by omega)

/-- One version with one key. -/
def oneOps : List Op := [.update true [[(key 1 1, some [1])]]]

/-- The last claim of C96 is false for a version with one key: the iterator notes that it is done before it looks the value up. When this lookup
fails, the caller gets the error; the next call, without failures, returns `None`, and the pair is never returned. -/
theorem C96_single_false : ∃ (s : Store Term) (it : Iter Term), Reached termHasher 0 oneOps s 1 ∧ Readable 0 oneOps 0 ∧
    contentsAt 0 oneOps 0 (key 1 1) = some [1] ∧ Iter.new s.reader 0 (key 0 0) = .ok it ∧
    calls [failing s (fun _ => none) (fun _ _ => some "disk"), failing s (fun _ => none) (fun _ _ => none)] it =
      .ok [some (.error (.err "disk")), none] := by
  have hs : Startable 0 (commitsOf oneOps) := ⟨.inl rfl, by simp [oneOps, commitsOf, Op.commits]⟩
  have hr : Reached termHasher 0 oneOps _ _ := ⟨hs, rfl⟩
  exact ⟨_, _, hr, ⟨by decide, by decide, .inr rfl⟩, by decide +kernel, rfl, rfl⟩

theorem exOps_two : contentsAt 0 exOps 2 (key 0x80 0) = some [5] ∧ contentsAt 0 exOps 2 (key 1 2) = some [7] := by decide +kernel

theorem exOps_notOne : ¬ OneKey (contentsAt 0 exOps 2) := by
  rintro ⟨k, hk⟩
  have h1 := (hk (key 0x80 0)).1 (by rw [exOps_two.1]; rfl)
  have h2 := (hk (key 1 2)).1 (by rw [exOps_two.2]; rfl)
  exact absurd (h1.trans h2.symm) (by decide)

/-- In the example version 2 is listed although every other call cannot read a node, and every third no value. -/
example : ∃ (s : Store Term) (it : Iter Term) (l : List (Key × Value)) (as : List (Option (Res (Key × Value)))),
    Reached termHasher 0 exOps s 3 ∧ Iter.new s.reader 2 (key 0 0) = .ok it ∧ (key 0x80 0, [5]) ∈ l ∧ (key 1 2, [7]) ∈ l ∧
    calls ((List.replicate l.length [failing s (fun _ => some "disk") (fun _ _ => none), failing s (fun _ => none) (fun _ _ => none),
      failing s (fun _ => none) (fun _ _ => some "disk")]).flatten) it = .ok as ∧ pairs as = l := by
  obtain ⟨s, h⟩ := exOps_reached
  have hview := view_self h exOps_readable2
  obtain ⟨it, l, e1, _, e3⟩ := C79_iterate _ _ _ _ _ h 2 exOps_readable2 (key 0 0)
  have hc : ∀ n, List.Sublist (List.replicate n (failing s (fun _ => none) (fun _ _ => none)))
      ((List.replicate n [failing s (fun _ => some "disk") (fun _ _ => none), failing s (fun _ => none) (fun _ _ => none),
        failing s (fun _ => none) (fun _ _ => some "disk")]).flatten) := by
    intro n
    induction n with
    | zero => exact .slnil
    | succ n ih =>
      rw [List.replicate_succ, List.replicate_succ, List.flatten_cons]
      exact .cons _ (.cons_cons _ (.cons _ ih))
  have hno : ∀ m, ¬ Fails (failing s (fun _ => none) (fun _ _ => none)) m := by
    rintro m (⟨_, h⟩ | ⟨_, _, h⟩ | ⟨_, h⟩ | h) <;> cases h
  have hn : (failing s (fun _ => none) (fun _ _ => none)).newIter 2 (key 0 0) = .ok it := by
    rcases FReader.newIter_fail (r := failing s (fun _ => none) (fun _ _ => none)) (P := fun _ => False) (fun m h => hno m h) 2 (key 0 0) with e | ⟨_, h, _⟩
    · exact e.trans (e1 _ hview)
    · exact h.elim
  obtain ⟨as, g1, g2⟩ := C96_all_in_the_end_partial _ _ _ _ _ h 2 exOps_readable2 exOps_notOne (key 0 0) _ hview it hn l e3 _ _
    (by
      intro r hr
      have : r.held = s.reader := by
        simp only [List.mem_flatten, List.mem_replicate] at hr
        obtain ⟨x, ⟨_, rfl⟩, hr⟩ := hr
        simp only [List.mem_cons, List.not_mem_nil, or_false] at hr
        rcases hr with rfl | rfl | rfl <;> rfl
      rw [this]; exact hview)
    (hc l.length) (fun r hr => by rw [(List.mem_replicate.1 hr).2]; exact hno) (by simp)
  refine ⟨s, it, l, as, h, e1 _ hview, (e3.mem _ _).2 ?_, (e3.mem _ _).2 ?_, g1, g2⟩
  · rw [if_pos (by decide)]; exact exOps_two.1
  · rw [if_pos (by decide)]; exact exOps_two.2

/-- In the example the root of version 2 is read with an error in every value lookup. -/
example : ∃ (s : Store Term) (r : FReader Term), Reached termHasher 0 exOps s 3 ∧ Fails r "disk" ∧
    r.get (key 1 2) 2 = .error (.err "disk") ∧ r.getRootHash termHasher 2 = Tree.getRootHash termHasher s.reader 2 := by
  obtain ⟨s, h⟩ := exOps_reached
  exact ⟨s, failing s (fun _ => none) (fun _ _ => some "disk"), h, .inr (.inl ⟨0, key 0 0, rfl⟩), rfl, rfl⟩

end Verif.Props
