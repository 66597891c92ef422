import Verif.Proofs.Overflow
import Verif.Props.JmtStore
import Verif.Jmt.Calls
/-! Property C102: versions up to the end of `u64`. -/

set_option autoImplicit false

namespace Verif.Props
open Verif Verif.Jmt Verif.Spec
variable {D : Type}

theorem fits_of {b : Build} {n : Nat} (h : n ≤ 2 ^ 64) (hb : b = .checked → n ≠ 2 ^ 64) : b.Fits n := by
  cases b with
  | wrapping => exact h
  | checked => exact Nat.lt_of_le_of_ne h (hb rfl)

/-! ### up to the end -/

/-- **C102**, `put_value_sets`, partial. While all versions the call makes are `u64` values, it does what it would do if versions had no
bound (whatever is in the database); with overflow checks, when moreover the last version the call makes is not `u64::MAX`. Without that
exception it is false: `C102_last_version_false`. -/
theorem C102_put_partial (b : Build) (H : Hasher D) (m : Bool) (r : Reader D) (sets : List Tree.ValueSet) (first : Version)
    (h : first + sets.length ≤ 2 ^ 64) (hb : b = .checked → first + sets.length ≠ 2 ^ 64) :
    Tree.putValueSets64 b H m r sets first = Tree.putValueSets H m r sets first := by
  obtain ⟨n1, n2⟩ := new_next r first
  exact putSets64_fits b H m first sets 0 _ n1 n2 (by rw [Nat.add_zero]; exact fits_of h hb)

/-- **C102**, `batch_put_value_sets`, with any hash caches. -/
theorem C102_batch_partial (b : Build) (H : Hasher D) (m : Bool) (r : Reader D) (sets : List (List (Key × Value)))
    (hashes : Option (List (Tree.HashCache D))) (first : Version)
    (h : first + sets.length ≤ 2 ^ 64) (hb : b = .checked → first + sets.length ≠ 2 ^ 64) :
    Tree.batchPutValueSets64 b H m r sets hashes first = Tree.batchPutValueSets H m r sets hashes first := by
  obtain ⟨n1, n2⟩ := new_next r first
  have key : ∀ hcs : List (Option (Tree.HashCache D)),
      (Tree.batchPutSets64 b H m first 0 (sets.zip hcs) (TreeCache.new r first) >>= fun c =>
        assert (decide (sets.length = hcs.length)) "itertools: .zip_eq() reached end of one iterator before the other" >>= fun _ =>
          (.ok c.into : Res _)) =
      (Tree.batchPutSets H m first (sets.zip hcs) (TreeCache.new r first) >>= fun c =>
        assert (decide (sets.length = hcs.length)) "itertools: .zip_eq() reached end of one iterator before the other" >>= fun _ =>
          (.ok c.into : Res _)) := by
    intro hcs
    have := batchPutSets64_fits b H m first (sets.zip hcs) 0 _ n1 ((fits_of h hb).mono (by
      rw [List.length_zip, Nat.add_zero]
      exact Nat.add_le_add_left (Nat.min_le_left _ _) _))
    rw [Nat.add_zero] at this
    generalize Tree.batchPutSets64 b H m first 0 (sets.zip hcs) (TreeCache.new r first) = x at this ⊢
    generalize Tree.batchPutSets H m first (sets.zip hcs) (TreeCache.new r first) = y at this ⊢
    cases x <;> cases y <;> simp only [Res.ok_bind, Res.error_bind, Except.ok.injEq, Except.error.injEq, reduceCtorEq] at this ⊢
    · exact this
    · rw [this]
  exact key _

theorem run64_eq (b : Build) (H : Hasher D) (op : Op) (st : Store D × Version) (h : st.2 + op.commits.length ≤ 2 ^ 64)
    (hb : b = .checked → st.2 + op.commits.length ≠ 2 ^ 64) : op.run64 b H st = op.run H st := by
  cases op with
  | update m sets =>
    simp only [Op.commits, List.length_map] at h hb
    unfold Op.run64 Op.run
    simp only [C102_put_partial b H m st.1.reader sets st.2 h hb]
  | batch m sets =>
    simp only [Op.commits, List.length_map] at h hb
    unfold Op.run64 Op.run
    simp only [C102_batch_partial b H m st.1.reader sets none st.2 h hb]
  | purge v => rfl

theorem run_next {H : Hasher D} {op : Op} {st st' : Store D × Version} (h : op.run H st = .ok st') : st'.2 = st.2 + op.commits.length := by
  cases op with
  | update m sets =>
    unfold Op.run at h
    obtain ⟨_, _, h⟩ := Res.bind_ok h
    obtain ⟨_, _, h⟩ := Res.bind_ok h
    cases h
    simp [Op.commits]
  | batch m sets =>
    unfold Op.run at h
    obtain ⟨_, _, h⟩ := Res.bind_ok h
    obtain ⟨_, _, h⟩ := Res.bind_ok h
    cases h
    simp [Op.commits]
  | purge v =>
    unfold Op.run at h
    obtain ⟨_, _, h⟩ := Res.bind_ok h
    cases h
    simp [Op.commits]

/-- **C102** for whole histories of updates and pruning, from any store: all that is proved of the histories with unbounded versions holds
of those of the machine. -/
theorem C102_history_partial (b : Build) (H : Hasher D) (ops : List Op) (s : Store D) (v0 : Version)
    (h : v0 + (commitsOf ops).length ≤ 2 ^ 64) (hb : b = .checked → v0 + (commitsOf ops).length ≠ 2 ^ 64) :
    runOps64 b H ops (s, v0) = runOps H ops (s, v0) := by
  induction ops generalizing s v0 with
  | nil => rfl
  | cons op ops ih =>
    have hco : (commitsOf (op :: ops)).length = op.commits.length + (commitsOf ops).length := by simp [commitsOf]
    rw [hco] at h hb
    unfold runOps64 runOps
    rw [run64_eq b H op (s, v0) (by show v0 + _ ≤ _; omega) (fun e => by have := hb e; show v0 + _ ≠ _; omega)]
    refine bind_congr_ok ?_
    rintro ⟨s1, v1⟩ h1
    have hv := run_next h1
    simp only at hv
    subst hv
    exact ih s1 _ (by omega) (fun e => by have := hb e; omega)

-- C102: a history that ends with the last version but one, in a program built with checks, and one that ends with the last version,
-- in one built without
example : (∃ s, runOps64 .checked termHasher [.update true [[(key 1 1, some [1])]], .batch true [[(key 2 2, [2])]]] (Store.empty, 2 ^ 64 - 3) = .ok (s, 2 ^ 64 - 1)) ∧
    ∃ s, runOps64 .wrapping termHasher [.update true [[(key 1 1, some [1])]], .batch true [[(key 2 2, [2])]]] (Store.empty, 2 ^ 64 - 2) = .ok (s, 2 ^ 64) := by
  have hs : ∀ v0, Startable v0 (commitsOf [.update true [[(key 1 1, some [1])]], .batch true [[(key 2 2, [2])]]]) := by
    intro v0
    refine ⟨.inr ?_, by simp [commitsOf, Op.commits]⟩
    intro c hc
    simp only [commitsOf, List.flatMap_cons, Op.commits, List.map_cons, List.map_nil, List.cons_append, List.head?_cons, Option.some.injEq] at hc
    subst hc
    exact ⟨by simp, key 1 1, [1], by decide⟩
  constructor
  · obtain ⟨s, e, _⟩ := runOps_resume _ (StoreInv.init termHasher (2 ^ 64 - 3)) ⟨fun _ => hs _, (hs 0).batches⟩
    refine ⟨s, ?_⟩
    rw [C102_history_partial _ _ _ _ _ (by decide) (by decide)]
    exact e
  · obtain ⟨s, e, _⟩ := runOps_resume _ (StoreInv.init termHasher (2 ^ 64 - 2)) ⟨fun _ => hs _, (hs 0).batches⟩
    refine ⟨s, ?_⟩
    rw [C102_history_partial _ _ _ _ _ (by decide) (by decide)]
    exact e

/-! ### at the end -/

/-- **C102** is false of programs built with overflow checks at the last version: a call that makes it does not return. If the sets up to
that version can be applied, it panics, also when they are all there are; if not, it fails as with unbounded versions. -/
theorem C102_checked_put (H : Hasher D) (m : Bool) (r : Reader D) (sets : List Tree.ValueSet) (first : Version) (hf : first < 2 ^ 64)
    (h : 2 ^ 64 ≤ first + sets.length) :
    Tree.putValueSets64 .checked H m r sets first =
      match Tree.putValueSets H m r (sets.take (2 ^ 64 - first)) first with
      | .ok _ => .error (.panic "attempt to add with overflow")
      | .error e => .error e := by
  obtain ⟨n1, n2⟩ := new_next r first
  unfold Tree.putValueSets64 Tree.putValueSets
  rw [putSets64_checked H m first sets 0 _ n1 n2 hf h, Nat.add_zero, u64Size]
  cases Tree.putSets H m first (sets.take (2 ^ 64 - first)) (TreeCache.new r first) <;> rfl

/-- The same of `batch_put_value_sets`. -/
theorem C102_checked_batch (H : Hasher D) (m : Bool) (r : Reader D) (sets : List (List (Key × Value))) (first : Version) (hf : first < 2 ^ 64)
    (h : 2 ^ 64 ≤ first + sets.length) :
    Tree.batchPutValueSets64 .checked H m r sets none first =
      match Tree.batchPutValueSets H m r (sets.take (2 ^ 64 - first)) none first with
      | .ok _ => .error (.panic "attempt to add with overflow")
      | .error e => .error e := by
  obtain ⟨n1, n2⟩ := new_next r first
  unfold Tree.batchPutValueSets64 Tree.batchPutValueSets
  have hz : ∀ l : List (List (Key × Value)), l.zip (l.map (fun _ => (none : Option (Tree.HashCache D)))) = l.map (fun s => (s, none)) := by
    intro l
    induction l with
    | nil => rfl
    | cons a l ih => rw [List.map_cons, List.zip_cons_cons, ih, List.map_cons]
  simp only [hz]
  rw [batchPutSets64_checked H m first _ 0 _ n1 hf (by rw [List.length_map]; exact h), Nat.add_zero, u64Size, List.map_take]
  cases Tree.batchPutSets H m first ((sets.map (fun s => (s, none))).take (2 ^ 64 - first)) (TreeCache.new r first) with
  | error e => rfl
  | ok c => simp [assert]

theorem run64_checked_fails (H : Hasher D) (op : Op) (st : Store D × Version) (hf : st.2 < 2 ^ 64) (h : 2 ^ 64 ≤ st.2 + op.commits.length) :
    ∃ e, op.run64 .checked H st = .error e := by
  cases op with
  | update m sets =>
    simp only [Op.commits, List.length_map] at h
    unfold Op.run64
    simp only [C102_checked_put H m st.1.reader sets st.2 hf h]
    split <;> exact ⟨_, rfl⟩
  | batch m sets =>
    simp only [Op.commits, List.length_map] at h
    unfold Op.run64
    simp only [C102_checked_batch H m st.1.reader sets st.2 hf h]
    split <;> exact ⟨_, rfl⟩
  | purge v => simp only [Op.commits, List.length_nil] at h; omega

/-- With overflow checks, a history goes through exactly if it does not make version `u64::MAX`. (`Startable` is what the library asks of
its callers.) -/
theorem C102_checked_history (H : Hasher D) (v0 : Version) (ops : List Op) (hs : Startable v0 (commitsOf ops)) (hv : v0 < 2 ^ 64) :
    (∃ st, runOps64 .checked H ops (Store.empty, v0) = .ok st) ↔ v0 + (commitsOf ops).length < 2 ^ 64 := by
  constructor
  · rintro ⟨st, h⟩
    generalize (Store.empty : Store D) = s at h
    clear hs
    induction ops generalizing s v0 with
    | nil => simpa [commitsOf] using hv
    | cons op ops ih =>
      have hco : (commitsOf (op :: ops)).length = op.commits.length + (commitsOf ops).length := by simp [commitsOf]
      rw [hco]
      by_cases hlt : v0 + op.commits.length < 2 ^ 64
      · unfold runOps64 at h
        rw [run64_eq .checked H op (s, v0) (Nat.le_of_lt hlt) (fun _ => Nat.ne_of_lt hlt)] at h
        obtain ⟨⟨s1, v1⟩, h1, h⟩ := Res.bind_ok h
        have hv1 := run_next h1
        simp only at hv1
        subst hv1
        have := ih _ hlt s1 h
        omega
      · obtain ⟨e, he⟩ := run64_checked_fails H op (s, v0) hv (Nat.not_lt.1 hlt)
        unfold runOps64 at h
        rw [he] at h
        cases h
  · intro h
    obtain ⟨s, e, _⟩ := runOps_resume ops (StoreInv.init H v0) (Startable.resumable (hist := []) hs)
    exact ⟨_, (C102_history_partial .checked H ops _ v0 (Nat.le_of_lt h) (fun _ => Nat.ne_of_lt h)).trans e⟩

/-- The claim without the exception, of either call, and its refutation: the one version `u64::MAX` cannot be made by a program built with
checks, though the call returns with unbounded versions. -/
theorem C102_last_version_false :
    (∃ x, Tree.putValueSets termHasher true (Store.empty (D := Term)).reader [[(key 1 1, some [1])]] (2 ^ 64 - 1) = .ok x) ∧
    Tree.putValueSets64 .checked termHasher true (Store.empty (D := Term)).reader [[(key 1 1, some [1])]] (2 ^ 64 - 1) =
      .error (.panic "attempt to add with overflow") := by
  have h : ∃ x, Tree.putValueSets termHasher true (Store.empty (D := Term)).reader [[(key 1 1, some [1])]] (2 ^ 64 - 1) = .ok x := ⟨_, rfl⟩
  refine ⟨h, ?_⟩
  rw [C102_checked_put _ _ _ _ _ (by decide) (by decide)]
  obtain ⟨x, h⟩ := h
  rw [show ([[(key 1 1, some [1])]] : List Tree.ValueSet).take (2 ^ 64 - (2 ^ 64 - 1)) = [[(key 1 1, some [1])]] from rfl, h]

/-- Without checks, a call that goes on after the last version makes version 0: the call returns `Ok`, and its batch is written to the store as
that version, so the oldest version is the one with the newest contents. -/
theorem C102_wraps_false : ∃ s, runOps64 .wrapping termHasher
      [.update true [[(key 1 1, some [1])]], .update true [[(key 2 2, some [2])], [(key 3 3, some [3])]]] (Store.empty, 2 ^ 64 - 2) =
        .ok (s, 2 ^ 64 + 1) ∧
    Tree.getRootHash termHasher s.reader 0 = .ok (smtRoot termHasher (hashed termHasher [(key 1 1, [1]), (key 2 2, [2]), (key 3 3, [3])])) ∧
    s.reader.getValueOption 0 (key 3 3) = some [3] ∧ s.reader.getValueOption 0 (key 1 1) = none := by
  have h : (match runOps64 .wrapping termHasher
      [.update true [[(key 1 1, some [1])]], .update true [[(key 2 2, some [2])], [(key 3 3, some [3])]]] (Store.empty, 2 ^ 64 - 2) with
    | .ok (s, v) => decide (v = 2 ^ 64 + 1) && (match Tree.getRootHash termHasher s.reader 0 with
        | .ok x => decide (x = smtRoot termHasher (hashed termHasher [(key 1 1, [1]), (key 2 2, [2]), (key 3 3, [3])]))
        | .error _ => false) && decide (s.reader.getValueOption 0 (key 3 3) = some [3]) && decide (s.reader.getValueOption 0 (key 1 1) = none)
    | .error _ => false) = true := by decide +kernel
  split at h
  · rename_i s v e
    simp only [Bool.and_eq_true, decide_eq_true_eq] at h
    obtain ⟨⟨⟨rfl, h2⟩, h3⟩, h4⟩ := h
    split at h2
    · rename_i x hx
      rw [decide_eq_true_eq] at h2
      subst h2
      exact ⟨s, e, hx, h3, h4⟩
    · cases h2
  · cases h

-- C102: the checked theorems on calls of three sets over the end, of which the first two are made, in a database with one leaf
example : Tree.batchPutValueSets64 .checked termHasher true ((Store.empty (D := Term)).reader.plus
      ⟨⟨⟨[(⟨2 ^ 64 - 3, []⟩, .leaf ⟨key 9 9, termHasher.value [9]⟩)]⟩, ⟨[]⟩⟩, ⟨[]⟩, []⟩) [[(key 1 1, [1])], [(key 2 2, [2])], [(key 3 3, [3])]] none (2 ^ 64 - 2) =
    .error (.panic "attempt to add with overflow") := by
  rw [C102_checked_batch _ _ _ _ _ (by decide) (by decide)]
  have : (Tree.batchPutValueSets termHasher true ((Store.empty (D := Term)).reader.plus
      ⟨⟨⟨[(⟨2 ^ 64 - 3, []⟩, .leaf ⟨key 9 9, termHasher.value [9]⟩)]⟩, ⟨[]⟩⟩, ⟨[]⟩, []⟩)
      (([[(key 1 1, [1])], [(key 2 2, [2])], [(key 3 3, [3])]] : List (List (Key × Value))).take (2 ^ 64 - (2 ^ 64 - 2))) none (2 ^ 64 - 2)).toOption.isSome = true := by
    decide +kernel
  split
  · rfl
  · rename_i e he
    rw [he] at this
    cases this

end Verif.Props
