import Verif.Pmt.Failing
import Verif.Proofs.PmtFaulty
import Verif.Proofs.PmtOrder
/-! Lookups that fail: a call does what it does otherwise, or returns the database error. -/

set_option autoImplicit false

namespace Verif.Pmt

variable {K : Keccak} {db : Db} {bad : H256 → Bool}

/-- The same result, or the database error. -/
def OrDb {α : Type} (x y : Res α) : Prop := x = y ∨ x = dbError

/-- The same outcome, or the database error after passing hash nodes that are passed otherwise too. -/
def OutDb {α : Type} (x y : Out α) : Prop := x = y ∨ (x.2 = dbError ∧ ∀ h ∈ x.1, h ∈ y.1)

theorem recoverF_or (h : H256) : OrDb (recoverF db bad h) (recover db h) := by
  unfold recoverF
  split
  · exact .inr rfl
  · exact .inl rfl

theorem fetchF_or (h : H256) : OrDb (fetchF db bad h) (fetch db h) := by
  unfold fetchF fetch
  rcases recoverF_or (db := db) (bad := bad) h with e | e <;> rw [e]
  · exact .inl rfl
  · exact .inr rfl

theorem getStep_or {f g : H256 → Nibbles → Res (Option Bytes)} (h : ∀ x p, OrDb (f x p) (g x p)) (n : Node) (p : Nibbles) :
    OrDb (getStep f n p) (getStep g n p) := by
  induction n generalizing p with
  | empty => exact .inl rfl
  | leaf k v => exact .inl rfl
  | hash x => exact h x p
  | ext pre sub ih =>
    simp only [getStep]
    split
    · exact ih _
    · exact .inl rfl
  | branch ch v ih =>
    cases p with
    | nil => exact .inl rfl
    | cons x t =>
      simp only [getStep]
      split
      · exact .inl rfl
      · split
        · exact ih _ _
        · exact .inl rfl

theorem getAtF_or (fuel : Nat) (n : Node) (p : Nibbles) : OrDb (getAtF db bad fuel n p) (getAt db fuel n p) := by
  induction fuel generalizing n p with
  | zero => exact .inl rfl
  | succ fuel ih =>
    refine getStep_or (fun x p => ?_) n p
    rcases fetchF_or (db := db) (bad := bad) x with e | e <;> rw [e]
    · rcases fetch db x with e | n
      · exact .inl rfl
      · exact ih n p
    · exact .inr rfl

theorem pathStep_or {f g : H256 → Nibbles → Res (List Node)} (h : ∀ x p, OrDb (f x p) (g x p)) (n : Node) (p : Nibbles) :
    OrDb (pathStep f n p) (pathStep g n p) := by
  induction n generalizing p with
  | empty => exact .inl rfl
  | leaf k v => exact .inl rfl
  | hash x => exact h x p
  | ext pre sub ih =>
    simp only [pathStep]
    split
    · exact ih _
    · exact .inl rfl
  | branch ch v ih =>
    cases p with
    | nil => exact .inl rfl
    | cons x t =>
      simp only [pathStep]
      split
      · exact .inl rfl
      · split
        · exact ih _ _
        · exact .inl rfl

theorem pathAtF_or (fuel : Nat) (n : Node) (p : Nibbles) : OrDb (pathAtF db bad fuel n p) (pathAt db fuel n p) := by
  induction fuel generalizing n p with
  | zero => exact .inl rfl
  | succ fuel ih =>
    refine pathStep_or (fun x p => ?_) n p
    rcases fetchF_or (db := db) (bad := bad) x with e | e <;> rw [e]
    · rcases fetch db x with e | n
      · exact .inl rfl
      · simp only [bind, Except.bind]
        rcases ih n p with e | e <;> rw [e]
        · exact .inl rfl
        · exact .inr rfl
    · exact .inr rfl

/-! ### Updates -/

theorem OutDb.refl {α : Type} (x : Out α) : OutDb x x := .inl rfl

theorem OutDb.map {α β : Type} {x y : Out α} (h : OutDb x y) (f : α → β) : OutDb (x.map f) (y.map f) := by
  rcases h with rfl | ⟨e, h⟩
  · exact .inl rfl
  · refine .inr ⟨?_, h⟩
    show x.2.map f = _
    rw [e]
    rfl

theorem Out.mem_andThen {α β : Type} {x : Out α} {f : α → Out β} {h : H256} (hh : h ∈ x.1) : h ∈ (x.andThen f).1 := by
  unfold Out.andThen
  split
  · exact hh
  · exact List.mem_append_left _ hh

theorem OutDb.andThen {α β : Type} {x y : Out α} (h : OutDb x y) {f g : α → Out β} (hf : ∀ a, OutDb (f a) (g a)) :
    OutDb (x.andThen f) (y.andThen g) := by
  rcases h with rfl | ⟨e, h⟩
  · unfold Out.andThen
    rcases x with ⟨l, e | a⟩
    · exact .inl rfl
    · dsimp only
      rcases hf a with e | ⟨e, h⟩
      · rw [e]; exact .inl rfl
      · refine .inr ⟨e, fun k hk => ?_⟩
        rcases List.mem_append.1 hk with hk | hk
        · exact List.mem_append_left _ hk
        · exact List.mem_append_right _ (h k hk)
  · have e2 : x.andThen f = (x.1, dbError) := by
      unfold Out.andThen
      rw [e]
      rfl
    rw [e2]
    exact .inr ⟨rfl, fun k hk => Out.mem_andThen (h k hk)⟩

theorem OutDb.fetch {β : Type} (x : H256) {f g : Node → Out β} (hf : ∀ a, OutDb (f a) (g a)) :
    OutDb (Out.andThen ([x], fetchF db bad x) f) (Out.andThen ([x], Pmt.fetch db x) g) := by
  refine OutDb.andThen ?_ hf
  rcases fetchF_or (db := db) (bad := bad) x with e | e <;> rw [e]
  · exact .inl rfl
  · exact .inr ⟨rfl, fun _ h => h⟩

theorem insertStep_or {f g : H256 → Nibbles → Out Node} (h : ∀ x p, OutDb (f x p) (g x p)) (v : Bytes) (n : Node) (p : Nibbles) :
    OutDb (insertStep f v n p) (insertStep g v n p) := by
  induction n generalizing p with
  | empty => exact .inl rfl
  | leaf k v => exact .inl rfl
  | hash x => exact h x p
  | ext pre sub ih =>
    simp only [insertStep]
    split
    · exact .inl rfl
    · split
      · exact (ih _).map _
      · exact .inl rfl
  | branch ch v ih =>
    cases p with
    | nil => exact .inl rfl
    | cons x t =>
      simp only [insertStep]
      split
      · exact .inl rfl
      · split
        · exact (ih _ _).map _
        · exact .inl rfl

theorem insertAtF_or (v : Bytes) (fuel : Nat) (n : Node) (p : Nibbles) : OutDb (insertAtF db bad v fuel n p) (insertAt db v fuel n p) := by
  induction fuel generalizing n p with
  | zero => exact .inl rfl
  | succ fuel ih => exact insertStep_or (fun x p => OutDb.fetch x (fun n => ih n p)) v n p

theorem degenerateExt_or {f g : H256 → Nibbles → Out Node} (h : ∀ x p, OutDb (f x p) (g x p)) (p : Nibbles) (n : Node) :
    OutDb (degenerateExt f p n) (degenerateExt g p n) := by
  induction n generalizing p with
  | empty => exact .inl rfl
  | leaf k v => exact .inl rfl
  | hash x => exact h x p
  | ext pre sub ih => exact ih _
  | branch ch v ih => exact .inl rfl

theorem degenerateExtAtF_or (fuel : Nat) (p : Nibbles) (n : Node) : OutDb (degenerateExtAtF db bad fuel p n) (degenerateExtAt db fuel p n) := by
  induction fuel generalizing n p with
  | zero => exact .inl rfl
  | succ fuel ih => exact degenerateExt_or (fun x p => OutDb.fetch x (fun n => ih p n)) p n

theorem afterDeleteF_or (x : Node × Bool) : OutDb (afterDeleteF db bad x) (afterDelete db x) := by
  have hd : ∀ n, OutDb (degenerateF db bad n) (degenerate db n) := by
    intro n
    cases n with
    | branch ch v =>
      unfold degenerateF degenerate
      dsimp only
      rcases usedIndexes ch with _ | ⟨i, _ | _⟩ <;> rcases v with _ | v <;> first | exact .inl rfl | exact degenerateExtAtF_or _ _ _
    | ext pre sub => exact degenerateExtAtF_or _ _ _
    | _ => exact .inl rfl
  unfold afterDeleteF afterDelete
  split
  · exact (hd _).map _
  · exact .inl rfl

theorem deleteStepF_or {f g : H256 → Nibbles → Out (Node × Bool)} (h : ∀ x p, OutDb (f x p) (g x p)) (n : Node) (p : Nibbles) :
    OutDb (deleteStepF db bad f n p) (deleteStep db g n p) := by
  induction n generalizing p with
  | empty => exact .inl rfl
  | leaf k v => exact .inl rfl
  | hash x => exact (h x p).andThen (fun a => afterDeleteF_or a)
  | ext pre sub ih =>
    simp only [deleteStepF, deleteStep]
    split
    · exact (ih _).andThen (fun a => afterDeleteF_or _)
    · exact .inl rfl
  | branch ch v ih =>
    cases p with
    | nil => exact .inl rfl
    | cons x t =>
      simp only [deleteStepF, deleteStep]
      split
      · exact .inl rfl
      · split
        · exact (ih _ _).andThen (fun a => afterDeleteF_or _)
        · exact .inl rfl

theorem deleteAtF_or (fuel : Nat) (n : Node) (p : Nibbles) : OutDb (deleteAtF db bad fuel n p) (deleteAt db fuel n p) := by
  induction fuel generalizing n p with
  | zero => exact deleteStepF_or (fun x p => .inl rfl) n p
  | succ fuel ih => exact deleteStepF_or (fun x p => OutDb.fetch x (fun n => ih n p)) n p

/-! ### Tries -/

theorem Trie.insertF_or (t : Trie) (k v : Bytes) : t.insertF db bad k v = t.insert db k v ∨
    ∃ ps, t.insertF db bad k v = .ok ({ t with passingKeys := ps ++ t.passingKeys }, some "database error") ∧ v ≠ [] ∧
      ∀ h ∈ ps, h ∈ (insertAt db v (hops db (path k)) t.root (path k)).1 := by
  unfold Trie.insertF Trie.insert
  split
  · exact .inl rfl
  · rename_i hv
    rcases insertAtF_or (db := db) (bad := bad) v (hops db (path k)) t.root (path k) with e | ⟨e, h⟩
    · rw [e]; exact .inl rfl
    · refine .inr ⟨_, ?_, by simpa using hv, h⟩
      dsimp only
      rw [e]
      rfl

theorem Trie.removeF_or (t : Trie) (k : Bytes) : t.removeF db bad k = t.remove db k ∨
    ∃ ps, t.removeF db bad k = .ok ({ t with passingKeys := ps ++ t.passingKeys }, .error "database error") ∧
      ∀ h ∈ ps, h ∈ (deleteAt db (hops db (path k)) t.root (path k)).1 := by
  unfold Trie.removeF Trie.remove
  rcases deleteAtF_or (db := db) (bad := bad) (hops db (path k)) t.root (path k) with e | ⟨e, h⟩
  · rw [e]; exact .inl rfl
  · refine .inr ⟨_, ?_, h⟩
    dsimp only
    rw [e]
    rfl

theorem Trie.getProofF_or (t : Trie) (k : Bytes) : t.getProofF K db bad k = t.getProof K db k ∨
    t.getProofF K db bad k = .ok (t, .error "database error") := by
  unfold Trie.getProofF Trie.getProof
  rcases pathAtF_or (db := db) (bad := bad) (hops db (path k)) t.root (path k) with e | e <;> rw [e]
  · exact .inl rfl
  · exact .inr rfl

/-- The state in which the root is read back in `commit`. -/
theorem Trie.commitF_or (t : Trie) : t.commitF K db bad = t.commit K db ∨
    ∃ t1 h, t.writeRoot K = .ok (t1, h) ∧
      t.commitF K db bad = .ok ({ t1 with cache := [], rootHash := h, genKeys := [], passingKeys := [] },
        (db.insertBatch t1.cache).removeBatch (t1.passingKeys.filter (fun k => !(t1.genKeys.contains k))), .error "database error") := by
  unfold Trie.commitF Trie.commit
  rcases hw : t.writeRoot K with e | ⟨t1, h⟩
  · exact .inl rfl
  · simp only [Res.ok_bind]
    rcases recoverF_or (db := (db.insertBatch t1.cache).removeBatch (t1.passingKeys.filter (fun k => !(t1.genKeys.contains k)))) (bad := bad) h with e | e <;> rw [e]
    · exact .inl rfl
    · exact .inr ⟨t1, h, rfl, rfl⟩

/-! ### No lookup fails -/

section
variable (hb : ∀ h, bad h = false)
include hb

theorem recoverF_none : recoverF db bad = recover db := by
  funext h
  unfold recoverF
  rw [hb]
  rfl

theorem fetchF_none : fetchF db bad = fetch db := by
  funext h
  unfold fetchF fetch
  rw [recoverF_none hb]
  rfl

theorem getAtF_none (fuel : Nat) : getAtF db bad fuel = getAt db fuel := by
  induction fuel with
  | zero => rfl
  | succ fuel ih =>
    unfold getAtF getAt
    rw [fetchF_none hb, ih]
    rfl

theorem insertAtF_none (v : Bytes) (fuel : Nat) : insertAtF db bad v fuel = insertAt db v fuel := by
  induction fuel with
  | zero => rfl
  | succ fuel ih => unfold insertAtF insertAt; rw [fetchF_none hb, ih]

theorem degenerateExtAtF_none (fuel : Nat) : degenerateExtAtF db bad fuel = degenerateExtAt db fuel := by
  induction fuel with
  | zero => rfl
  | succ fuel ih => unfold degenerateExtAtF degenerateExtAt; rw [fetchF_none hb, ih]

theorem afterDeleteF_none : afterDeleteF db bad = afterDelete db := by
  have hd : degenerateF db bad = degenerate db := by
    funext n
    unfold degenerateF degenerate
    simp only [degenerateExtAtF_none hb]
    rfl
  funext x
  unfold afterDeleteF afterDelete
  rw [hd]

theorem deleteStepF_none (hop : H256 → Nibbles → Out (Node × Bool)) (n : Node) (p : Nibbles) : deleteStepF db bad hop n p = deleteStep db hop n p := by
  induction n generalizing p with
  | empty => rfl
  | leaf k v => rfl
  | hash x => simp only [deleteStepF, deleteStep, afterDeleteF_none hb]
  | ext pre sub ih => simp only [deleteStepF, deleteStep, afterDeleteF_none hb, ih]
  | branch ch v ih =>
    cases p with
    | nil => rfl
    | cons x t => simp only [deleteStepF, deleteStep, afterDeleteF_none hb, ih]

theorem deleteAtF_none (fuel : Nat) : deleteAtF db bad fuel = deleteAt db fuel := by
  induction fuel with
  | zero => funext n p; exact deleteStepF_none hb _ n p
  | succ fuel ih => funext n p; unfold deleteAtF deleteAt; rw [deleteStepF_none hb, fetchF_none hb, ih]

theorem pathAtF_none (fuel : Nat) : pathAtF db bad fuel = pathAt db fuel := by
  induction fuel with
  | zero => rfl
  | succ fuel ih => unfold pathAtF pathAt; rw [fetchF_none hb, ih]

theorem Sys.stepR_none (s : Sys) (op : Op) : s.stepR K (.call op bad) = s.step K op := by
  cases op with
  | new => rfl
  | openAt j => rfl
  | insert i k v =>
    simp only [Sys.stepR, Sys.step, Sys.insert, Trie.insertF, Trie.insert, insertAtF_none hb]
    rfl
  | remove i k =>
    simp only [Sys.stepR, Sys.step, Sys.remove, Trie.removeF, Trie.remove, deleteAtF_none hb]
    rfl
  | commit i =>
    simp only [Sys.stepR, Sys.step, Sys.commit, Trie.commitF, Trie.commit, recoverF_none hb]
    rfl
  | proof i k =>
    simp only [Sys.stepR, Sys.step, Sys.proof, Trie.getProofF, Trie.getProof, pathAtF_none hb]
    rfl

theorem Iter.roundF_none (it : Iter) : it.roundF db bad = it.round db := by
  obtain ⟨nib, _ | ⟨⟨n, st⟩, rest⟩⟩ := it
  · rfl
  · cases n <;> cases st <;> first | rfl | (simp only [Iter.roundF, Iter.round, recoverF_none hb]; rfl)

theorem Iter.nextF_none (fuel : Nat) (it : Iter) : Iter.nextF db bad fuel it = Iter.next db fuel it := by
  induction fuel generalizing it with
  | zero => rfl
  | succ fuel ih => unfold Iter.nextF Iter.next; simp only [Iter.roundF_none hb, ih]; rfl

end

/-! ### Iterators -/

theorem Iter.roundF_or (it : Iter) : it.roundF db bad = it.round db ∨ ∃ it', it.roundF db bad = .ok (.none it') := by
  obtain ⟨nib, _ | ⟨⟨n, st⟩, rest⟩⟩ := it
  · exact .inl rfl
  · cases n with
    | hash h =>
      cases st with
      | doing =>
        simp only [Iter.roundF, Iter.round]
        rcases recoverF_or (db := db) (bad := bad) h with e | e <;> rw [e]
        · exact .inl rfl
        · exact .inr ⟨_, rfl⟩
      | _ => exact .inl rfl
    | _ => exact .inl (by cases st <;> rfl)

theorem Iter.nextF_or (fuel : Nat) (it : Iter) : Iter.nextF db bad fuel it = Iter.next db fuel it ∨ ∃ it', Iter.nextF db bad fuel it = .ok (it', none) := by
  induction fuel generalizing it with
  | zero => exact .inl rfl
  | succ fuel ih =>
    unfold Iter.nextF Iter.next
    rcases Iter.roundF_or (db := db) (bad := bad) it with e | ⟨it', e⟩ <;> rw [e]
    · rcases it.round db with e | (it | ⟨it, k, v⟩ | it)
      · exact .inl rfl
      · exact ih it
      · exact .inl rfl
      · exact .inl rfl
    · exact .inr ⟨it', rfl⟩

theorem Iter.collectF_prefix (fuel calls : Nat) (bads : Nat → H256 → Bool) (it : Iter) {l : List (Bytes × Bytes)} (h : Iter.collect db fuel calls it = .ok l) :
    ∃ l', Iter.collectF db fuel calls bads it = .ok l' ∧ l' <+: l := by
  induction calls generalizing it l bads with
  | zero => cases h
  | succ calls ih =>
    unfold Iter.collect at h
    unfold Iter.collectF
    rcases Iter.nextF_or (db := db) (bad := bads 0) fuel it with e | ⟨it', e⟩ <;> rw [e]
    · rcases hn : Iter.next db fuel it with e | ⟨it', _ | x⟩ <;> rw [hn] at h
      · cases h
      · exact ⟨[], rfl, List.nil_prefix⟩
      · dsimp only at h ⊢
        rcases hc : Iter.collect db fuel calls it' with e | l1
        · rw [hc] at h; cases h
        · rw [hc] at h
          cases h
          obtain ⟨l', e', hp⟩ := ih (fun n => bads (n + 1)) it' hc
          rw [e']
          exact ⟨x :: l', rfl, by rw [List.cons_prefix_cons]; exact ⟨rfl, hp⟩⟩
    · exact ⟨[], rfl, List.nil_prefix⟩

/-! ### Archive databases -/

theorem Both.symm {α β : Type} {R : α → β → Prop} {a : List α} {b : List β} (h : Both R a b) : Both (fun y x => R x y) b a :=
  ⟨h.1.symm, fun i y x hy hx => h.2 i x y hx hy⟩

theorem Alikes.symm {s s0 : Sys} {σ : Spec.State} (h : Alikes K s s0 σ) : Alikes K s0 s σ :=
  ⟨h.inv0, h.inv, h.tries.symm.mono (fun _ _ e => e.symm), h.roots.symm⟩

theorem NoClash.swap {a b : List Bytes} (h : NoClash K (a ++ b)) : NoClash K (b ++ a) :=
  h.subset (fun _ hx => List.mem_append.2 (List.mem_append.1 hx).symm)

/-- No call returns the database error when no lookup fails. -/
theorem SysInv.not_dbError {s s' : Sys} {σ : Spec.State} (h : SysInv K False s σ) {op : Op} {r : Ret} (hop : Spec.Fits op) (hnc : NoClash K s.db.log)
    (hs : s.step K op = .ok (s', r)) : Spec.IsDbError r = false := by
  by_cases hv : ∃ i k, op = .insert i k []
  · obtain ⟨i, k, rfl⟩ := hv
    simp only [Sys.step, Sys.insert] at hs
    rcases ht : s.tries[i]? with _ | tr <;> rw [ht] at hs
    · cases hs; rfl
    · have e : tr.insert s.db k [] = .ok (tr, some "value provided for key is empty") := rfl
      simp only [e] at hs
      cases hs
      rfl
  · rcases h.step (op := op) hop False.elim hnc with ⟨s1, r1, e, ha, -⟩ | ⟨_, _, _, _, _, _, _, e⟩
    · rw [hs] at e
      cases e
      cases op with
      | new => cases ha; rfl
      | openAt j => simp only [Spec.Answers] at ha; subst ha; split <;> rfl
      | insert i k v =>
        simp only [Spec.Answers] at ha
        split at ha
        · split at ha
          · rename_i e; subst e; exact (hv ⟨i, k, rfl⟩).elim
          · subst ha; rfl
        · subst ha; rfl
      | remove i k =>
        simp only [Spec.Answers] at ha
        split at ha
        · subst ha; rfl
        · obtain ⟨b, rfl, -⟩ := ha; rfl
      | commit i =>
        simp only [Spec.Answers] at ha
        split at ha
        · obtain ⟨b, rfl⟩ := ha; rfl
        · subst ha; rfl
      | proof i k =>
        simp only [Spec.Answers] at ha
        split at ha
        · obtain ⟨b, rfl⟩ := ha; rfl
        · subst ha; rfl
    · rw [hs] at e; cases e

/-- A call of a trie: what it does otherwise, or the database error with the same root, and nodes added to the database. -/
theorem Sys.stepR_or (s : Sys) (op : Op) : s.stepR K (.call op bad) = s.step K op ∨
    ∃ i tr tr' db', s.tries[i]? = some tr ∧ s.stepR K (.call op bad) = .ok (⟨db', s.tries.set i tr', s.roots⟩, .failed "database error") ∧ tr'.root = tr.root ∧
      ((db' = s.db ∧ tr'.cache = tr.cache) ∨ ∃ t1 h l, tr.writeRoot K = .ok (t1, h) ∧ tr'.cache = [] ∧ db' = (s.db.insertBatch t1.cache).removeBatch l) := by
  cases op with
  | new => exact .inl rfl
  | openAt j => exact .inl rfl
  | insert i k v =>
    simp only [Sys.stepR, Sys.step]
    rcases ht : s.tries[i]? with _ | tr
    · exact .inl rfl
    · rcases tr.insertF_or (db := s.db) (bad := bad) k v with e | ⟨ps, e, -⟩ <;> dsimp only <;> rw [e]
      · exact .inl rfl
      · exact .inr ⟨i, tr, _, s.db, ht, rfl, rfl, .inl ⟨rfl, rfl⟩⟩
  | remove i k =>
    simp only [Sys.stepR, Sys.step]
    rcases ht : s.tries[i]? with _ | tr
    · exact .inl rfl
    · rcases tr.removeF_or (db := s.db) (bad := bad) k with e | ⟨ps, e, -⟩ <;> dsimp only <;> rw [e]
      · exact .inl rfl
      · exact .inr ⟨i, tr, _, s.db, ht, rfl, rfl, .inl ⟨rfl, rfl⟩⟩
  | commit i =>
    simp only [Sys.stepR, Sys.step]
    rcases ht : s.tries[i]? with _ | tr
    · exact .inl rfl
    · rcases tr.commitF_or (K := K) (db := s.db) (bad := bad) with e | ⟨t1, h, hw, e⟩ <;> dsimp only <;> rw [e]
      · exact .inl rfl
      · exact .inr ⟨i, tr, _, _, ht, rfl, (Trie.writeRoot_root hw).1, .inr ⟨t1, h, _, hw, rfl, rfl⟩⟩
  | proof i k =>
    simp only [Sys.stepR, Sys.step]
    rcases ht : s.tries[i]? with _ | tr
    · exact .inl rfl
    · rcases tr.getProofF_or (K := K) (db := s.db) (bad := bad) k with e | e <;> dsimp only <;> rw [e]
      · exact .inl rfl
      · exact .inr ⟨i, tr, _, s.db, ht, rfl, rfl, .inl ⟨rfl, rfl⟩⟩

theorem Alikes.call {s s0 : Sys} {σ : Spec.State} (h : Alikes K s s0 σ) {op : Op} (hop : Spec.Fits op) (hnc : NoClash K (s.db.log ++ s0.db.log)) (bad : H256 → Bool) :
    (∃ e e', s.stepR K (.call op bad) = .error e ∧ s0.step K op = .error e') ∨
    (∃ s' r, s.stepR K (.call op bad) = .ok (s', r) ∧ Spec.IsDbError r = true ∧ Alikes K s' s0 σ) ∨
    ∃ s' s0' r, s.stepR K (.call op bad) = .ok (s', r) ∧ Spec.IsDbError r = false ∧ s0.step K op = .ok (s0', r) ∧
      (NoClash K (s'.db.log ++ s0'.db.log) → Alikes K s' s0' (Spec.step σ op)) := by
  rcases s.stepR_or (K := K) (bad := bad) op with e | ⟨i, tr, tr', db', ht, e, hr, hd⟩
  · rw [e]
    rcases hs : s.step K op with x | ⟨s', r⟩
    · left
      rcases hs0 : s0.step K op with y | ⟨s0', r⟩
      · exact ⟨x, y, rfl, rfl⟩
      · obtain ⟨s', e', -⟩ := h.step hop hs0 hnc
        rw [hs] at e'
        cases e'
    · right; right
      obtain ⟨s0', e0, g⟩ := h.symm.step hop hs hnc.swap
      exact ⟨s', s0', r, rfl, h.inv.not_dbError hop hnc.left hs, e0, fun hn => (g hn.swap).symm⟩
  · refine .inr (.inl ⟨_, _, e, rfl, ?_⟩)
    obtain ⟨m, hm, g⟩ := h.inv.tries.some ht
    have key : DbInv K db' ∧ (∀ b ∈ s.db.log, b ∈ db'.log) ∧ HandleInv K False db' tr' m := by
      rcases hd with ⟨rfl, hc⟩ | ⟨t1, x, l, hw, hc, rfl⟩
      · refine ⟨h.inv.db, fun _ hb => hb, ?_⟩
        unfold HandleInv HandleQ
        rw [hr, hc]
        exact g
      · obtain ⟨t2, t, e2, hc2, -⟩ := Trie.writeRoot_ok g
        rw [hw] at e2
        cases e2
        have hi := h.inv.db.insertBatch hc2
        rw [removeBatch_archive hi.archive]
        have hl : ∀ b ∈ s.db.log, b ∈ (s.db.insertBatch t1.cache).log := fun b hb => (insertBatch_log _ _).2 (.inl hb)
        refine ⟨hi, hl, ?_⟩
        obtain ⟨_, t0, g1, g2⟩ := g
        refine ⟨(by rw [hc]; intro e he; cases he), t0, ?_, g2⟩
        rw [hr]
        exact g1.mono hl
    obtain ⟨k1, k2, k3⟩ := key
    refine ⟨⟨k1, ?_, ?_⟩, h.inv0, ?_, h.roots⟩
    · refine (h.inv.tries.mono (fun _ _ h => h.mono k2)).set_left i fun y hy => ?_
      rw [hm] at hy
      cases hy
      exact k3
    · exact h.inv.roots.mono (fun _ _ h => h.mono k2)
    · refine h.tries.set_left i fun y hy => ?_
      rw [hr]
      exact h.tries.2 i _ _ ht hy

theorem Sys.runR_of {s s1 s' : Sys} {op : ROp} {ops : List ROp} {r : Ret} {rs : List Ret} (h1 : s.stepR K op = .ok (s1, r))
    (h2 : s1.runR K ops = .ok (s', rs)) : s.runR K (op :: ops) = .ok (s', r :: rs) := by
  unfold Sys.runR
  rw [h1]
  simp only [h2]

/-- What a program with failures amounts to: it runs as the calls that worked do; or the call that panics would panic after the calls that worked; or there is
a collision. -/
def OutcomeR (K : Keccak) (s s0 : Sys) (σ : Spec.State) (ops : List ROp) : Prop :=
  (∃ s' rs s0', s.runR K ops = .ok (s', rs) ∧ s0.run K ((Spec.worked ops rs).map Prod.fst) = .ok (s0', (Spec.worked ops rs).map Prod.snd) ∧
    Alikes K s' s0' (((Spec.worked ops rs).map Prod.fst).foldl Spec.step σ)) ∨
  (∃ pre op bad s1 s2 rs e, pre ++ [.call op bad] <+: ops ∧ s.runR K pre = .ok (s1, rs) ∧
    s0.run K ((Spec.worked pre rs).map Prod.fst) = .ok (s2, (Spec.worked pre rs).map Prod.snd) ∧ s2.step K op = .error e ∧
    ∃ i k, op = .proof i k) ∨
  ∃ pre s1 s2 rs, pre <+: ops ∧ s.runR K pre = .ok (s1, rs) ∧
    s0.run K ((Spec.worked pre rs).map Prod.fst) = .ok (s2, (Spec.worked pre rs).map Prod.snd) ∧ ¬ NoClash K (s1.db.log ++ s2.db.log)

theorem Alikes.totalR {s s0 : Sys} {σ : Spec.State} {ops : List ROp} (h : Alikes K s s0 σ) (hfit : ∀ op ∈ Spec.attempted ops, Spec.Fits op)
    (hnc : NoClash K (s.db.log ++ s0.db.log)) : OutcomeR K s s0 σ ops := by
  induction ops generalizing s s0 σ with
  | nil => exact .inl ⟨s, [], s0, rfl, rfl, h⟩
  | cons op ops ih =>
    have lift : ∀ {s1 s01 : Sys} {r : Ret} {σ1 : Spec.State}, s.stepR K op = .ok (s1, r) →
        (∀ p rs s2, s01.run K ((Spec.worked p rs).map Prod.fst) = .ok (s2, (Spec.worked p rs).map Prod.snd) →
          s0.run K ((Spec.worked (op :: p) (r :: rs)).map Prod.fst) = .ok (s2, (Spec.worked (op :: p) (r :: rs)).map Prod.snd)) →
        (∀ p rs, ((Spec.worked (op :: p) (r :: rs)).map Prod.fst).foldl Spec.step σ = ((Spec.worked p rs).map Prod.fst).foldl Spec.step σ1) →
        (∀ o ∈ Spec.attempted ops, Spec.Fits o) → (NoClash K (s1.db.log ++ s01.db.log) → Alikes K s1 s01 σ1) → OutcomeR K s s0 σ (op :: ops) := by
      intro s1 s01 r σ1 e hr hσ hf g
      by_cases hn : NoClash K (s1.db.log ++ s01.db.log)
      · rcases ih (g hn) hf hn with ⟨s', rs, s0', a1, a2, a3⟩ | ⟨pre, o, b, s', s2, rs, x, a1, a2, a3, a4⟩ | ⟨pre, s', s2, rs, a1, a2, a3, a4⟩
        · exact Or.inl ⟨s', r :: rs, s0', Sys.runR_of e a1, hr _ _ _ a2, by rw [hσ]; exact a3⟩
        · exact Or.inr (Or.inl ⟨op :: pre, o, b, s', s2, r :: rs, x, by rw [List.cons_append, List.cons_prefix_cons]; exact ⟨rfl, a1⟩, Sys.runR_of e a2, hr _ _ _ a3, a4⟩)
        · exact Or.inr (Or.inr ⟨op :: pre, s', s2, r :: rs, by rw [List.cons_prefix_cons]; exact ⟨rfl, a1⟩, Sys.runR_of e a2, hr _ _ _ a3, a4⟩)
      · exact Or.inr (Or.inr ⟨[op], s1, s01, [r], by simp, Sys.runR_of e rfl, hr [] [] s01 rfl, hn⟩)
    cases op with
    | fail i f =>
      obtain ⟨s1, r, e, g⟩ := h.fail i f
      exact lift (s01 := s0) (σ1 := σ) e (fun _ _ _ h => h) (fun _ _ => rfl) hfit (fun _ => g)
    | call op bad =>
      have hop : Spec.Fits op := hfit op (by simp [Spec.attempted])
      have hf : ∀ o ∈ Spec.attempted ops, Spec.Fits o := fun o ho => hfit o (by simp [Spec.attempted, ho])
      rcases h.call hop hnc bad with ⟨e, e', h1, h2⟩ | ⟨s1, r, e, hr, g⟩ | ⟨s1, s01, r, e, hr, e0, g⟩
      · refine .inr (.inl ⟨[], op, bad, s, s0, [], e', by simp, rfl, rfl, h2, ?_⟩)
        rcases h.inv0.step (op := op) hop False.elim hnc.right with ⟨_, _, e, _⟩ | ⟨i, k, _, _, e, _⟩
        · rw [h2] at e; cases e
        · exact ⟨i, k, e⟩
      · exact lift (s01 := s0) (σ1 := σ) e (fun _ _ _ h => by simpa only [Spec.worked, hr, if_true] using h)
          (fun _ _ => by simp only [Spec.worked, hr, if_true]) hf (fun _ => g)
      · refine lift e (fun p rs s2 h => ?_) (fun p rs => ?_) hf g
        · simp only [Spec.worked, hr, Bool.false_eq_true, if_false, List.map_cons]
          exact Sys.run_of e0 h
        · simp only [Spec.worked, hr, Bool.false_eq_true, if_false, List.map_cons, List.foldl_cons]

end Verif.Pmt
