import Verif.Proofs.Redo
import Verif.Spec.Steady
import Verif.Props.JmtStore
/-! Property C80: taking up an interrupted write again. -/

set_option autoImplicit false

namespace Verif.Props
open Verif Verif.Jmt Verif.Spec
variable {D : Type}

/-- Two stores that nothing but writing without permission to overwrite can tell apart: the same reads, the same stale marks. -/
def SameState (s s' : Store D) : Prop := s'.reader = s.reader ∧ ∀ i, i ∈ s'.staleNodes ↔ i ∈ s.staleNodes

/-- The history of the values of a key. -/
def Store.history (s : Store D) (k : Key) : List (Version × Option Value) := (s.valueHistory.get k).getD []

/-- `s'` has no stale mark that `s` has not, and no key has more than one further value. -/
def Early (s s' : Store D) : Prop :=
  (∀ i, i ∈ s'.staleNodes → i ∈ s.staleNodes) ∧ ∀ k, (Store.history s' k).length ≤ (Store.history s k).length + 1

/-- **C80.** The writing of an update may be cut short any number of times; each time the same batch is written again. On a store that allows
overwriting, an attempt succeeds exactly if no stale mark and at most one value of each key have been written so far. Then it leaves the store as the
writing of the batch without interruption does; otherwise it reports an error. -/
theorem C80_redo (H : Hasher D) (v0 next : Version) (ops : List Op) (s : Store D) (h : Reached H v0 ops s next) (c : Call)
    (hs : Startable v0 (commitsOf ops ++ c.op.commits)) :
    ∃ roots b s2, c.compute H s next = .ok (roots, b) ∧ s.writeTreeUpdateBatch b = .ok s2 ∧ ∀ s', Attempts s b s' →
      (Early s s' → ∃ s3, s'.writeTreeUpdateBatch b = .ok s3 ∧ SameState s2 s3) ∧
      (¬ Early s s' → ∃ e, s'.writeTreeUpdateBatch b = .error (.err e)) := by
  obtain ⟨rfl, hi⟩ := h.inv
  obtain ⟨roots, b, e1, e2⟩ := c.spec hi hs
  obtain ⟨s2, e3, _⟩ := hi.write e2
  refine ⟨roots, b, s2, e1, e3, ?_⟩
  intro s' ha
  obtain ⟨ho, vs, ms, ⟨vs', hv⟩, hm, hp⟩ := hi.attempts e2 ha
  have hlen : ∀ k, (Store.history s' k).length = (Store.history s k).length + (valuesOf vs k).length := by
    intro k
    have := congrArg List.length (hp.values k)
    rw [List.length_append] at this
    exact this
  have hsort : ∀ k, (valuesOf vs k).Pairwise (fun a b => a.1 < b.1) :=
    fun k => valuesOf_sorted (List.Pairwise.sublist (List.IsPrefix.sublist ⟨vs', hv⟩) e2.vsorted) k
  have hone : ∀ k, (valuesOf vs k).length ≤ 1 ↔ ∀ a ∈ valuesOf vs k, ∀ b ∈ valuesOf vs k, a.1 = b.1 := by
    intro k
    have := hsort k
    match valuesOf vs k, this with
    | [], _ => simp
    | [a], _ => simp
    | a :: b :: l, hh =>
      have hlt := (List.pairwise_cons.1 hh).1 b (by simp)
      constructor
      · intro h; simp at h
      · intro h; have := h a (by simp) b (by simp); omega
  have hmark : (∀ i, i ∈ s'.staleNodes → i ∈ s.staleNodes) ↔ ms = [] := by
    constructor
    · intro h
      match ms, hm, hp with
      | [], _, _ => rfl
      | i :: l, hm, hp => exact absurd (h i ((hp.marks i).2 (.inr (by simp)))) (hi.marksFresh e2 i (hm (by simp)))
    · rintro rfl i hh
      rcases (hp.marks i).1 hh with h | h
      · exact h
      · cases h
  constructor
  · rintro ⟨h1, h2⟩
    obtain rfl := hmark.1 h1
    obtain ⟨s3, g1, g2, g3, g4⟩ := hi.redo e2 hv hp ho (fun k => (hone k).1 (by have := h2 k; rw [hlen] at this; omega)) e3
    exact ⟨s3, g1, reader_ext g2 g3, g4⟩
  · intro hn
    refine StoreInv.redo_err e2 hv hm hp ho ?_
    by_cases hms : ms = []
    · right
      refine Classical.byContradiction (fun hc => hn ⟨hmark.2 hms, fun k => ?_⟩)
      rw [hlen]
      have : (valuesOf vs k).length ≤ 1 := (hone k).2 (fun a ha b hb => Classical.byContradiction (fun hne => hc ⟨k, a, ha, b, hb, hne⟩))
      omega
    · exact .inl hms

/-- **C80**, one version: no key gets more than one value. -/
theorem C80_redo_one (H : Hasher D) (v0 next : Version) (ops : List Op) (s : Store D) (h : Reached H v0 ops s next) (c : Call)
    (hs : Startable v0 (commitsOf ops ++ c.op.commits)) (h1 : c.count ≤ 1) :
    ∃ roots b, c.compute H s next = .ok (roots, b) ∧ ∀ s', Attempts s b s' →
      ∀ k, (Store.history s' k).length ≤ (Store.history s k).length + 1 := by
  obtain ⟨rfl, hi⟩ := h.inv
  obtain ⟨roots, b, e1, e2⟩ := c.spec hi hs
  refine ⟨roots, b, e1, ?_⟩
  intro s' ha k
  obtain ⟨ho, vs, ms, ⟨vs', hv⟩, hm, hp⟩ := hi.attempts e2 ha
  have hlen : (Store.history s' k).length = (Store.history s k).length + (valuesOf vs k).length := by
    have := congrArg List.length (hp.values k)
    rw [List.length_append] at this
    exact this
  have hver : ∀ a ∈ valuesOf vs k, a.1 = v0 + (commitsOf ops).length := by
    rintro ⟨v, x⟩ hx
    have hx' : ((v, k), x) ∈ b.nodeBatch.values.entries := by rw [← hv]; exact List.mem_append_left _ (mem_valuesOf.1 hx)
    have h2 := (OMap.mem_iff_lookup valueKeyLt_strict e2.vsorted).1 hx'
    have h3 := e2.vget v k
    unfold OMap.get at h3
    rw [h2] at h3
    split at h3
    · rename_i hle
      cases hc : c.op.commits[v - (v0 + (commitsOf ops).length)]? with
      | none => rw [hc] at h3; cases h3
      | some cm =>
        have := (List.getElem?_eq_some_iff.1 hc).1
        rw [Call.length] at this
        simp only
        omega
    · cases h3
  have hsort : (valuesOf vs k).Pairwise (fun a b => a.1 < b.1) :=
    valuesOf_sorted (List.Pairwise.sublist (List.IsPrefix.sublist ⟨vs', hv⟩) e2.vsorted) k
  rw [hlen]
  match valuesOf vs k, hsort, hver with
  | [], _, _ => simp
  | [a], _, _ => simp
  | a :: b :: l, hh, hver =>
    have hlt := (List.pairwise_cons.1 hh).1 b (by simp)
    have := hver a (by simp)
    have := hver b (by simp)
    omega

/-- **C80**, without permission to overwrite the batch cannot be written again once one of its nodes has been: the assertion fails. -/
theorem C80_redo_panics (H : Hasher D) (v0 next : Version) (ops : List Op) (s : Store D) (h : Reached H v0 ops s next) (c : Call)
    (hs : Startable v0 (commitsOf ops ++ c.op.commits)) :
    ∃ roots b, c.compute H s next = .ok (roots, b) ∧ ∀ ws ws' s' nk n, WritesOf b (ws ++ ws') → .node nk n ∈ ws → s.applyAll ws = .ok s' →
      ∃ e, Store.writeTreeUpdateBatch { s' with allowOverwrite := false } b = .error (.panic e) := by
  obtain ⟨rfl, hi⟩ := h.inv
  obtain ⟨roots, b, e1, e2⟩ := c.spec hi hs
  refine ⟨roots, b, e1, ?_⟩
  intro ws ws' s' nk n hw hm ha
  have hmb : (nk, n) ∈ b.nodeBatch.nodes.entries := by
    obtain ⟨ns, ms, h1, h2, h3⟩ := hw
    have : Write.node nk n ∈ ws ++ ws' := List.mem_append_left _ hm
    rw [h3] at this
    simp only [List.mem_append, List.mem_map, reduceCtorEq, and_false, exists_false, or_false, Write.node.injEq] at this
    obtain ⟨⟨a, c⟩, h4, rfl, rfl⟩ := this
    exact h1.mem_iff.1 h4
  have hg : (s'.nodes.get nk).isSome = true := by
    have mono : ∀ (ws : List (Write D)) (a c : Store D), a.applyAll ws = .ok c → ((a.nodes.get nk).isSome = true ∨ .node nk n ∈ ws) →
        (c.nodes.get nk).isSome = true := by
      intro ws
      induction ws with
      | nil =>
        intro a c hac hh
        cases hac
        rcases hh with hh | hh
        · exact hh
        · cases hh
      | cons w ws ih =>
        intro a c hac hh
        simp only [Store.applyAll] at hac
        cases e : a.apply w with
        | error e' => rw [e] at hac; cases hac
        | ok a1 =>
          rw [e] at hac
          have hset : ∀ nk' n', w = .node nk' n' → a1.nodes = a.nodes.set nk' n' := by
            rintro nk' n' rfl
            simp only [Store.apply] at e
            split at e
            · cases hx : assert ((a.nodes.get nk').isNone) "assertion failed: replaced == None" with
              | error e' => rw [hx] at e; cases e
              | ok u => rw [hx] at e; cases e; rfl
            · cases e; rfl
          have hsame : (∀ nk' n', w ≠ .node nk' n') → a1.nodes = a.nodes := by
            intro hne
            cases w with
            | node nk' n' => exact absurd rfl (hne nk' n')
            | value v k x =>
              simp only [Store.apply] at e
              cases hx : Store.putValueHistory a.valueHistory v k x with
              | error e' => rw [hx] at e; cases e
              | ok u => rw [hx] at e; cases e; rfl
            | mark i =>
              simp only [Store.apply] at e
              cases hx : ensure (!a.staleNodes.contains i) "Duplicated retire log." with
              | error e' => rw [hx] at e; cases e
              | ok u => rw [hx] at e; cases e; rfl
          refine ih a1 c hac ?_
          rcases hh with hh | hh
          · left
            by_cases hw : ∃ nk' n', w = .node nk' n'
            · obtain ⟨nk', n', hw⟩ := hw
              rw [hset nk' n' hw, FMap.get_set]
              split
              · rfl
              · exact hh
            · rw [hsame (fun a b hab => hw ⟨a, b, hab⟩)]; exact hh
          · rcases List.mem_cons.1 hh with hh | hh
            · left
              rw [hset nk n hh.symm, FMap.get_set, if_pos rfl]; rfl
            · exact .inr hh
    exact mono ws s s' ha (.inr hm)
  obtain ⟨e, he⟩ := writeNodes_taken b.nodeBatch.nodes.entries s'.nodes hmb hg
  refine ⟨e, ?_⟩
  rw [writeTreeUpdateBatch_eq, writesOf, applyAll_three]
  simp only [he]
  rfl

/-- The calls that are known to give the same on a store that holds part of their own batch. -/
def Repeatable (v0 : Version) (ops : List Op) : Call → Prop
  | .put _ sets => commitsOf ops ≠ [] ∧ Steady (contents ((commitsOf ops).map Commit.updates)) sets
  | .batch _ sets => sets.length ≤ preGenesisVersion

/-- **C80**, as far as it holds: after any number of interrupted attempts the update can be computed again and gives the same batch and roots. Full
claim: for all calls. It fails, see `C80_recompute_false`. -/
theorem C80_recompute_partial (H : Hasher D) (v0 next : Version) (ops : List Op) (s : Store D) (h : Reached H v0 ops s next) (c : Call)
    (hs : Startable v0 (commitsOf ops ++ c.op.commits)) (hr : Repeatable v0 ops c) :
    ∃ roots b, c.compute H s next = .ok (roots, b) ∧ ∀ s', Attempts s b s' → c.compute H s' next = .ok (roots, b) := by
  obtain ⟨rfl, hi⟩ := h.inv
  obtain ⟨roots, b, e1, e2⟩ := c.spec hi hs
  refine ⟨roots, b, e1, ?_⟩
  intro s' ha
  obtain ⟨ho, vs, ms, _, _, hp⟩ := hi.attempts e2 ha
  have hmore : ∀ nk n, s.reader.getNodeOption nk = some n → s'.reader.getNodeOption nk = some n := by
    intro nk n hn
    have hn' : s.nodes.get nk = some n := hn
    show s'.nodes.get nk = some n
    rcases hp.nodes nk with h1 | h1
    · rw [h1, hn']
    · rw [h1, hn']
      cases hg : b.nodeBatch.nodes.get nk with
      | none => rfl
      | some n' =>
        have h1 := e2.fresh nk (by rw [hg]; rfl)
        obtain ⟨v, q⟩ := nk
        have := hi.inv.dom v q n hn'
        simp only at h1
        omega
  cases c with
  | put m sets => exact putValueSets_more hi hr.1 hmore m sets hr.2 e1
  | batch m sets =>
    refine batchPutValueSets_more' hmore ?_ (show Tree.batchPutValueSets H m s.reader sets none _ = _ from e1)
    by_cases h0 : v0 + (commitsOf ops).length = 0
    · right
      have hr' : sets.length ≤ preGenesisVersion := hr
      show (s'.nodes.get ⟨preGenesisVersion, []⟩).isSome = (s.nodes.get ⟨preGenesisVersion, []⟩).isSome
      rcases hp.nodes ⟨preGenesisVersion, []⟩ with h1 | h1
      · rw [h1]
      · cases hg : b.nodeBatch.nodes.get ⟨preGenesisVersion, []⟩ with
        | none => rw [h1, hg, Option.none_or]
        | some n =>
          have := (e2.inv.dom preGenesisVersion [] n (by rw [hg]; rfl)).2.1
          rw [List.length_append, Call.length] at this
          simp only [Call.count] at this
          omega
    · exact .inl h0

/-- **C80**, reads: once all nodes and values of the batch are written, all versions are read as after the whole writing, whatever becomes of the
stale marks. -/
theorem C80_reads_before_marks (H : Hasher D) (v0 next : Version) (ops : List Op) (s : Store D) (h : Reached H v0 ops s next) (c : Call)
    (hs : Startable v0 (commitsOf ops ++ c.op.commits)) :
    ∃ roots b s2, c.compute H s next = .ok (roots, b) ∧ s.writeTreeUpdateBatch b = .ok s2 ∧ ∀ ws ws' s', WritesOf b (ws ++ ws') →
      (∀ w ∈ ws', ∃ i, w = .mark i) → s.applyAll ws = .ok s' → s'.reader = s2.reader := by
  obtain ⟨rfl, hi⟩ := h.inv
  obtain ⟨roots, b, e1, e2⟩ := c.spec hi hs
  obtain ⟨s2, e3, _⟩ := hi.write e2
  refine ⟨roots, b, s2, e1, e3, ?_⟩
  intro ws ws' s' hw hm ha
  obtain ⟨f1, f2, f3⟩ := hi.full e2 e3
  obtain ⟨s4, g⟩ := hi.applyAll_perm e2 hw
  have hmarks : ∀ (l : List (Write D)) (a c : Store D), (∀ w ∈ l, ∃ i, w = .mark i) → a.applyAll l = .ok c → c.reader = a.reader := by
    intro l
    induction l with
    | nil => intro a c _ hh; cases hh; rfl
    | cons w l ih =>
      intro a c hl hh
      obtain ⟨i, rfl⟩ := hl w (by simp)
      simp only [Store.applyAll, Store.apply] at hh
      cases he : ensure (!a.staleNodes.contains i) "Duplicated retire log." with
      | error e => rw [he] at hh; cases hh
      | ok u =>
        rw [he] at hh
        exact (ih { a with staleNodes := a.staleNodes.insert i } c (fun w hw => hl w (by simp [hw])) hh).trans rfl
  have g' := g
  rw [Store.applyAll_append, ha] at g'
  rw [← hmarks ws' s' s4 hm g']
  obtain ⟨ns, ms, h1, h2, h3⟩ := hw
  rw [h3, applyAll_three, writeNodes_spec _ ns s.nodes ((h1.map Prod.fst).nodup_iff.2 e2.nodup) (fun e he => hi.nodesFresh e2 e (h1.mem_iff.1 he))] at g
  obtain ⟨vh', k2, k3⟩ := writeValues_spec b.nodeBatch.values.entries s.valueHistory e2.vsorted (hi.valuesFresh e2)
  simp only [Except.bind, k2, putStale_spec ms s.staleNodes (h2.nodup_iff.2 e2.snodup) (fun i hh => hi.marksFresh e2 i (h2.mem_iff.1 hh)), Except.map] at g
  cases g
  refine reader_ext ?_ ?_
  · intro nk
    show (s.nodes.extend ns).get nk = _
    rw [f1, FMap.get_extend _ _ ((h1.map Prod.fst).nodup_iff.2 e2.nodup)]
    congr 1
    cases hg : b.nodeBatch.nodes.get nk with
    | some n => exact FMap.get_of_mem ((h1.map Prod.fst).nodup_iff.2 e2.nodup) (h1.mem_iff.2 (FMap.mem_of_get hg))
    | none =>
      cases hg2 : (⟨ns⟩ : FMap NodeKey (Node D)).get nk with
      | none => rfl
      | some n =>
        have := FMap.get_of_mem e2.nodup (h1.mem_iff.1 (FMap.mem_of_get hg2))
        rw [hg] at this; cases this
  · intro k
    rw [f2]
    exact k3 k

/-! ### Examples and witnesses -/

/-- Every beginning of the changes, in the order of the model, is an attempt. -/
theorem attempts_take (H : Hasher D) (v0 next : Version) (ops : List Op) (s : Store D) (h : Reached H v0 ops s next) (c : Call)
    (hs : Startable v0 (commitsOf ops ++ c.op.commits)) {roots : List D} {b : TreeUpdateBatch D} (hc : c.compute H s next = .ok (roots, b)) (n : Nat) :
    ∃ s', Store.applyAll { s with allowOverwrite := true } ((writesOf b).take n) = .ok s' ∧ Attempts s b s' := by
  obtain ⟨rfl, hi⟩ := h.inv
  obtain ⟨roots', b', e1, e2⟩ := c.spec hi hs
  rw [hc] at e1
  cases e1
  obtain ⟨s4, g⟩ := StoreInv.applyAll_perm (s := { s with allowOverwrite := true })
    ⟨hi.inv, hi.nodup, hi.snodup, hi.values, hi.vnodup⟩
    ⟨e2.inv, e2.nodup, e2.fresh, e2.snodup, e2.since, e2.vsorted, e2.vget, e2.roots, e2.leaf, e2.stats⟩ (writesOf_writes b)
  rw [← List.take_append_drop n (writesOf b), Store.applyAll_append] at g
  cases g1 : Store.applyAll { s with allowOverwrite := true } ((writesOf b).take n) with
  | error e => rw [g1] at g; cases g
  | ok s' =>
    refine ⟨s', rfl, .again .none (ws' := (writesOf b).drop n) ?_ g1⟩
    rw [List.take_append_drop]
    exact writesOf_writes b

/-- One key, at version 0. -/
def exBase : List Op := [.update true [[(key 1 1, some [1])]]]

theorem exBase_startable (m : Bool) (sets : List Tree.ValueSet) : Startable 0 (commitsOf exBase ++ (Call.put m sets).op.commits) :=
  ⟨.inl rfl, by simp [exBase, commitsOf, Op.commits, Call.op]⟩

/-- After `exBase`, the first `n` changes of the call `c` are made; then the call `c2` is made and written. -/
structure Again (c c2 : Call) (s s' s3 : Store Term) : Prop where
  reached : Reached termHasher 0 exBase s 1
  first : ∃ roots b, c.compute termHasher s 1 = .ok (roots, b) ∧ Attempts s b s'
  second : ∃ roots b, c2.compute termHasher s' 1 = .ok (roots, b) ∧ s'.writeTreeUpdateBatch b = .ok s3

/-- The same, computed. -/
def tryAgain (c c2 : Call) (n : Nat) : Res (Store Term × Store Term × Store Term) := do
  let (s, _) ← runOps termHasher exBase (Store.empty, 0)
  let (_, b) ← c.compute termHasher s 1
  let s' ← Store.applyAll { s with allowOverwrite := true } ((writesOf b).take n)
  let (_, b2) ← c2.compute termHasher s' 1
  let s3 ← s'.writeTreeUpdateBatch b2
  pure (s, s', s3)

theorem tryAgain_ok (m : Bool) (sets : List Tree.ValueSet) (c2 : Call) (n : Nat) (P : Store Term → Store Term → Store Term → Bool)
    (h : (match tryAgain (.put m sets) c2 n with | .ok (s, s', s3) => P s s' s3 | .error _ => false) = true) :
    ∃ s s' s3, Again (.put m sets) c2 s s' s3 ∧ P s s' s3 = true := by
  obtain ⟨s, hr⟩ := Reached.exists termHasher (v0 := 0) (ops := exBase) ⟨.inl rfl, by simp [exBase, commitsOf, Op.commits]⟩
  have hr1 : Reached termHasher 0 exBase s 1 := hr
  obtain ⟨_, hi⟩ := hr1.inv
  obtain ⟨roots, b, e1, _⟩ := Call.spec hi (.put m sets) (exBase_startable m sets)
  obtain ⟨s', e2, e3⟩ := attempts_take _ _ _ _ _ hr1 (.put m sets) (exBase_startable m sets) e1 n
  unfold tryAgain at h
  rw [hr1.run] at h
  have e1' : Call.compute termHasher s 1 (.put m sets) = .ok (roots, b) := e1
  simp only [Res.ok_bind, e1', e2] at h
  cases e4 : c2.compute termHasher s' 1 with
  | error e => rw [e4] at h; cases h
  | ok x =>
    obtain ⟨roots2, b2⟩ := x
    rw [e4] at h
    simp only [Res.ok_bind] at h
    cases e5 : s'.writeTreeUpdateBatch b2 with
    | error e => rw [e5] at h; cases h
    | ok s3 =>
      rw [e5] at h
      exact ⟨s, s', s3, ⟨hr1, ⟨roots, b, e1, e3⟩, ⟨roots2, b2, e4, e5⟩⟩, h⟩

/-- An update that deletes the only key twice and stores another one. -/
def exDeleteTwice : Call := .put true [[(key 1 1, none), (key 1 1, none), (key 2 2, some [2])]]

/-- **C80** fails for updates that delete when nothing is stored: the writing of such an update is cut short after its first node; the update is
computed again and written. Its root is now marked stale, and pruning for version 1 loses version 1, which is the newest. -/
theorem C80_recompute_false : ∃ s s' s3 s4, Again exDeleteTwice exDeleteTwice s s' s3 ∧ Early s s' ∧ s3.purgeStaleNodes 1 = .ok s4 ∧
    Readable 0 (exBase ++ [exDeleteTwice.op, .purge 1]) 1 ∧ ∃ e, Tree.getRootHash termHasher s4.reader 1 = .error (.err e) := by
  obtain ⟨s, s', s3, h1, h2⟩ := tryAgain_ok true [[(key 1 1, none), (key 1 1, none), (key 2 2, some [2])]] exDeleteTwice 1 (fun s s' s3 =>
    decide (s'.staleNodes.elems = s.staleNodes.elems) && decide (s'.valueHistory.entries = s.valueHistory.entries) &&
      match s3.purgeStaleNodes 1 with
      | .ok s4 => (match Tree.getRootHash termHasher s4.reader 1 with | .error (.err _) => true | _ => false)
      | .error _ => false) (by decide +kernel)
  simp only [Bool.and_eq_true, decide_eq_true_eq] at h2
  obtain ⟨⟨h3, h4⟩, h5⟩ := h2
  cases e : s3.purgeStaleNodes 1 with
  | error x => rw [e] at h5; cases h5
  | ok s4 =>
    rw [e] at h5
    refine ⟨s, s', s3, s4, h1, ⟨?_, ?_⟩, e, ⟨by decide, by decide, .inr rfl⟩, ?_⟩
    · intro i hi
      rw [FSet.mem_def, h3] at hi
      exact hi
    · intro k
      have : s'.valueHistory = s.valueHistory := by
        have : ∀ a b : FMap Key (List (Version × Option Value)), a.entries = b.entries → a = b := by
          rintro ⟨a⟩ ⟨b⟩ rfl; rfl
        exact this _ _ h4
      simp only [Store.history, this]
      omega
    · simp only at h5
      cases e2 : Tree.getRootHash termHasher s4.reader 1 with
      | ok d => rw [e2] at h5; cases h5
      | error x =>
        rw [e2] at h5
        cases x with
        | err m => exact ⟨m, rfl⟩
        | panic m => cases h5

/-- **C80**: the update must be the same. After part of an update is written, another update of the same version succeeds, but a value of the first
one is found at that version, with a proof that does not fit it. -/
theorem C80_other_update_false : ∃ s s' s3 p, Again (.put true [[(key 1 1, some [9])]]) (.put true [[(key 2 2, some [2])]]) s s' s3 ∧
    contentsAt 0 (exBase ++ [(Call.put true [[(key 2 2, some [2])]]).op]) 1 (key 1 1) = some [1] ∧
    Tree.getWithProof termHasher s3.reader (key 1 1) 1 = .ok (some [9], p) ∧
    (∀ root, Tree.getRootHash termHasher s3.reader 1 = .ok root → ∃ e, p.verify termHasher root (key 1 1) (some [9]) = .error e) := by
  obtain ⟨s, s', s3, h1, h2⟩ := tryAgain_ok true [[(key 1 1, some [9])]] (.put true [[(key 2 2, some [2])]]) 2 (fun _ _ s3 =>
    match Tree.getWithProof termHasher s3.reader (key 1 1) 1, Tree.getRootHash termHasher s3.reader 1 with
    | .ok (some [9], p), .ok root => (match p.verify termHasher root (key 1 1) (some [9]) with | .error _ => true | _ => false)
    | _, _ => false) (by decide +kernel)
  split at h2
  · rename_i p root e1 e2
    refine ⟨s, s', s3, p, h1, by decide +kernel, e1, ?_⟩
    intro root' hr
    rw [e2] at hr
    cases hr
    split at h2
    · rename_i e he; exact ⟨e, he⟩
    · cases h2
  · cases h2

/-- An update that deletes a key, then stores two. -/
def exDeleteFirst : List Tree.ValueSet := [[(key 2 2, some [2]), (key 1 1, none), (key 1 1, some [3])]]

theorem exDeleteFirst_repeatable : Repeatable 0 exBase (.put true exDeleteFirst) := by
  refine ⟨by simp [exBase, commitsOf, Op.commits], ?_, trivial⟩
  intro a k b h
  left
  match a, h with
  | [], h => simp at h
  | [e], h =>
    simp only [List.cons_append, List.nil_append, List.cons.injEq] at h
    obtain ⟨rfl, h, _⟩ := h
    exact ⟨key 1 1, [1], by decide +kernel⟩
  | [e, e'], h => simp at h
  | [e, e', e''], h => simp at h
  | e :: e' :: e'' :: e3 :: l, h => simp at h

/-- The write is cut short after two nodes of the new version; the update is computed and written again. -/
example : ∃ s s' s3, Again (.put true exDeleteFirst) (.put true exDeleteFirst) s s' s3 ∧ s'.nodes.entries.length = s.nodes.entries.length + 2 ∧ Early s s' ∧
    Tree.getLeafCount true s3.reader 1 = .ok (some 2) := by
  obtain ⟨s, s', s3, h1, h2⟩ := tryAgain_ok true exDeleteFirst (.put true exDeleteFirst) 2 (fun s s' s3 =>
    decide (s'.nodes.entries.length = s.nodes.entries.length + 2) && decide (s'.staleNodes.elems = s.staleNodes.elems) &&
      decide (s'.valueHistory.entries = s.valueHistory.entries) &&
      match Tree.getLeafCount true s3.reader 1 with | .ok (some 2) => true | _ => false) (by decide +kernel)
  simp only [Bool.and_eq_true, decide_eq_true_eq] at h2
  obtain ⟨⟨⟨h3, h4⟩, h5⟩, h6⟩ := h2
  refine ⟨s, s', s3, h1, h3, ⟨?_, ?_⟩, ?_⟩
  · intro i hi
    rw [FSet.mem_def, h4] at hi
    exact hi
  · intro k
    have : s'.valueHistory = s.valueHistory := by
      have : ∀ a b : FMap Key (List (Version × Option Value)), a.entries = b.entries → a = b := by
        rintro ⟨a⟩ ⟨b⟩ rfl; rfl
      exact this _ _ h5
    simp only [Store.history, this]
    omega
  · split at h6
    · assumption
    · cases h6

end Verif.Props
