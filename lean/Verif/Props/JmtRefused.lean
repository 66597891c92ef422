import Verif.Proofs.Refused
import Verif.Props.JmtLayers
import Verif.Props.JmtRedo
/-! Property C87: a write that is refused because another writer was there first. -/

set_option autoImplicit false

namespace Verif.Props
open Verif Verif.Jmt Verif.Spec
variable {D : Type}

/-- Two writers. Both see the store `s1`, and the first one goes on to `s`, with at least one more version; the second one computes
the batch `b` from `s1`, for version `j`, and tries to write it to `s`. -/
structure Race (H : Hasher D) (v0 : Version) (ops ops' : List Op) (j next : Version) (c : Call) (s1 s : Store D) (b : TreeUpdateBatch D) : Prop where
  seen : Reached H v0 ops s1 j
  now : Reached H v0 (ops ++ ops') s next
  commits : commitsOf ops' ≠ []
  startable : Startable v0 (commitsOf ops ++ c.op.commits)
  some : c.count ≠ 0
  computed : ∃ roots, c.compute H s1 j = .ok (roots, b)

theorem Race.spec {H : Hasher D} {v0 j next : Version} {ops ops' : List Op} {c : Call} {s1 s : Store D} {b : TreeUpdateBatch D}
    (h : Race H v0 ops ops' j next c s1 s b) : ∃ lo roots, StoreInv H v0 (commitsOf ops) lo s1 ∧ j = v0 + (commitsOf ops).length ∧
      BatchSpec H v0 (commitsOf ops) c.op.commits lo s1 roots b := by
  obtain ⟨rfl, hi⟩ := h.seen.inv
  obtain ⟨roots, hc⟩ := h.computed
  obtain ⟨roots', b', e1, e2⟩ := c.spec hi h.startable
  rw [hc] at e1
  cases e1
  exact ⟨_, _, hi, rfl, e2⟩

/-- **C87.** The second of two writers is always found out: as long as the version it wants to write is not pruned, `write_tree_update_batch`
panics, in whatever order the nodes are written. No value and no stale mark is changed. -/
theorem C87_refused (H : Hasher D) (v0 j next : Version) (ops ops' : List Op) (c : Call) (s1 s : Store D) (b : TreeUpdateBatch D)
    (h : Race H v0 ops ops' j next c s1 s b) (hj : Readable v0 (ops ++ ops') j) :
    (∃ e, s.writeTreeUpdateBatch b = .error (.panic e)) ∧ ∀ ws, WritesOf b ws →
      (∃ e, s.applyAll ws = .error (.panic e)) ∧
      (s.attempt ws).valueHistory = s.valueHistory ∧ (s.attempt ws).staleNodes = s.staleNodes := by
  obtain ⟨lo, roots, hi, rfl, hb⟩ := h.spec
  have hne : c.op.commits ≠ [] := by
    intro he
    have := c.length
    rw [he] at this
    exact h.some this.symm
  obtain ⟨n, hn⟩ := hb.hasRoot hi hne
  have hf := (h.now.facts hj).root
  have hs : (s.nodes.get ⟨v0 + (commitsOf ops).length, []⟩).isSome = true := by
    have hf : s.nodes.get ⟨v0 + (commitsOf ops).length, []⟩ = _ := hf
    rw [hf]; rfl
  have ho : s.allowOverwrite = false := h.now.flag
  have key : ∀ ws, WritesOf b ws → (∃ e, s.applyAll ws = .error (.panic e)) ∧
      (s.attempt ws).valueHistory = s.valueHistory ∧ (s.attempt ws).staleNodes = s.staleNodes := by
    rintro ws ⟨ns, ms, h1, h2, rfl⟩
    have hm : (⟨v0 + (commitsOf ops).length, []⟩, n) ∈ ns := h1.mem_iff.2 (FMap.mem_of_get hn)
    constructor
    · rw [applyAll_three, ho]
      obtain ⟨e, he⟩ := writeNodes_taken ns s.nodes hm hs
      exact ⟨e, by rw [he]; rfl⟩
    · rw [List.append_assoc]
      exact attempt_taken _ hm s hs ho
  refine ⟨?_, key⟩
  rw [writeTreeUpdateBatch_eq]
  exact (key _ (writesOf_writes b)).1

/-- **C87**, as far as it holds: versions before the one that was to be written are read as before, wherever the writing ends. Full claim:
this holds of all versions, since the write was refused. It fails, see `C87_damage_false`. -/
theorem C87_older_partial (H : Hasher D) [DecidableEq D] (v0 j next : Version) (ops ops' : List Op) (c : Call) (s1 s : Store D) (b : TreeUpdateBatch D)
    (h : Race H v0 ops ops' j next c s1 s b) (ws ws' : List (Write D)) (hw : WritesOf b (ws ++ ws')) (u : Version)
    (hu : Readable v0 (ops ++ ops') u) (huj : u < j) : ReadsAs H (s.attempt ws) u (contentsAt v0 (ops ++ ops') u) := by
  obtain ⟨lo, roots, hi, rfl, hb⟩ := h.spec
  have hf := h.now.facts hu
  obtain ⟨_, hn⟩ := h.now.inv
  exact VersionFacts.readsAs (hf.sameBefore (hn.inv.tree u hu.ge hu.lt).2.1 (attempt_before (hb.writesFrom hw).prefix s) huj)

theorem WritesOf.unique {b : TreeUpdateBatch D} (h1 : b.nodeBatch.nodes.entries.length = 1) (h2 : b.staleNodeIndexBatch.elems.length = 0)
    {ws : List (Write D)} (hw : WritesOf b ws) : ws = writesOf b := by
  obtain ⟨ns, ms, h3, h4, rfl⟩ := hw
  obtain ⟨a, ha⟩ := List.length_eq_one_iff.1 h1
  have hm := List.length_eq_zero_iff.1 h2
  rw [hm] at h4
  rw [ha] at h3
  rw [List.perm_singleton.1 h3, List.perm_nil.1 h4, writesOf, ha, hm]

/-- The first writer stores `[1]` under a key, the second one wants to store `[2]`. -/
def exFirst : List Op := [.update false [[(key 1 1, some [1])]]]

/-- See `exFirst`. -/
def exSecond : Call := .put false [[(key 1 1, some [2])]]

/-- What happens, computed. -/
def exRace : Res (Bool × Option Value × Term × Term × Bool) := do
  let (s, _) ← runOps termHasher exFirst (Store.empty, 0)
  let (_, b) ← exSecond.compute termHasher Store.empty 0
  let before ← Tree.getRootHash termHasher s.reader 0
  let s' := s.attempt (writesOf b)
  let after ← Tree.getRootHash termHasher s'.reader 0
  let (x, p) ← Tree.getWithProof termHasher s'.reader (key 1 1) 0
  pure (b.nodeBatch.nodes.entries.length == 1 && b.staleNodeIndexBatch.elems.length == 0, x, before, after,
    (p.verify termHasher after (key 1 1) x).isOk)

theorem exFirst_reached : ∃ s, Reached termHasher 0 ([] ++ exFirst) s 1 :=
  Reached.exists termHasher ⟨.inl rfl, by simp [exFirst, commitsOf, Op.commits]⟩

theorem exRace_race {s : Store Term} (h : Reached termHasher 0 ([] ++ exFirst) s 1) : ∃ b, Race termHasher 0 [] exFirst 0 1 exSecond Store.empty s b := by
  have h0 : Reached termHasher 0 [] (Store.empty : Store Term) 0 := ⟨⟨.inl rfl, by simp [commitsOf]⟩, rfl⟩
  have hs : Startable 0 (commitsOf [] ++ exSecond.op.commits) := ⟨.inl rfl, by simp [commitsOf, exSecond, Op.commits, Call.op]⟩
  obtain ⟨_, hi⟩ := h0.inv
  obtain ⟨roots, b, e1, _⟩ := exSecond.spec hi hs
  exact ⟨b, h0, h, by simp [exFirst, commitsOf, Op.commits], hs, by simp [exSecond, Call.count], roots, e1⟩

/-- **C87**, false of the version itself. The write is refused, but only after the first node that exists already has been replaced: the
version of the first writer now has the root hash of the second one, and the value of the first writer is returned with a proof that does
not verify. -/
theorem C87_damage_false : ∃ (s : Store Term) (b : TreeUpdateBatch Term), Race termHasher 0 [] exFirst 0 1 exSecond Store.empty s b ∧
    Readable 0 ([] ++ exFirst) 0 ∧ Tree.getRootHash termHasher s.reader 0 = .ok (termHasher.leaf (key 1 1) (termHasher.value [1])) ∧
    ∀ ws, WritesOf b ws →
      Tree.getRootHash termHasher (s.attempt ws).reader 0 = .ok (termHasher.leaf (key 1 1) (termHasher.value [2])) ∧
      ∃ p e, Tree.getWithProof termHasher (s.attempt ws).reader (key 1 1) 0 = .ok (some [1], p) ∧
        p.verify termHasher (termHasher.leaf (key 1 1) (termHasher.value [2])) (key 1 1) (some [1]) = .error e := by
  obtain ⟨s, h⟩ := exFirst_reached
  obtain ⟨b, hb⟩ := exRace_race h
  obtain ⟨roots, hc⟩ := hb.computed
  have hd : exRace.toOption = some (true, some [1], termHasher.leaf (key 1 1) (termHasher.value [1]), termHasher.leaf (key 1 1) (termHasher.value [2]), false) := by
    decide +kernel
  have hr : runOps termHasher exFirst (Store.empty, 0) = .ok (s, 1) := h.run
  unfold exRace at hd
  rw [hr] at hd
  simp only [Res.ok_bind, hc] at hd
  refine ⟨s, b, hb, ⟨by decide, by decide, .inr rfl⟩, ?_⟩
  cases e1 : Tree.getRootHash termHasher s.reader 0 with
  | error e => rw [e1] at hd; cases hd
  | ok r1 =>
    rw [e1] at hd
    simp only [Res.ok_bind] at hd
    cases e2 : Tree.getRootHash termHasher (s.attempt (writesOf b)).reader 0 with
    | error e => rw [e2] at hd; cases hd
    | ok r2 =>
      rw [e2] at hd
      simp only [Res.ok_bind] at hd
      cases e3 : Tree.getWithProof termHasher (s.attempt (writesOf b)).reader (key 1 1) 0 with
      | error e => rw [e3] at hd; cases hd
      | ok x =>
        obtain ⟨x, p⟩ := x
        rw [e3] at hd
        have hd := Option.some.inj hd
        simp only [Prod.mk.injEq, Bool.and_eq_true, beq_iff_eq] at hd
        obtain ⟨⟨d1, d2⟩, rfl, rfl, rfl, d3⟩ := hd
        refine ⟨rfl, ?_⟩
        intro ws hw
        obtain rfl := WritesOf.unique d1 d2 hw
        refine ⟨e2, p, ?_⟩
        cases e4 : p.verify termHasher (termHasher.leaf (key 1 1) (termHasher.value [2])) (key 1 1) (some [1]) with
        | ok u => rw [e4] at d3; cases d3
        | error e => exact ⟨e, e3, rfl⟩

-- C87: the second writer comes after `exOps`, when the first one has made version 3; version 2 is read as before
example : ∃ s1 s b, Race termHasher 0 exOps [.update true [[(key 1 2, none)], []]] 3 5 (.batch false [[(key 0x80 0, [9])]]) s1 s b ∧
    (∃ e, s.writeTreeUpdateBatch b = .error (.panic e)) ∧ ∀ ws ws', WritesOf b (ws ++ ws') →
      ReadsAs termHasher (s.attempt ws) 2 (contentsAt 0 (exOps ++ [.update true [[(key 1 2, none)], []]]) 2) := by
  obtain ⟨s1, h1⟩ := exOps_reached
  obtain ⟨s, h⟩ := Reached.exists (v0 := 0) (ops := exOps ++ [.update true [[(key 1 2, none)], []]]) termHasher
    ⟨.inl rfl, by simp [exOps, commitsOf, Op.commits]⟩
  have hs : Startable 0 (commitsOf exOps ++ (Call.batch false [[(key 0x80 0, [9])]]).op.commits) :=
    ⟨.inl rfl, by simp [exOps, commitsOf, Op.commits, Call.op]⟩
  obtain ⟨_, hi⟩ := h1.inv
  obtain ⟨roots, b, e1, _⟩ := Call.spec hi _ hs
  have hr : Race termHasher 0 exOps [.update true [[(key 1 2, none)], []]] 3 5 (.batch false [[(key 0x80 0, [9])]]) s1 s b :=
    ⟨h1, h, by simp [commitsOf, Op.commits], hs, by simp [Call.count], roots, e1⟩
  refine ⟨s1, s, b, hr, (C87_refused _ _ _ _ _ _ _ _ _ _ hr ⟨by decide, by decide, .inl (by simp [exOps])⟩).1, ?_⟩
  intro ws ws' hw
  exact C87_older_partial _ _ _ _ _ _ _ _ _ _ hr ws ws' hw 2 ⟨by decide, by decide, .inl (by simp [exOps])⟩ (by decide)

/-- **C80**, attempts that fail. An attempt to write the batch again that ends by its own failure leaves a store that is covered by the
claims about interrupted attempts. -/
theorem C80_failed_attempt (s s1 : Store D) (b : TreeUpdateBatch D) (h : Attempts s b s1) (ws ws' : List (Write D)) (hw : WritesOf b (ws ++ ws')) :
    Attempts s b (s1.attempt ws) := by
  have ho : s1.allowOverwrite = true := by
    induction h with
    | none => rfl
    | again _ _ ha ih => exact (applyAll_flag _ ha).trans ih
  obtain ⟨l, l', rfl, ha⟩ := attempt_applyAll ws s1 ho
  rw [List.append_assoc] at hw
  exact .again h hw ha

end Verif.Props
