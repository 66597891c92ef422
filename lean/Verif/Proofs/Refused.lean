import Verif.Proofs.Redo
import Verif.Proofs.Reads
/-! What a write that fails part way changes, and what it cannot change. -/

set_option autoImplicit false

namespace Verif.Jmt
open Verif Verif.Spec VTree
variable {D : Type}

/-- All nodes and values written belong to versions from `j` on. -/
def From (j : Version) (ws : List (Write D)) : Prop :=
  (∀ nk n, Write.node nk n ∈ ws → j ≤ nk.version) ∧ ∀ v k x, Write.value v k x ∈ ws → j ≤ v

theorem From.tail {j : Version} {w : Write D} {ws : List (Write D)} (h : From j (w :: ws)) : From j ws :=
  ⟨fun nk n hm => h.1 nk n (List.mem_cons_of_mem _ hm), fun v k x hm => h.2 v k x (List.mem_cons_of_mem _ hm)⟩

theorem From.prefix {j : Version} {ws ws' : List (Write D)} (h : From j (ws ++ ws')) : From j ws :=
  ⟨fun nk n hm => h.1 nk n (List.mem_append_left _ hm), fun v k x hm => h.2 v k x (List.mem_append_left _ hm)⟩

/-- Reads of versions before `j` are the same. -/
structure SameBefore (j : Version) (s s' : Store D) : Prop where
  nodes : ∀ nk, nk.version < j → s'.nodes.get nk = s.nodes.get nk
  values : ∀ u k, u < j → s'.getValueOption u k = s.getValueOption u k

theorem SameBefore.refl (j : Version) (s : Store D) : SameBefore j s s := ⟨fun _ _ => rfl, fun _ _ _ => rfl⟩

theorem SameBefore.trans {j : Version} {s s' s2 : Store D} (h : SameBefore j s s') (h2 : SameBefore j s' s2) : SameBefore j s s2 :=
  ⟨fun nk hn => (h2.nodes nk hn).trans (h.nodes nk hn), fun u k hu => (h2.values u k hu).trans (h.values u k hu)⟩

theorem SameBefore.set {j : Version} (s : Store D) {nk : NodeKey} (n : Node D) (h : j ≤ nk.version) : SameBefore j s { s with nodes := s.nodes.set nk n } := by
  refine ⟨?_, fun _ _ _ => rfl⟩
  intro nk' hn
  show (s.nodes.set nk n).get nk' = _
  rw [FMap.get_set, if_neg (by rintro rfl; omega)]

theorem pushed_before {j v u : Version} {x : Option Value} {h h' : List (Version × Option Value)} (hp : Pushed h v x h') (hv : j ≤ v) (hu : u < j) :
    h'.reverse.find? (fun e => decide (e.1 ≤ u)) = h.reverse.find? (fun e => decide (e.1 ≤ u)) := by
  rw [hp.find u, if_neg (by omega)]

theorem apply_before {j : Version} {s s' : Store D} {w : Write D} {ws : List (Write D)} (hf : From j (w :: ws)) (h : s.apply w = .ok s') :
    SameBefore j s s' ∧ s'.allowOverwrite = s.allowOverwrite := by
  cases w with
  | node nk n =>
    have : s' = { s with nodes := s.nodes.set nk n } := by
      simp only [Store.apply] at h
      split at h
      · cases hx : assert ((s.nodes.get nk).isNone) "assertion failed: replaced == None" with
        | error e' => rw [hx] at h; cases h
        | ok u => rw [hx] at h; cases h; rfl
      · cases h; rfl
    subst this
    exact ⟨.set s n (hf.1 nk n (by simp)), rfl⟩
  | value v k x =>
    simp only [Store.apply] at h
    rcases putValueHistory_cases s.valueHistory v k x with ⟨vh', h', h1, h2, h3⟩ | ⟨h1, _⟩
    · rw [h1] at h
      cases h
      refine ⟨⟨fun _ _ => rfl, ?_⟩, rfl⟩
      intro u k' hu
      rw [getValueOption_eq, getValueOption_eq]
      dsimp only
      rw [h3]
      split
      · rename_i he
        subst he
        rw [pushed_before h2 (hf.2 v k' x (by simp)) hu]
      · rfl
    · rw [h1] at h; cases h
  | mark i =>
    simp only [Store.apply] at h
    cases hx : ensure (!s.staleNodes.contains i) "Duplicated retire log." with
    | error e' => rw [hx] at h; cases h
    | ok u => rw [hx] at h; cases h; exact ⟨⟨fun _ _ => rfl, fun _ _ _ => rfl⟩, rfl⟩

theorem attempt_before {j : Version} {ws : List (Write D)} (hf : From j ws) (s : Store D) : SameBefore j s (s.attempt ws) := by
  induction ws generalizing s with
  | nil => exact .refl j s
  | cons w ws ih =>
    simp only [Store.attempt]
    cases h : s.apply w with
    | ok s' => exact (apply_before hf h).1.trans (ih hf.tail s')
    | error e =>
      cases w with
      | node nk n => exact .set s n (hf.1 nk n (by simp))
      | value v k x => exact .refl j s
      | mark i => exact .refl j s

theorem VersionFacts.sameBefore {H : Hasher D} {j : Version} {s s' : Store D} {u : Version} {f : Key → Option Value} {t : VTree D} (h : VersionFacts H s u f t)
    (hle : VerLe u t) (hs : SameBefore j s s') (hu : u < j) : VersionFacts H s' u f t := by
  refine ⟨h.hold, ?_, h.ver, ?_, fun k => (hs.values u k hu).trans (h.value k)⟩
  · exact (hs.nodes ⟨u, []⟩ hu).trans h.root
  · intro v q n hn
    have := at?_version_le hle hn
    exact (hs.nodes ⟨v, [] ++ q⟩ (by simp only; omega)).trans (h.has v q n hn)

/-- A batch computed for version `j` writes from version `j` on. -/
theorem BatchSpec.writesFrom {H : Hasher D} {v0 lo : Version} {hist new : List Commit} {s : Store D} {roots : List D} {b : TreeUpdateBatch D}
    (h : BatchSpec H v0 hist new lo s roots b) {ws : List (Write D)} (hw : WritesOf b ws) : From (v0 + hist.length) ws := by
  obtain ⟨ns, ms, h1, h2, rfl⟩ := hw
  constructor
  · intro nk n hm
    simp only [List.mem_append, List.mem_map, reduceCtorEq, and_false, exists_false, or_false, Write.node.injEq] at hm
    obtain ⟨⟨a, c⟩, h4, rfl, rfl⟩ := hm
    exact h.fresh a (by rw [FMap.get_of_mem h.nodup (h1.mem_iff.1 h4)]; rfl)
  · intro v k x hm
    simp only [List.mem_append, List.mem_map, reduceCtorEq, and_false, exists_false, or_false, false_or, Write.value.injEq] at hm
    obtain ⟨⟨⟨a, c⟩, y⟩, h4, rfl, rfl, rfl⟩ := hm
    have h2 := (OMap.mem_iff_lookup valueKeyLt_strict h.vsorted).1 h4
    have h3 := h.vget a c
    unfold OMap.get at h3
    rw [h2] at h3
    split at h3
    · assumption
    · cases h3

/-- A batch computed for version `j` holds a root node for that version. -/
theorem BatchSpec.hasRoot {H : Hasher D} {v0 lo : Version} {hist new : List Commit} {s : Store D} {roots : List D} {b : TreeUpdateBatch D}
    (h : BatchSpec H v0 hist new lo s roots b) (hi : StoreInv H v0 hist lo s) (hne : new ≠ []) :
    ∃ n, b.nodeBatch.nodes.get ⟨v0 + hist.length, []⟩ = some n := by
  have hpos : 0 < new.length := List.length_pos_iff.2 hne
  have hlt : v0 + hist.length < v0 + (hist ++ new).length := by simp; omega
  have hlo : lo ≤ v0 + hist.length := by have := hi.inv.loLt; omega
  have htr := h.inv.tree (v0 + hist.length) (by omega) hlt
  have hn : stored H (v0 + hist.length) (treeAt H v0 (hist ++ new) (v0 + hist.length)) (v0 + hist.length) [] =
      some ((treeAt H v0 (hist ++ new) (v0 + hist.length)).toNode H) := by
    by_cases he : treeAt H v0 (hist ++ new) (v0 + hist.length) = .empty
    · rw [he]; simp [stored, toNode]
    · rw [stored_of_ne H he, at?_nil H he, htr.2.2 he, if_pos rfl]
  have h1 := h.inv.nodes _ hlo hlt _ _ _ hn
  cases hb : b.nodeBatch.nodes.get ⟨v0 + hist.length, []⟩ with
  | some n => exact ⟨n, rfl⟩
  | none =>
    simp only [hb, Option.none_or] at h1
    have := (hi.inv.dom _ _ _ h1).2.1
    omega

/-- Where a key is taken, the writing ends with the nodes. -/
theorem attempt_taken {nk : NodeKey} {n : Node D} {ns : List (NodeKey × Node D)} (ws : List (Write D)) (hm : (nk, n) ∈ ns) (s : Store D)
    (hs : (s.nodes.get nk).isSome = true) (ho : s.allowOverwrite = false) :
    (s.attempt (ns.map (fun e => .node e.1 e.2) ++ ws)).valueHistory = s.valueHistory ∧
      (s.attempt (ns.map (fun e => .node e.1 e.2) ++ ws)).staleNodes = s.staleNodes := by
  induction ns generalizing s with
  | nil => cases hm
  | cons e t ih =>
    obtain ⟨nk', n'⟩ := e
    simp only [List.map_cons, List.cons_append, Store.attempt, Store.apply, ho, Bool.not_false, if_true]
    cases hg : s.nodes.get nk' with
    | some x => exact ⟨rfl, rfl⟩
    | none =>
      rcases List.mem_cons.1 hm with h | h
      · cases h; rw [hg] at hs; cases hs
      · have := ih h { s with nodes := s.nodes.set nk' n' } (by
          show ((s.nodes.set nk' n').get nk).isSome = true
          rw [FMap.get_set]
          split
          · rfl
          · exact hs) ho
        rw [ho] at this
        exact this

theorem write_flag {s s' : Store D} {b : TreeUpdateBatch D} (h : s.writeTreeUpdateBatch b = .ok s') : s'.allowOverwrite = s.allowOverwrite := by
  rw [writeTreeUpdateBatch_eq, writesOf, applyAll_three] at h
  cases e1 : Store.writeNodes s.allowOverwrite b.nodeBatch.nodes.entries s.nodes with
  | error e => rw [e1] at h; cases h
  | ok m =>
    rw [e1] at h
    simp only [Except.bind] at h
    cases e2 : Store.writeValues b.nodeBatch.values.entries s.valueHistory with
    | error e => rw [e2] at h; cases h
    | ok vh =>
      rw [e2] at h
      simp only at h
      cases e3 : Store.putStale b.staleNodeIndexBatch.elems s.staleNodes with
      | error e => rw [e3] at h; cases h
      | ok st => rw [e3] at h; cases h; rfl

theorem purgeLoop_flag (l : List StaleNodeIndex) {s s' : Store D} (h : Store.purgeLoop l s = .ok s') : s'.allowOverwrite = s.allowOverwrite := by
  induction l generalizing s with
  | nil => cases h; rfl
  | cons i l ih =>
    simp only [Store.purgeLoop] at h
    cases e : ensure ((s.nodes.get i.nodeKey).isSome) "Stale node index refers to non-existent node." with
    | error e' => rw [e] at h; cases h
    | ok u =>
      rw [e] at h
      have h : Store.purgeLoop l { s with nodes := s.nodes.erase i.nodeKey, staleNodes := s.staleNodes.erase i } = .ok s' := h
      exact ih (s := { s with nodes := s.nodes.erase i.nodeKey, staleNodes := s.staleNodes.erase i }) h

theorem runOps_flag {H : Hasher D} (ops : List Op) {st st' : Store D × Version} (h : runOps H ops st = .ok st') :
    st'.1.allowOverwrite = st.1.allowOverwrite := by
  induction ops generalizing st with
  | nil => cases h; rfl
  | cons op ops ih =>
    simp only [runOps] at h
    cases e : op.run H st with
    | error e' => rw [e] at h; cases h
    | ok st1 =>
      rw [e] at h
      refine (ih h).trans ?_
      cases op with
      | update m sets =>
        simp only [Op.run] at e
        cases e1 : Tree.putValueSets H m st.1.reader sets st.2 with
        | error e' => rw [e1] at e; cases e
        | ok x =>
          rw [e1] at e
          simp only [Res.ok_bind] at e
          cases e2 : st.1.writeTreeUpdateBatch x.2 with
          | error e' => rw [e2] at e; cases e
          | ok s1 => rw [e2] at e; cases e; exact write_flag e2
      | batch m sets =>
        simp only [Op.run] at e
        cases e1 : Tree.batchPutValueSets H m st.1.reader sets none st.2 with
        | error e' => rw [e1] at e; cases e
        | ok x =>
          rw [e1] at e
          simp only [Res.ok_bind] at e
          cases e2 : st.1.writeTreeUpdateBatch x.2 with
          | error e' => rw [e2] at e; cases e
          | ok s1 => rw [e2] at e; cases e; exact write_flag e2
      | purge v =>
        simp only [Op.run] at e
        cases e2 : st.1.purgeStaleNodes v with
        | error e' => rw [e2] at e; cases e
        | ok s1 => rw [e2] at e; cases e; exact purgeLoop_flag _ e2

theorem Reached.flag {H : Hasher D} {v0 next : Version} {ops : List Op} {s : Store D} (h : Reached H v0 ops s next) : s.allowOverwrite = false :=
  runOps_flag ops h.run

theorem apply_flag {s s' : Store D} {w : Write D} (h : s.apply w = .ok s') : s'.allowOverwrite = s.allowOverwrite :=
  (apply_before (j := 0) (ws := []) ⟨fun _ _ _ => Nat.zero_le _, fun _ _ _ _ => Nat.zero_le _⟩ h).2

theorem applyAll_flag (ws : List (Write D)) {s s' : Store D} (h : s.applyAll ws = .ok s') : s'.allowOverwrite = s.allowOverwrite := by
  induction ws generalizing s with
  | nil => cases h; rfl
  | cons w ws ih =>
    simp only [Store.applyAll] at h
    cases e : s.apply w with
    | error e' => rw [e] at h; cases h
    | ok s1 =>
      rw [e] at h
      exact (ih (s := s1) h).trans (apply_flag e)

/-- Where overwriting is allowed, a failing change changes nothing, so the changes before it are those that were made. -/
theorem attempt_applyAll (ws : List (Write D)) (s : Store D) (ho : s.allowOverwrite = true) :
    ∃ l l', ws = l ++ l' ∧ s.applyAll l = .ok (s.attempt ws) := by
  induction ws generalizing s with
  | nil => exact ⟨[], [], rfl, rfl⟩
  | cons w ws ih =>
    cases e : s.apply w with
    | error e' =>
      refine ⟨[], w :: ws, rfl, ?_⟩
      simp only [Store.attempt, e, Store.applyAll]
      cases w with
      | node nk n => simp only [Store.apply, ho] at e; cases e
      | value v k x => rfl
      | mark i => rfl
    | ok s1 =>
      obtain ⟨l, l', rfl, ha⟩ := ih s1 ((apply_flag e).trans ho)
      refine ⟨w :: l, l', rfl, ?_⟩
      simp only [Store.attempt, Store.applyAll, e]
      exact ha

end Verif.Jmt
