import Verif.Jmt.Interrupt
import Verif.Proofs.Below
import Verif.Proofs.Iterator
import Verif.Proofs.Reach
import Verif.Proofs.LeafVersion
/-! Stores in the middle of a write, and reads of a version that many readers share. -/

set_option autoImplicit false

namespace Verif.Jmt
variable {D : Type}

/-! single changes -/

theorem Store.applyAll_append (s : Store D) (ws ws' : List (Write D)) :
    s.applyAll (ws ++ ws') = (s.applyAll ws).bind (fun s => s.applyAll ws') := by
  induction ws generalizing s with
  | nil => rfl
  | cons w ws ih =>
    simp only [List.cons_append, Store.applyAll]
    cases s.apply w with
    | error e => rfl
    | ok s1 => exact ih s1

theorem applyAll_nodes (s : Store D) (l : List (NodeKey × Node D)) :
    s.applyAll (l.map (fun e => .node e.1 e.2)) = (Store.writeNodes s.allowOverwrite l s.nodes).map (fun m => { s with nodes := m }) := by
  induction l generalizing s with
  | nil => rfl
  | cons e l ih =>
    obtain ⟨nk, n⟩ := e
    simp only [List.map_cons, Store.applyAll, Store.apply, Store.writeNodes]
    cases ho : s.allowOverwrite with
    | true =>
      simp only [Bool.not_true, Bool.false_eq_true, if_false, bind, Except.bind, pure, Except.pure]
      rw [ih]
    | false =>
      simp only [Bool.not_false, if_true]
      cases ha : assert ((s.nodes.get nk).isNone) "assertion failed: replaced == None" with
      | error e => rfl
      | ok u =>
        simp only [bind, Except.bind, pure, Except.pure]
        rw [ih]

theorem applyAll_values (s : Store D) (l : List ((Version × Key) × Option Value)) :
    s.applyAll (l.map (fun e => .value e.1.1 e.1.2 e.2)) =
      (Store.writeValues l s.valueHistory).map (fun m => { s with valueHistory := m }) := by
  induction l generalizing s with
  | nil => rfl
  | cons e l ih =>
    obtain ⟨⟨v, k⟩, x⟩ := e
    simp only [List.map_cons, Store.applyAll, Store.apply, Store.writeValues]
    cases Store.putValueHistory s.valueHistory v k x with
    | error e => rfl
    | ok u =>
      simp only [bind, Except.bind, pure, Except.pure]
      rw [ih]

theorem applyAll_marks (s : Store D) (l : List StaleNodeIndex) :
    s.applyAll (l.map .mark) = (Store.putStale l s.staleNodes).map (fun m => { s with staleNodes := m }) := by
  induction l generalizing s with
  | nil => rfl
  | cons i l ih =>
    simp only [List.map_cons, Store.applyAll, Store.apply, Store.putStale]
    cases ensure (!s.staleNodes.contains i) "Duplicated retire log." with
    | error e => rfl
    | ok u =>
      simp only [bind, Except.bind, pure, Except.pure]
      rw [ih]

/-- The changes in the order of the model. -/
def writesOf (b : TreeUpdateBatch D) : List (Write D) :=
  b.nodeBatch.nodes.entries.map (fun e => .node e.1 e.2) ++ b.nodeBatch.values.entries.map (fun e => .value e.1.1 e.1.2 e.2) ++
    b.staleNodeIndexBatch.elems.map .mark

theorem writesOf_writes (b : TreeUpdateBatch D) : WritesOf b (writesOf b) := ⟨_, _, List.Perm.refl _, List.Perm.refl _, rfl⟩

/-- `write_tree_update_batch` makes these changes. -/
theorem writeTreeUpdateBatch_eq (s : Store D) (b : TreeUpdateBatch D) : s.writeTreeUpdateBatch b = s.applyAll (writesOf b) := by
  unfold Store.writeTreeUpdateBatch Store.writeNodeBatch writesOf
  rw [Store.applyAll_append, Store.applyAll_append, applyAll_nodes]
  cases Store.writeNodes s.allowOverwrite b.nodeBatch.nodes.entries s.nodes with
  | error e => rfl
  | ok m =>
    simp only [Except.map, Except.bind, bind, applyAll_values]
    cases Store.writeValues b.nodeBatch.values.entries s.valueHistory with
    | error e => rfl
    | ok vh =>
      simp only [Except.map, pure, Except.pure, applyAll_marks]

/-- A change that touches nothing of the versions below `next`. -/
def Write.From (next : Version) : Write D → Prop
  | .node nk _ => next ≤ nk.version
  | .value v _ _ => next ≤ v
  | .mark _ => True

/-- `s'` has the nodes and values of the versions below `next` that `s` has. -/
structure SameBelow (next : Version) (s s' : Store D) : Prop where
  nodes : ∀ nk : NodeKey, nk.version < next → s'.nodes.get nk = s.nodes.get nk
  values : ∀ w k, w < next → s'.getValueOption w k = s.getValueOption w k

theorem SameBelow.refl (next : Version) (s : Store D) : SameBelow next s s := ⟨fun _ _ => rfl, fun _ _ _ => rfl⟩

theorem SameBelow.trans {next : Version} {s s' s'' : Store D} (h : SameBelow next s s') (h' : SameBelow next s' s'') : SameBelow next s s'' :=
  ⟨fun nk hn => (h'.nodes nk hn).trans (h.nodes nk hn), fun w k hw => (h'.values w k hw).trans (h.values w k hw)⟩

theorem putValueHistory_below {vh vh' : FMap Key (List (Version × Option Value))} {v next w : Version} {k : Key} {x : Option Value}
    (h : Store.putValueHistory vh v k x = .ok vh') (hv : next ≤ v) (hw : w < next) (k' : Key) :
    ((vhGet vh' k').reverse.find? (fun e => decide (e.1 ≤ w))) = ((vhGet vh k').reverse.find? (fun e => decide (e.1 ≤ w))) := by
  have hd : decide (v ≤ w) = false := by simp; omega
  have app : ∀ l : List (Version × Option Value), (l ++ [(v, x)]).reverse.find? (fun e => decide (e.1 ≤ w)) =
      l.reverse.find? (fun e => decide (e.1 ≤ w)) := by
    intro l
    rw [List.reverse_append]
    simp only [List.reverse_cons, List.reverse_nil, List.nil_append, List.cons_append, List.find?_cons, hd]
  unfold Store.putValueHistory at h
  by_cases hk : k' = k
  · subst hk
    cases hg : vh.get k' with
    | none =>
      rw [hg] at h
      cases h
      simp only [vhGet, FMap.get_set, if_true, hg, Option.getD_some, Option.getD_none]
      exact app []
    | some l =>
      rw [hg] at h
      simp only at h
      cases hl : l.getLast? with
      | none =>
        rw [hl] at h
        cases h
        simp only [vhGet, FMap.get_set, if_true, hg, Option.getD_some]
        exact app l
      | some e =>
        obtain ⟨lv, lx⟩ := e
        rw [hl] at h
        simp only at h
        by_cases h1 : v < lv
        · rw [if_pos h1] at h; cases h
        · rw [if_neg h1] at h
          by_cases h2 : v = lv
          · rw [if_pos h2] at h
            cases h
            subst h2
            simp only [vhGet, FMap.get_set, if_true, hg, Option.getD_some]
            rw [app]
            obtain ⟨ys, rfl⟩ := List.getLast?_eq_some_iff.1 hl
            rw [List.dropLast_concat, List.reverse_append]
            simp only [List.reverse_cons, List.reverse_nil, List.nil_append, List.cons_append, List.find?_cons, hd]
          · rw [if_neg h2] at h
            cases h
            simp only [vhGet, FMap.get_set, if_true, hg, Option.getD_some]
            exact app l
  · have : vh'.get k' = vh.get k' := by
      have hset : ∀ y, (vh.set k y).get k' = vh.get k' := by intro y; rw [FMap.get_set, if_neg hk]
      split at h
      · split at h
        · split at h
          · cases h
          · split at h
            · cases h; exact hset _
            · cases h; exact hset _
        · cases h; exact hset _
      · cases h; exact hset _
    simp only [vhGet, this]

theorem apply_below {next : Version} {s s' : Store D} {w : Write D} (hw : w.From next) (h : s.apply w = .ok s') : SameBelow next s s' := by
  cases w with
  | node nk n =>
    have e : s' = { s with nodes := s.nodes.set nk n } := by
      simp only [Store.apply] at h
      split at h
      · cases ha : assert ((s.nodes.get nk).isNone) "assertion failed: replaced == None" with
        | error e => rw [ha] at h; cases h
        | ok u => rw [ha] at h; cases h; rfl
      · cases h; rfl
    subst e
    refine ⟨?_, fun _ _ _ => rfl⟩
    intro nk' hn
    have : next ≤ nk.version := hw
    show (s.nodes.set nk n).get nk' = _
    rw [FMap.get_set, if_neg]
    rintro rfl
    omega
  | value v k x =>
    simp only [Store.apply] at h
    cases hp : Store.putValueHistory s.valueHistory v k x with
    | error e => rw [hp] at h; cases h
    | ok vh =>
      rw [hp] at h
      cases h
      refine ⟨fun _ _ => rfl, ?_⟩
      intro w k' hlt
      rw [getValueOption_eq, getValueOption_eq]
      simp only
      rw [putValueHistory_below hp hw hlt]
  | mark i =>
    simp only [Store.apply] at h
    cases he : ensure (!s.staleNodes.contains i) "Duplicated retire log." with
    | error e => rw [he] at h; cases h
    | ok u => rw [he] at h; cases h; exact ⟨fun _ _ => rfl, fun _ _ _ => rfl⟩

theorem applyAll_below {next : Version} {s s' : Store D} {ws : List (Write D)} (hw : ∀ w ∈ ws, w.From next) (h : s.applyAll ws = .ok s') :
    SameBelow next s s' := by
  induction ws generalizing s with
  | nil => cases h; exact .refl _ _
  | cons w ws ih =>
    simp only [Store.applyAll] at h
    cases h1 : s.apply w with
    | error e => rw [h1] at h; cases h
    | ok s1 =>
      rw [h1] at h
      exact (apply_below (hw w (by simp)) h1).trans (ih (fun w hm => hw w (by simp [hm])) h)

/-- The changes of a batch computed at version `next` touch nothing below. -/
theorem WritesOf.from {H : Hasher D} {v0 lo : Version} {hist new : List Commit} {s : Store D} {roots : List D} {b : TreeUpdateBatch D}
    (hb : BatchSpec H v0 hist new lo s roots b) {ws : List (Write D)} (hw : WritesOf b ws) : ∀ w ∈ ws, w.From (v0 + hist.length) := by
  obtain ⟨ns, ms, h1, h2, rfl⟩ := hw
  intro w hm
  simp only [List.mem_append, List.mem_map] at hm
  rcases hm with (⟨⟨nk, n⟩, he, rfl⟩ | ⟨⟨⟨v, k⟩, x⟩, he, rfl⟩) | ⟨i, _, rfl⟩
  · have := FMap.get_of_mem hb.nodup (h1.mem_iff.1 he)
    exact hb.fresh nk (by rw [this]; rfl)
  · have hx : b.nodeBatch.values.get (v, k) = some x := (OMap.mem_iff_lookup valueKeyLt_strict hb.vsorted).1 he
    have := hb.vget v k
    rw [hx] at this
    by_contra hc
    simp only [Write.From] at hc
    rw [if_neg hc] at this
    cases this
  · trivial

/-- Changes of three kinds, in this order, made with the functions of `mock.rs`. -/
theorem applyAll_three (s : Store D) (ns : List (NodeKey × Node D)) (vs : List ((Version × Key) × Option Value)) (ms : List StaleNodeIndex) :
    s.applyAll (ns.map (fun e => .node e.1 e.2) ++ vs.map (fun e => .value e.1.1 e.1.2 e.2) ++ ms.map .mark) =
      (Store.writeNodes s.allowOverwrite ns s.nodes).bind (fun m => (Store.writeValues vs s.valueHistory).bind (fun vh =>
        (Store.putStale ms s.staleNodes).map (fun st => ⟨m, st, vh, s.allowOverwrite⟩))) := by
  rw [Store.applyAll_append, Store.applyAll_append, applyAll_nodes]
  cases Store.writeNodes s.allowOverwrite ns s.nodes with
  | error e => rfl
  | ok m =>
    simp only [Except.map, Except.bind, applyAll_values]
    cases Store.writeValues vs s.valueHistory with
    | error e => rfl
    | ok vh => simp only [Except.map, applyAll_marks]

theorem StoreInv.nodesFresh {H : Hasher D} {v0 lo : Version} {hist new : List Commit} {s : Store D} (h : StoreInv H v0 hist lo s)
    {roots : List D} {b : TreeUpdateBatch D} (hb : BatchSpec H v0 hist new lo s roots b) :
    ∀ e ∈ b.nodeBatch.nodes.entries, s.nodes.get e.1 = none := by
  rintro ⟨⟨v, q⟩, n⟩ he
  have hg := FMap.get_of_mem hb.nodup he
  have h1 := hb.fresh ⟨v, q⟩ (by rw [hg]; rfl)
  cases hh : s.nodes.get ⟨v, q⟩ with
  | none => rfl
  | some n' =>
    have := h.inv.dom _ _ _ hh
    simp only at h1
    omega

theorem StoreInv.valuesFresh {H : Hasher D} {v0 lo : Version} {hist new : List Commit} {s : Store D} (h : StoreInv H v0 hist lo s)
    {roots : List D} {b : TreeUpdateBatch D} (hb : BatchSpec H v0 hist new lo s roots b) :
    ∀ e ∈ b.nodeBatch.values.entries, ∀ x ∈ vhGet s.valueHistory e.1.2, x.1 < e.1.1 := by
  rintro ⟨⟨v, k⟩, x⟩ he y hy
  rw [h.values] at hy
  have h1 := histOf_bounds hy
  have h2 := (OMap.mem_iff_lookup valueKeyLt_strict hb.vsorted).1 he
  have h3 := hb.vget v k
  unfold OMap.get at h3
  rw [h2] at h3
  split at h3
  · simp only; omega
  · cases h3

theorem StoreInv.marksFresh {H : Hasher D} {v0 lo : Version} {hist new : List Commit} {s : Store D} (h : StoreInv H v0 hist lo s)
    {roots : List D} {b : TreeUpdateBatch D} (hb : BatchSpec H v0 hist new lo s roots b) :
    ∀ i ∈ b.staleNodeIndexBatch.elems, i ∉ s.staleNodes := by
  rintro ⟨sv, ⟨v, q⟩⟩ hi hm
  have h1 := hb.since _ hi
  have h2 := h.inv.stale _ _ _ hm
  simp only at h1
  omega

/-- All changes of a batch succeed, in whatever order nodes and marks are written. -/
theorem StoreInv.applyAll_perm {H : Hasher D} {v0 lo : Version} {hist new : List Commit} {s : Store D} (h : StoreInv H v0 hist lo s)
    {roots : List D} {b : TreeUpdateBatch D} (hb : BatchSpec H v0 hist new lo s roots b) {ws : List (Write D)} (hw : WritesOf b ws) :
    ∃ s', s.applyAll ws = .ok s' := by
  obtain ⟨ns, ms, h1, h2, rfl⟩ := hw
  rw [applyAll_three, writeNodes_spec _ ns s.nodes ((h1.map Prod.fst).nodup_iff.2 hb.nodup) (fun e he => h.nodesFresh hb e (h1.mem_iff.1 he))]
  obtain ⟨vh', e2, e3⟩ := writeValues_spec b.nodeBatch.values.entries s.valueHistory hb.vsorted (h.valuesFresh hb)
  simp only [Except.bind, e2, putStale_spec ms s.staleNodes (h2.nodup_iff.2 hb.snodup) (fun i hi => h.marksFresh hb i (h2.mem_iff.1 hi)), Except.map]
  exact ⟨_, rfl⟩

/-- Part of a pruning. -/
theorem StoreInv.purgeLoop_ok {H : Hasher D} {v0 lo m : Version} {hist : List Commit} {s : Store D} (hi : StoreInv H v0 hist lo s)
    {l l' : List StaleNodeIndex} (hl : (l ++ l').Perm (s.staleNodes.elems.filter (fun i => decide (i.staleSinceVersion ≤ m)))) :
    ∃ s', Store.purgeLoop l s = .ok s' ∧ (∀ i ∈ l, i ∈ s.staleNodes ∧ i.staleSinceVersion ≤ m) ∧
      ∀ nk, s'.nodes.get nk = if nk ∈ l.map StaleNodeIndex.nodeKey then none else s.nodes.get nk := by
  have hmem : ∀ i ∈ l ++ l', i ∈ s.staleNodes ∧ i.staleSinceVersion ≤ m := by
    intro i hm
    have := hl.mem_iff.1 hm
    simpa [FSet.mem_def] using this
  have hnd : ((l ++ l').map StaleNodeIndex.nodeKey).Nodup := by
    rw [List.Nodup, List.pairwise_map]
    refine List.Pairwise.imp_of_mem ?_ (hl.nodup_iff.2 (hi.snodup.filter _))
    rintro ⟨sa, ka⟩ ⟨sb, kb⟩ ha hb hab hk
    simp only at hk
    subst hk
    have := hi.inv.uniq sa sb ka (hmem _ ha).1 (hmem _ hb).1
    subst this
    exact hab rfl
  have hex : ∀ i ∈ l, (s.nodes.get i.nodeKey).isSome = true := by
    rintro ⟨si, v, q⟩ hm
    exact (hi.inv.stale si v q (hmem _ (List.mem_append_left l' hm)).1).2.2.2.1
  have hnd1 : (l.map StaleNodeIndex.nodeKey).Nodup := by rw [List.map_append] at hnd; exact (List.nodup_append.1 hnd).1
  obtain ⟨s4, g1, g2, g3⟩ := purgeLoop_spec l s hnd1 hex
  exact ⟨s4, g1, fun i hm => hmem i (List.mem_append_left l' hm), g2⟩

end Verif.Jmt
