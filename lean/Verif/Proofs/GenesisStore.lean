import Verif.Proofs.GenesisCalls
/-! Writing the batch of a new genesis to the mock store. -/

set_option autoImplicit false

namespace Verif.Jmt
variable {D : Type}
open VTree Spec

/-- A value older than the last one of its key is refused. -/
theorem writeValues_stuck (l : List ((Version × Key) × Option Value)) (vh : FMap Key (List (Version × Option Value)))
    (hs : OMap.Sorted valueKeyLt l)
    (hd : ∀ e ∈ l, (∀ x ∈ vhGet vh e.1.2, x.1 < e.1.1) ∨ ∃ y, (vhGet vh e.1.2).getLast? = some y ∧ e.1.1 < y.1)
    (hex : ∃ e ∈ l, ∃ y, (vhGet vh e.1.2).getLast? = some y ∧ e.1.1 < y.1) :
    Store.writeValues l vh = .error (.err "values must be pushed in order") := by
  induction l generalizing vh with
  | nil => obtain ⟨e, he, _⟩ := hex; cases he
  | cons e t ih =>
    obtain ⟨⟨v, k⟩, x⟩ := e
    have hs' := List.pairwise_cons.1 hs
    rcases hd ((v, k), x) (by simp) with hold | ⟨y, hy, hlt⟩
    · obtain ⟨vh1, e1, e2⟩ := writeValues_spec [((v, k), x)] vh (List.pairwise_singleton _ _) (by
        intro e he
        simp only [List.mem_singleton] at he
        subst he
        exact hold)
      have e1 : Store.putValueHistory vh v k x = .ok vh1 := by
        simp only [Store.writeValues] at e1
        cases hp : Store.putValueHistory vh v k x with
        | error e => rw [hp] at e1; cases e1
        | ok a => rw [hp] at e1; exact e1
      have hk : vhGet vh1 k = vhGet vh k ++ [(v, x)] := by rw [e2]; simp
      have hk' : ∀ k', k' ≠ k → vhGet vh1 k' = vhGet vh k' := by
        intro k' hne
        rw [e2]; simp [Ne.symm hne]
      have hlater : ∀ e ∈ t, e.1.2 = k → v < e.1.1 := by
        rintro ⟨⟨v', k'⟩, x'⟩ he hk
        have := hs'.1 _ he
        simp only at hk
        subst hk
        simp only [valueKeyLt, decide_eq_true_eq] at this
        rcases this with h | ⟨_, h⟩
        · exact h
        · exact absurd h (Key.lt_irrefl _)
      have hnot : ∀ e ∈ t, e.1.2 = k → ¬ ∃ y, (vhGet vh e.1.2).getLast? = some y ∧ e.1.1 < y.1 := by
        rintro e he hek ⟨y, hy, hlt⟩
        have h1 := hlater e he hek
        rw [hek] at hy
        have h2 : y.1 < v := hold y (List.mem_of_getLast? hy)
        omega
      simp only [Store.writeValues, e1, Res.ok_bind]
      apply ih vh1 hs'.2
      · intro e he
        by_cases hek : e.1.2 = k
        · left
          rw [hek, hk]
          intro y hy
          rw [List.mem_append, List.mem_singleton] at hy
          have h1 := hlater e he hek
          rcases hy with hy | rfl
          · have : y.1 < v := hold y hy
            omega
          · exact h1
        · rw [hk' _ hek]
          exact hd e (List.mem_cons_of_mem _ he)
      · obtain ⟨e, he, y, hy, hlt⟩ := hex
        rcases List.mem_cons.1 he with rfl | he
        · exfalso
          have : y.1 < v := hold y (List.mem_of_getLast? hy)
          have hlt : v < y.1 := hlt
          omega
        · refine ⟨e, he, y, ?_, hlt⟩
          rw [hk' _ (fun hek => hnot e he hek ⟨y, hy, hlt⟩)]
          exact hy
    · have : Store.putValueHistory vh v k x = .error (.err "values must be pushed in order") := by
        unfold Store.putValueHistory
        unfold vhGet at hy
        cases hg : vh.get k with
        | none => rw [hg] at hy; cases hy
        | some h =>
          rw [hg] at hy
          have hy : h.getLast? = some y := hy
          obtain ⟨yv, yx⟩ := y
          simp only [hy]
          rw [if_pos hlt]
      simp only [Store.writeValues, this]
      rfl

section
variable {H : Hasher D} {m : Bool} {P : List (Key × Value)} {sets : List Tree.ValueSet} {sA : Store D} {roots : List D} {b : TreeUpdateBatch D}

theorem batchContents_eq (P : List (Key × Value)) (k : Key) : batchContents P k = lastOf P k := by
  show applyUpdates _ _ _ = _
  rw [applyUpdates_lastOf, lastOf_map_some]
  cases lastOf P k <;> rfl

theorem StoreInv.vh_one (hA : StoreInv H preGenesisVersion [.batch m P] preGenesisVersion sA) (k : Key) :
    vhGet sA.valueHistory k = ((batchContents P k).map (fun x => (preGenesisVersion, some x))).toList := by
  rw [hA.values, batchContents_eq]
  simp only [histOf, List.zipIdx_cons, List.zipIdx_nil, List.filterMap_cons, List.filterMap_nil, Commit.updates, lastOf_map_some]
  cases lastOf P k <;> rfl

theorem StoreInv.reader_plus (hA : StoreInv H preGenesisVersion [.batch m P] preGenesisVersion sA) (h : GenesisBatch H P sets sA roots b)
    (hlen : sets.length < preGenesisVersion) :
    ((∀ x ∈ sets, ∀ e ∈ x, batchContents P e.1 = none) → ∃ s', sA.writeTreeUpdateBatch b = .ok s' ∧ s'.reader = sA.reader.plus b) ∧
    ((∃ x ∈ sets, ∃ e ∈ x, batchContents P e.1 ≠ none) → sA.writeTreeUpdateBatch b = .error (.err "values must be pushed in order")) := by
  have e1 := writeNodes_spec sA.allowOverwrite b.nodeBatch.nodes.entries sA.nodes h.nodup (by
    rintro ⟨⟨v, q⟩, n⟩ he
    have hg := FMap.get_of_mem h.nodup he
    have h1 := h.range ⟨v, q⟩ (by rw [hg]; rfl)
    cases hh : sA.nodes.get ⟨v, q⟩ with
    | none => rfl
    | some n' =>
      have := hA.inv.dom _ _ _ hh
      simp only at h1
      omega)
  have hent : ∀ v k x, ((v, k), x) ∈ b.nodeBatch.values.entries → v < sets.length ∧ ∃ y ∈ sets, ∃ e ∈ y, e.1 = k := by
    intro v k x he
    have h2 := (OMap.mem_iff_lookup valueKeyLt_strict h.vsorted).1 he
    have h3 := h.vget v k
    unfold OMap.get at h3
    rw [h2] at h3
    obtain ⟨y, hy, hl⟩ := Option.bind_eq_some_iff.1 h3.symm
    obtain ⟨h4, h5⟩ := List.getElem?_eq_some_iff.1 hy
    exact ⟨h4, y, List.mem_of_getElem? hy, (lastOf_isSome_iff y k).1 (by rw [hl]; rfl)⟩
  constructor
  · intro hfresh
    obtain ⟨vh', e2, e3⟩ := writeValues_spec b.nodeBatch.values.entries sA.valueHistory h.vsorted (by
      rintro ⟨⟨v, k⟩, x⟩ he y hy
      obtain ⟨_, z, hz, e, hez, hk⟩ := hent v k x he
      rw [hA.vh_one, ← hk, hfresh z hz e hez] at hy
      cases hy)
    have e4 := putStale_spec b.staleNodeIndexBatch.elems sA.staleNodes h.snodup (by
      rintro ⟨sv, ⟨v, q⟩⟩ hi hm
      have := hA.inv.stale _ _ _ hm
      simp only [List.length_singleton] at this
      omega)
    refine ⟨⟨sA.nodes.extend b.nodeBatch.nodes.entries, b.staleNodeIndexBatch.elems.foldl FSet.insert sA.staleNodes, vh', sA.allowOverwrite⟩, ?_, ?_⟩
    · simp only [Store.writeTreeUpdateBatch, Store.writeNodeBatch, e1, e2, Res.ok_bind, Res.pure_eq, e4]
    · unfold Store.reader Reader.plus
      simp only [Reader.mk.injEq]
      constructor
      · funext nk
        exact FMap.get_extend _ _ h.nodup nk
      · funext u k
        rw [getValueOption_eq, getValueOption_eq]
        show ((vhGet vh' k).reverse.find? _).bind _ = _
        rw [e3, List.reverse_append, List.find?_append, ← List.map_reverse, List.find?_map]
        have : ((fun e : Version × Option Value => decide (e.1 ≤ u)) ∘ fun e : (Version × Key) × Option Value => (e.1.1, e.2)) = fun e => decide (e.1.1 ≤ u) := rfl
        rw [this]
        cases (b.nodeBatch.values.entries.filter (fun e => decide (e.1.2 = k))).reverse.find? (fun e => decide (e.1.1 ≤ u)) <;> rfl
  · rintro ⟨x, hx, e, he, hne⟩
    have hnewer : ∀ k, batchContents P k ≠ none → ∃ y, (vhGet sA.valueHistory k).getLast? = some y ∧ y.1 = preGenesisVersion := by
      intro k hk
      rw [hA.vh_one]
      obtain ⟨z, hz⟩ := Option.ne_none_iff_exists'.1 hk
      rw [hz]
      exact ⟨_, rfl, rfl⟩
    have e2 := writeValues_stuck b.nodeBatch.values.entries sA.valueHistory h.vsorted (by
      rintro ⟨⟨v, k⟩, x⟩ he
      by_cases hk : batchContents P k = none
      · left
        intro y hy
        rw [hA.vh_one, hk] at hy
        cases hy
      · right
        obtain ⟨y, hy, hy'⟩ := hnewer k hk
        refine ⟨y, hy, ?_⟩
        have := (hent v k x he).1
        simp only
        omega) (by
      obtain ⟨i, hi⟩ := List.getElem?_of_mem hx
      obtain ⟨z, hz⟩ := Option.isSome_iff_exists.1 ((lastOf_isSome_iff x e.1).2 ⟨e, he, rfl⟩)
      have h3 := h.vget i e.1
      rw [hi] at h3
      have h3 : b.nodeBatch.values.get (i, e.1) = some z := by rw [h3, Option.bind_some, hz]
      have hm := (OMap.mem_iff_lookup valueKeyLt_strict h.vsorted).2 h3
      obtain ⟨y, hy, hy'⟩ := hnewer e.1 hne
      refine ⟨_, hm, y, hy, ?_⟩
      have := (hent _ _ _ hm).1
      simp only
      omega)
    simp only [Store.writeTreeUpdateBatch, Store.writeNodeBatch, e1, e2, Res.ok_bind, Res.pure_eq]
    rfl

end

end Verif.Jmt
