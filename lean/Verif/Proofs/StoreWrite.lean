import Verif.Proofs.Contents
/-! Writing batches to the in-memory store, and pruning it. -/

namespace Verif.Jmt
variable {D : Type}
open VTree Verif.Spec

theorem writeNodes_spec (ao : Bool) (l : List (NodeKey × Node D)) (m : FMap NodeKey (Node D)) (hl : (l.map Prod.fst).Nodup)
    (hd : ∀ e ∈ l, m.get e.1 = none) : Store.writeNodes ao l m = .ok (m.extend l) := by
  induction l generalizing m with
  | nil => rfl
  | cons e t ih =>
    obtain ⟨nk, n⟩ := e
    simp only [List.map_cons, List.nodup_cons] at hl
    have h1 : m.get nk = none := hd (nk, n) (by simp)
    have h2 := ih (m.set nk n) hl.2 (by
      intro x hx
      rw [FMap.get_set, if_neg, hd x (List.mem_cons_of_mem _ hx)]
      rintro rfl
      exact hl.1 (List.mem_map.2 ⟨x, hx, rfl⟩))
    have e2 : m.extend ((nk, n) :: t) = (m.set nk n).extend t := rfl
    rw [e2, ← h2]
    cases ao <;> simp [Store.writeNodes, h1, assert]

theorem putStale_spec (l : List StaleNodeIndex) (s : FSet StaleNodeIndex) (hl : l.Nodup) (hd : ∀ i ∈ l, i ∉ s) :
    Store.putStale l s = .ok (l.foldl FSet.insert s) := by
  induction l generalizing s with
  | nil => rfl
  | cons a t ih =>
    simp only [List.nodup_cons] at hl
    have h1 : a ∉ s := hd a (by simp)
    have h2 := ih (s.insert a) hl.2 (by
      intro x hx
      rw [FSet.mem_insert]
      rintro (rfl | h)
      · exact hl.1 hx
      · exact hd x (List.mem_cons_of_mem _ hx) h)
    rw [List.foldl_cons, ← h2]
    have : s.contains a = false := by rw [Bool.eq_false_iff, Ne, FSet.contains_iff]; exact h1
    simp [Store.putStale, this, ensure]

theorem foldl_insert_nodup {K : Type} [DecidableEq K] (l : List K) (s : FSet K) (h : s.elems.Nodup) :
    (l.foldl FSet.insert s).elems.Nodup := by
  induction l generalizing s with
  | nil => exact h
  | cons a t ih =>
    apply ih
    unfold FSet.insert
    split
    · exact h
    · rename_i h'; simp [h, h']

/-- The history list of a key. -/
def vhGet (vh : FMap Key (List (Version × Option Value))) (k : Key) : List (Version × Option Value) := (vh.get k).getD []

theorem putValueHistory_nodup {vh vh' : FMap Key (List (Version × Option Value))} {v : Version} {k : Key} {x : Option Value}
    (h : Store.putValueHistory vh v k x = .ok vh') (hn : vh.NodupKeys) : vh'.NodupKeys := by
  unfold Store.putValueHistory at h
  split at h
  · split at h
    · split at h
      · cases h
      · split at h <;> (cases h; exact hn.set _ _)
    · cases h; exact hn.set _ _
  · cases h; exact hn.set _ _

theorem writeValues_nodup {l : List ((Version × Key) × Option Value)} {vh vh' : FMap Key (List (Version × Option Value))}
    (h : Store.writeValues l vh = .ok vh') (hn : vh.NodupKeys) : vh'.NodupKeys := by
  induction l generalizing vh with
  | nil => cases h; exact hn
  | cons e t ih =>
    obtain ⟨⟨v, k⟩, x⟩ := e
    simp only [Store.writeValues] at h
    cases h1 : Store.putValueHistory vh v k x with
    | error e => rw [h1] at h; cases h
    | ok vh1 => rw [h1] at h; exact ih h (putValueHistory_nodup h1 hn)

theorem writeValues_spec (l : List ((Version × Key) × Option Value)) (vh : FMap Key (List (Version × Option Value)))
    (hs : OMap.Sorted valueKeyLt l) (hd : ∀ e ∈ l, ∀ x ∈ vhGet vh e.1.2, x.1 < e.1.1) :
    ∃ vh', Store.writeValues l vh = .ok vh' ∧
      ∀ k, vhGet vh' k = vhGet vh k ++ (l.filter (fun e => decide (e.1.2 = k))).map (fun e => (e.1.1, e.2)) := by
  induction l generalizing vh with
  | nil => exact ⟨vh, rfl, by simp⟩
  | cons e t ih =>
    obtain ⟨⟨v, k⟩, x⟩ := e
    have hs' := List.pairwise_cons.1 hs
    have h1 : ∃ vh1, Store.putValueHistory vh v k x = .ok vh1 ∧
        ∀ k', vhGet vh1 k' = vhGet vh k' ++ if k' = k then [(v, x)] else [] := by
      unfold Store.putValueHistory
      have hlast := hd ((v, k), x) (by simp)
      simp only [vhGet] at hlast
      cases hg : vh.get k with
      | none =>
        refine ⟨_, rfl, ?_⟩
        intro k'
        unfold vhGet
        rw [FMap.get_set]
        by_cases hk : k' = k
        · subst hk; simp [hg]
        · simp [hk]
      | some h =>
        simp only [hg, Option.getD_some] at hlast
        have hset : ∀ k', vhGet (vh.set k (h ++ [(v, x)])) k' = vhGet vh k' ++ if k' = k then [(v, x)] else [] := by
          intro k'
          unfold vhGet
          rw [FMap.get_set]
          by_cases hk : k' = k
          · subst hk; simp [hg]
          · simp [hk]
        simp only
        cases hl : h.getLast? with
        | none => exact ⟨_, rfl, hset⟩
        | some e =>
          obtain ⟨lv, lx⟩ := e
          have := hlast (lv, lx) (List.mem_of_getLast? hl)
          simp only at this
          simp only [show ¬ v < lv by omega, show ¬ v = lv by omega, if_false]
          exact ⟨_, rfl, hset⟩
    obtain ⟨vh1, e1, e2⟩ := h1
    obtain ⟨vh2, f1, f2⟩ := ih vh1 hs'.2 (by
      rintro ⟨⟨v', k'⟩, x'⟩ he y hy
      rw [e2] at hy
      rw [List.mem_append] at hy
      rcases hy with hy | hy
      · exact hd _ (List.mem_cons_of_mem _ he) y hy
      · split at hy
        · rename_i hk
          simp only [List.mem_singleton] at hy
          subst hy
          have := hs'.1 _ he
          simp only at hk
          subst hk
          simp only [valueKeyLt, decide_eq_true_eq] at this
          rcases this with h | ⟨_, h⟩
          · exact h
          · exact absurd h (Key.lt_irrefl _)
        · simp at hy)
    refine ⟨vh2, ?_, ?_⟩
    · simp only [Store.writeValues, e1, Res.ok_bind, f1]
    · intro k'
      rw [f2, e2, List.append_assoc]
      congr 1
      by_cases hk : k' = k
      · subst hk; simp
      · simp [hk, Ne.symm hk]

/-- The entries of a sorted batch for one key, as a history list. -/
theorem values_histOf {vals : OMap (Version × Key) (Option Value)} (hs : OMap.Sorted valueKeyLt vals.entries) {first : Version}
    {sets : List Commit}
    (hg : ∀ v k, vals.get (v, k) = if first ≤ v then (sets[v - first]?).bind (fun cm => lastOf cm.updates k) else none) (k : Key) :
    (vals.entries.filter (fun e => decide (e.1.2 = k))).map (fun e => (e.1.1, e.2)) = histOf first sets k := by
  have hsort : ((vals.entries.filter (fun e => decide (e.1.2 = k))).map (fun e => (e.1.1, e.2))).Pairwise (fun a b => a.1 < b.1) := by
    rw [List.pairwise_map]
    have := List.Pairwise.filter (fun e => decide (e.1.2 = k)) hs
    refine List.Pairwise.imp_of_mem ?_ this
    intro a b ha hb hab
    simp only [List.mem_filter, decide_eq_true_eq] at ha hb
    simp only [valueKeyLt, decide_eq_true_eq] at hab
    rcases hab with h | ⟨_, h⟩
    · exact h
    · rw [ha.2, hb.2] at h; exact absurd h (Key.lt_irrefl _)
  have hnd : ∀ l : List (Version × Option Value), l.Pairwise (fun a b => a.1 < b.1) → l.Nodup := by
    intro l hl
    exact hl.imp (by rintro a b hab rfl; exact absurd hab (Nat.lt_irrefl _))
  have hmem : ∀ e, e ∈ (vals.entries.filter (fun e => decide (e.1.2 = k))).map (fun e => (e.1.1, e.2)) ↔ e ∈ histOf first sets k := by
    rintro ⟨v, x⟩
    rw [histOf_mem]
    simp only [List.mem_map, List.mem_filter, decide_eq_true_eq]
    constructor
    · rintro ⟨⟨⟨v', k'⟩, x'⟩, ⟨h1, h2⟩, h3⟩
      simp only [Prod.mk.injEq] at h2 h3
      obtain ⟨rfl, rfl⟩ := h3
      subst h2
      have := (OMap.mem_iff_lookup valueKeyLt_strict hs).1 h1
      have hg' := hg v' k'
      unfold OMap.get at hg'
      rw [this] at hg'
      split at hg'
      · exact ⟨by assumption, hg'.symm⟩
      · cases hg'
    · rintro ⟨h0, h1⟩
      refine ⟨((v, k), x), ⟨?_, rfl⟩, rfl⟩
      rw [OMap.mem_iff_lookup valueKeyLt_strict hs]
      have hg' := hg v k
      unfold OMap.get at hg'
      rw [hg', if_pos h0, h1]
  exact (List.perm_ext_iff_of_nodup (hnd _ hsort) (hnd _ (histOf_sorted _ _ _))).2 hmem |>.eq_of_pairwise
    (by intro a b _ _ h1 h2; omega) hsort (histOf_sorted _ _ _)

/-- `purge_stale_nodes` removes the listed nodes. -/
theorem purgeLoop_spec (l : List StaleNodeIndex) (s : Store D) (hl : (l.map StaleNodeIndex.nodeKey).Nodup)
    (hp : ∀ i ∈ l, (s.nodes.get i.nodeKey).isSome = true) :
    ∃ s', Store.purgeLoop l s = .ok s' ∧
      (∀ nk, s'.nodes.get nk = if nk ∈ l.map StaleNodeIndex.nodeKey then none else s.nodes.get nk) ∧
      (∀ i, i ∈ s'.staleNodes ↔ i ∈ s.staleNodes ∧ i ∉ l) ∧ s'.valueHistory = s.valueHistory ∧
      s'.allowOverwrite = s.allowOverwrite ∧ (s.nodes.NodupKeys → s'.nodes.NodupKeys) ∧
      (s.staleNodes.elems.Nodup → s'.staleNodes.elems.Nodup) := by
  induction l generalizing s with
  | nil => exact ⟨s, rfl, by simp, by simp, rfl, rfl, id, id⟩
  | cons a t ih =>
    simp only [List.map_cons, List.nodup_cons] at hl
    have h1 := hp a (by simp)
    obtain ⟨s', f1, f2, f3, f4, f5, f6, f7⟩ := ih { s with nodes := s.nodes.erase a.nodeKey, staleNodes := s.staleNodes.erase a } hl.2 (by
      intro i hi
      show ((s.nodes.erase a.nodeKey).get i.nodeKey).isSome = true
      rw [FMap.get_erase, if_neg]
      · exact hp i (List.mem_cons_of_mem _ hi)
      · intro he; exact hl.1 (List.mem_map.2 ⟨i, hi, he⟩))
    refine ⟨s', ?_, ?_, ?_, f4, f5, fun h => f6 (FMap.NodupKeys.erase h _), fun h => f7 (List.filter_sublist.nodup h)⟩
    · simp only [Store.purgeLoop, h1, ensure, Res.ok_bind, if_true]
      exact f1
    · intro nk
      rw [f2]
      show (if _ then none else (s.nodes.erase a.nodeKey).get nk) = _
      rw [FMap.get_erase, List.map_cons]
      by_cases hn : nk = a.nodeKey
      · simp [hn]
      · simp [hn]
    · intro i
      rw [f3]
      show i ∈ s.staleNodes.erase a ∧ _ ↔ _
      rw [FSet.mem_erase, List.mem_cons, not_or, and_assoc]

theorem getValueOption_eq (s : Store D) (w : Version) (k : Key) :
    s.getValueOption w k = ((vhGet s.valueHistory k).reverse.find? (fun e => decide (e.1 ≤ w))).bind (fun e => e.2) := by
  unfold Store.getValueOption vhGet
  cases s.valueHistory.get k with
  | none => rfl
  | some h =>
    simp only [Option.getD_some]
    cases h.reverse.find? (fun e => decide (e.1 ≤ w)) <;> rfl

end Verif.Jmt
