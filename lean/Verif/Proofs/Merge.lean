import Mathlib.Data.List.Sort
import Verif.Jmt.Merge
import Verif.Proofs.Redo
import Verif.Proofs.JmtOrder
/-! Merging batches, and collecting updates in one batch. -/

set_option autoImplicit false

namespace Verif.Jmt
variable {D : Type}

/-! what a reader answers about values does not matter to updates -/

/-- `r` answers about nodes as the reader of `c` does. -/
def SameNodes (c : TreeCache D) (r : Reader D) : Prop := ∀ nk, r.getNodeOption nk = c.reader.getNodeOption nk

theorem SameNodes.within {c : TreeCache D} {r : Reader D} (h : SameNodes c r) : Within (fun _ => False) c r :=
  fun nk _ hn => .inl ((h nk).trans hn)

theorem SameNodes.get {c : TreeCache D} {r : Reader D} (h : SameNodes c r) (nk : NodeKey) : (c.over r).getNodeOption nk = c.getNodeOption nk := by
  unfold TreeCache.getNodeOption
  simp only [TreeCache.over, h nk]

theorem put_same {H : Hasher D} {m : Bool} {key : Key} {x : Option D} {ver : Version} {c c' : TreeCache D} {r : Reader D} (h : SameNodes c r)
    (hp : Tree.put H m key x ver c = .ok c') : Tree.put H m key x ver (c.over r) = .ok (c'.over r) := by
  cases hr : c.getNodeOption c.rootNodeKey with
  | some n =>
    exact (put_over (L := fun _ => False) H m key x ver c r (fun _ _ h => h) h.within (by rw [hr]; rfl)).strict hp
  | none =>
    have hr' : (c.over r).getNodeOption (c.over r).rootNodeKey = none := (h.get _).trans hr
    have e1 : ∀ c : TreeCache D, c.getNodeOption c.rootNodeKey = none →
        Tree.insertAt H m ver key x key.nibbles [] c.rootNodeKey c = Tree.insertAt.insertNull ver key x c.rootNodeKey false c := by
      intro c hc
      unfold Tree.insertAt
      rw [hc]
    refine Carries.strict (g := TreeCache.over r) ?_ hp
    unfold Tree.put
    rw [e1 c hr, e1 _ hr']
    refine (insertNull_over ver key x c.rootNodeKey false c).bind ?_
    rintro ⟨c1, res⟩ _
    cases res with
    | updated a => exact Carries.pure (TreeCache.over r) _
    | notChanged => exact Carries.pure (TreeCache.over r) _
    | removed => exact putNode_over (c1.setRootNodeKey _) _ _

theorem over_self (c : TreeCache D) : c.over c.reader = c := rfl

theorem put_reader {H : Hasher D} {m : Bool} {key : Key} {x : Option D} {ver : Version} {c c' : TreeCache D}
    (hp : Tree.put H m key x ver c = .ok c') : c'.reader = c.reader := by
  have h := put_same (r := c.reader) (fun _ => rfl) hp
  rw [over_self, hp] at h
  rw [Except.ok.inj h]; rfl

theorem putSet_same {H : Hasher D} {m : Bool} {ver : Version} (s : Tree.ValueSet) {c c' : TreeCache D} {r : Reader D} (h : SameNodes c r)
    (hp : Tree.putSet H m ver s c = .ok c') : Tree.putSet H m ver s (c.over r) = .ok (c'.over r) ∧ c'.reader = c.reader := by
  induction s generalizing c with
  | nil => cases hp; exact ⟨rfl, rfl⟩
  | cons e s ih =>
    obtain ⟨k, x⟩ := e
    simp only [Tree.putSet] at hp ⊢
    obtain ⟨c1, h1, h2⟩ := Res.bind_ok hp
    have h0 : SameNodes (c.putValue ver k x) r := h
    have hr := put_reader h1
    have h3 := put_same h0 h1
    have hs : SameNodes c1 r := by intro nk; rw [hr]; exact h nk
    obtain ⟨i1, i2⟩ := ih hs h2
    refine ⟨?_, i2.trans hr⟩
    have e0 : (c.over r).putValue ver k x = (c.putValue ver k x).over r := rfl
    rw [e0, h3]
    exact i1

theorem freeze_same {H : Hasher D} {c c' : TreeCache D} {r : Reader D} (h : SameNodes c r) (hp : c.freeze H = .ok c') :
    (c.over r).freeze H = .ok (c'.over r) := by
  cases hr : c.getNodeOption c.rootNodeKey with
  | some n =>
    exact (freeze_over (L := fun _ => False) H c r h.within hr ((h.get _).trans hr)).strict hp
  | none =>
    have hr' : (c.over r).getNodeOption (c.over r).rootNodeKey = none := (h.get _).trans hr
    refine Carries.strict (g := TreeCache.over r) ?_ hp
    unfold TreeCache.freeze TreeCache.freezeRoot
    rw [hr, hr']
    refine Carries.bind (g := fun x => (x.1.over r, x.2)) ?_ ?_
    · exact (putNode_over c c.rootNodeKey .null).bind (fun a _ => Carries.pure (fun x : TreeCache D × Node D => (x.1.over r, x.2)) (a, Node.null))
    · rintro ⟨c1, n⟩ h1
      obtain ⟨c2, h2, h3⟩ := Res.bind_ok h1
      obtain ⟨rfl, rfl⟩ : c2 = c1 ∧ Node.null = n := by cases h3; exact ⟨rfl, rfl⟩
      have hs : SameNodes c2 r := by
        have h4 : c2.reader = c.reader := by
          unfold TreeCache.putNode at h2
          split at h2
          · cases h2
          · cases h2; rfl
        intro nk; rw [h4]; exact h nk
      refine Carries.bind (g := TreeCache.over r) ?_ (fun a _ => Carries.pure (TreeCache.over r) _)
      unfold TreeCache.freezeCopy
      dsimp only
      by_cases h : (c2.pushRoot (Node.null.hash H)).nextVersion > 0 ∧ (c2.pushRoot (Node.null.hash H)).nodeCache.isEmpty = true ∧
          (c2.pushRoot (Node.null.hash H)).staleNodeIndexCache.isEmpty = true
      · have h' : ((c2.over r).pushRoot (Node.null.hash H)).nextVersion > 0 ∧ ((c2.over r).pushRoot (Node.null.hash H)).nodeCache.isEmpty = true ∧
          ((c2.over r).pushRoot (Node.null.hash H)).staleNodeIndexCache.isEmpty = true := h
        rw [if_pos h, if_pos h']
        have hw : Within (fun _ => False) (c2.pushRoot (Node.null.hash H)) r := hs.within
        exact (hw.getNode _).bind (fun a _ => putNode_over (c2.pushRoot (Node.null.hash H)) _ _)
      · have h' : ¬ (((c2.over r).pushRoot (Node.null.hash H)).nextVersion > 0 ∧ ((c2.over r).pushRoot (Node.null.hash H)).nodeCache.isEmpty = true ∧
          ((c2.over r).pushRoot (Node.null.hash H)).staleNodeIndexCache.isEmpty = true) := h
        rw [if_neg h, if_neg h']
        exact Carries.pure (TreeCache.over r) _

theorem freeze_reader' {H : Hasher D} {c c' : TreeCache D} (hp : c.freeze H = .ok c') : c'.reader = c.reader := by
  have h := freeze_same (r := c.reader) (fun _ => rfl) hp
  rw [over_self, hp] at h
  rw [Except.ok.inj h]; rfl

theorem putSets_same {H : Hasher D} {m : Bool} (sets : List Tree.ValueSet) {ver : Version} {c c' : TreeCache D} {r : Reader D} (h : SameNodes c r)
    (hp : Tree.putSets H m ver sets c = .ok c') : Tree.putSets H m ver sets (c.over r) = .ok (c'.over r) := by
  induction sets generalizing c ver with
  | nil => cases hp; rfl
  | cons s sets ih =>
    simp only [Tree.putSets] at hp ⊢
    obtain ⟨c1, h1, hp⟩ := Res.bind_ok hp
    obtain ⟨c2, h2, hp⟩ := Res.bind_ok hp
    obtain ⟨e1, e2⟩ := putSet_same s h h1
    have hs1 : SameNodes c1 r := by intro nk; rw [e2]; exact h nk
    have e3 := freeze_same hs1 h2
    have hs2 : SameNodes c2 r := by intro nk; rw [freeze_reader' h2]; exact hs1 nk
    rw [e1]
    show (TreeCache.over r c1).freeze H >>= _ = _
    rw [e3]
    exact ih hs2 hp

/-- Updates do not read values. -/
theorem putValueSets_same {H : Hasher D} {m : Bool} {sets : List Tree.ValueSet} {ver : Version} {r r' : Reader D}
    (h : ∀ nk, r'.getNodeOption nk = r.getNodeOption nk) {x : List D × TreeUpdateBatch D} (hx : Tree.putValueSets H m r sets ver = .ok x) :
    Tree.putValueSets H m r' sets ver = .ok x := by
  unfold Tree.putValueSets at hx ⊢
  obtain ⟨c, h1, h2⟩ := Res.bind_ok hx
  have h3 := putSets_same (r := r') sets (by intro nk; rw [new_reader']; exact h nk) h1
  rw [new_over' (.inr (by rw [h]))] at h3
  rw [h3]
  exact h2

theorem batchPutValueSets_same {H : Hasher D} {m : Bool} {sets : List (List (Key × Value))} {ver : Version} {r r' : Reader D}
    (h : ∀ nk, r'.getNodeOption nk = r.getNodeOption nk) {x : List D × TreeUpdateBatch D} (hx : Tree.batchPutValueSets H m r sets none ver = .ok x) :
    Tree.batchPutValueSets H m r' sets none ver = .ok x :=
  batchPutValueSets_more' (fun nk n hn => (h nk).trans hn) (.inr (by rw [h])) hx

/-! values -/

theorem push_last {h h' : List (Version × Option Value)} {e : Version × Option Value} (hp : push h e = some h') : ∃ a, h' = a ++ [e] := by
  unfold push at hp
  split at hp
  · split at hp
    · cases hp
    · split at hp <;> (cases hp; exact ⟨_, rfl⟩)
  · cases hp; exact ⟨_, rfl⟩

theorem push_twice {h h1 h2 : List (Version × Option Value)} {e y : Version × Option Value} (h0 : push h e = some h1) (hv : e.1 = y.1)
    (h3 : push h1 y = some h2) : push h y = some h2 := by
  obtain ⟨a, rfl⟩ := push_last h0
  unfold push at h3
  rw [List.getLast?_concat] at h3
  simp only [hv, Nat.lt_irrefl, if_true, if_false, List.dropLast_concat, Option.some.injEq] at h3
  subst h3
  unfold push at h0 ⊢
  rw [← hv]
  cases hl : h.getLast? with
  | none =>
    rw [hl] at h0
    simp only [Option.some.injEq] at h0 ⊢
    have := List.append_inj_left' h0 rfl
    rw [this]
  | some l =>
    rw [hl] at h0
    simp only at h0 ⊢
    split at h0
    · cases h0
    · rename_i h1
      rw [if_neg h1]
      split at h0
      · rename_i h2
        rw [if_pos h2]
        simp only [Option.some.injEq] at h0 ⊢
        rw [List.append_inj_left' h0 rfl]
      · rename_i h2
        rw [if_neg h2]
        simp only [Option.some.injEq] at h0 ⊢
        rw [List.append_inj_left' h0 rfl]

/-- Pushing two ascending lists one after the other is pushing the second one and of the first one what the second one does not replace. -/
theorem pushAll_merge {h h1 h2 l1 l2 : List (Version × Option Value)} (s1 : l1.Pairwise (fun a b => a.1 < b.1))
    (s2 : l2.Pairwise (fun a b => a.1 < b.1)) (e1 : pushAll h l1 = some h1) (e2 : pushAll h1 l2 = some h2) :
    (∀ x ∈ l1, ∀ y ∈ l2, x.1 ≤ y.1) ∧ pushAll h (l1.filter (fun x => decide (∀ y ∈ l2, x.1 ≠ y.1)) ++ l2) = some h2 := by
  cases l2 with
  | nil =>
    simp only [pushAll, Option.some.injEq] at e2
    subst e2
    refine ⟨fun x _ y hy => (by cases hy), ?_⟩
    simpa using e1
  | cons y t =>
    rcases List.eq_nil_or_concat l1 with rfl | ⟨a, e, rfl⟩
    · simp only [pushAll, Option.some.injEq] at e1
      subst e1
      exact ⟨fun x hx => (by cases hx), by simpa using e2⟩
    · rw [List.concat_eq_append] at *
      have s1' := List.pairwise_append.1 s1
      have s2' := List.pairwise_cons.1 s2
      rw [pushAll_append] at e1
      obtain ⟨ha, e3, e4⟩ := Option.bind_eq_some_iff.1 e1
      have e4 : push ha e = some h1 := by
        simp only [pushAll] at e4
        obtain ⟨z, e5, e6⟩ := Option.bind_eq_some_iff.1 e4
        cases e6; exact e5
      simp only [pushAll] at e2
      obtain ⟨hy, e5, e6⟩ := Option.bind_eq_some_iff.1 e2
      have hle : e.1 ≤ y.1 := by
        obtain ⟨z, rfl⟩ := push_last e4
        unfold push at e5
        rw [List.getLast?_concat] at e5
        simp only at e5
        split at e5
        · cases e5
        · omega
      have hae : ∀ x ∈ a, x.1 < e.1 := fun x hx => s1'.2.2 x hx e (by simp)
      have hyt : ∀ z ∈ y :: t, y.1 ≤ z.1 := by
        intro z hz
        rcases List.mem_cons.1 hz with rfl | hz
        · exact Nat.le_refl _
        · exact Nat.le_of_lt (s2'.1 z hz)
      refine ⟨?_, ?_⟩
      · intro x hx z hz
        have h1 := hyt z hz
        rcases List.mem_append.1 hx with hx | hx
        · have := hae x hx; omega
        · simp only [List.mem_singleton] at hx; subst hx; omega
      · have hfa : a.filter (fun x => decide (∀ z ∈ y :: t, x.1 ≠ z.1)) = a := by
          rw [List.filter_eq_self]
          intro x hx
          simp only [decide_eq_true_eq]
          intro z hz
          have := hae x hx
          have := hyt z hz
          omega
        rw [List.filter_append, hfa]
        by_cases hey : e.1 = y.1
        · have : [e].filter (fun x => decide (∀ z ∈ y :: t, x.1 ≠ z.1)) = [] := by
            rw [List.filter_eq_nil_iff]
            intro x hx
            simp only [List.mem_singleton] at hx
            subst hx
            simp only [decide_eq_true_eq]
            intro h
            exact h y (by simp) hey
          rw [this, List.append_nil, pushAll_append, e3]
          simp only [Option.bind_some, pushAll, push_twice e4 hey e5]
          exact e6
        · have : [e].filter (fun x => decide (∀ z ∈ y :: t, x.1 ≠ z.1)) = [e] := by
            rw [List.filter_eq_self]
            intro x hx
            simp only [List.mem_singleton] at hx
            subst hx
            simp only [decide_eq_true_eq]
            intro z hz
            have := hyt z hz
            omega
          rw [this, List.append_assoc, pushAll_append, e3]
          simp only [List.singleton_append, Option.bind_some, pushAll, e4, e5]
          exact e6

theorem ascending_ext {l l' : List (Version × Option Value)} (h : l.Pairwise (fun a b => a.1 < b.1)) (h' : l'.Pairwise (fun a b => a.1 < b.1))
    (hm : ∀ v x, (v, x) ∈ l ↔ (v, x) ∈ l') : l = l' := by
  have n : ∀ {l : List (Version × Option Value)}, l.Pairwise (fun a b => a.1 < b.1) → l.Nodup := by
    intro l h
    refine List.Pairwise.imp ?_ h
    rintro a b hab rfl
    exact Nat.lt_irrefl _ hab
  have hp : l.Perm l' := (List.perm_ext_iff_of_nodup (n h) (n h')).2 (fun a => hm a.1 a.2)
  refine hp.eq_of_pairwise (le := fun a b => a.1 < b.1) ?_ h h'
  intro a b _ _ h1 h2
  omega

/-- The values of a key in merged values. -/
theorem valuesOf_merge {m1 m2 : OMap (Version × Key) (Option Value)} (s1 : OMap.Sorted valueKeyLt m1.entries) (s2 : OMap.Sorted valueKeyLt m2.entries)
    (k : Key) (hle : ∀ x ∈ valuesOf m1.entries k, ∀ y ∈ valuesOf m2.entries k, x.1 ≤ y.1) :
    valuesOf (m1.extend valueKeyLt m2.entries).entries k =
      (valuesOf m1.entries k).filter (fun x => decide (∀ y ∈ valuesOf m2.entries k, x.1 ≠ y.1)) ++ valuesOf m2.entries k := by
  have s3 := OMap.sorted_extend valueKeyLt_strict m2.entries m1 s1
  refine ascending_ext (valuesOf_sorted s3 k) ?_ ?_
  · rw [List.pairwise_append]
    refine ⟨(valuesOf_sorted s1 k).filter _, valuesOf_sorted s2 k, ?_⟩
    intro x hx y hy
    simp only [List.mem_filter, decide_eq_true_eq] at hx
    have h1 := hle x hx.1 y hy
    have h2 := hx.2 y hy
    omega
  · intro v x
    rw [mem_valuesOf, OMap.mem_iff_lookup valueKeyLt_strict s3]
    have hg := OMap.get_extend valueKeyLt_strict m2.entries m1 s1 (OMap.sorted_nodup valueKeyLt_strict s2) (v, k)
    unfold OMap.get at hg
    rw [hg, List.mem_append, List.mem_filter, mem_valuesOf, mem_valuesOf, OMap.mem_iff_lookup valueKeyLt_strict s1,
      OMap.mem_iff_lookup valueKeyLt_strict s2]
    simp only [decide_eq_true_eq]
    have hnone : FMap.lookupL m2.entries (v, k) = none ↔ ∀ y ∈ valuesOf m2.entries k, v ≠ y.1 := by
      constructor
      · rintro h ⟨w, y⟩ hy rfl
        rw [mem_valuesOf, OMap.mem_iff_lookup valueKeyLt_strict s2, h] at hy
        cases hy
      · intro h
        cases hc : FMap.lookupL m2.entries (v, k) with
        | none => rfl
        | some y =>
          rw [← OMap.mem_iff_lookup valueKeyLt_strict s2, ← mem_valuesOf] at hc
          exact absurd rfl (h _ hc)
    cases hc : FMap.lookupL m2.entries (v, k) with
    | none =>
      rw [Option.none_or]
      constructor
      · intro h; exact .inl ⟨h, hnone.1 hc⟩
      · rintro (h | h)
        · exact h.1
        · cases h
    | some y =>
      rw [Option.some_or]
      constructor
      · intro h; exact .inr h
      · rintro (h | h)
        · have := hnone.2 h.2; rw [hc] at this; cases this
        · exact h

/-- What writing values does to the history of each key. -/
theorem writeValues_get {l : List ((Version × Key) × Option Value)} {vh vh' : FMap Key (List (Version × Option Value))}
    (h : Store.writeValues l vh = .ok vh') (k : Key) :
    pushAll (vhGet vh k) (valuesOf l k) = some (vhGet vh' k) ∧ vh'.get k = if valuesOf l k = [] then vh.get k else some (vhGet vh' k) := by
  induction l generalizing vh with
  | nil => cases h; exact ⟨rfl, by simp [valuesOf]⟩
  | cons e l ih =>
    obtain ⟨⟨v, k0⟩, x⟩ := e
    simp only [Store.writeValues] at h
    obtain ⟨vh1, h1, h2⟩ := Res.bind_ok h
    have hp := putValueHistory_push vh v k0 x
    cases hq : push (vhGet vh k0) (v, x) with
    | none => rw [hq] at hp; simp only at hp; rw [hp] at h1; cases h1
    | some g =>
      rw [hq] at hp
      obtain ⟨vh1', e1, e2, e3⟩ := hp
      rw [e1] at h1
      obtain rfl := Except.ok.inj h1
      obtain ⟨i1, i2⟩ := ih h2
      have hget : ∀ k', k' ≠ k0 → vh1'.get k' = vh.get k' := by
        intro k' hk
        unfold Store.putValueHistory at e1
        split at e1
        · split at e1
          · split at e1
            · cases e1
            · split at e1 <;> (cases e1; rw [FMap.get_set, if_neg hk])
          · cases e1; rw [FMap.get_set, if_neg hk]
        · cases e1; rw [FMap.get_set, if_neg hk]
      have hsome : vh1'.get k0 = some (vhGet vh1' k0) := by
        unfold Store.putValueHistory at e1
        have : ∀ y, (vh.set k0 y).get k0 = some (vhGet (vh.set k0 y) k0) := by intro y; simp [vhGet, FMap.get_set]
        split at e1
        · split at e1
          · split at e1
            · cases e1
            · split at e1 <;> (cases e1; exact this _)
          · cases e1; exact this _
        · cases e1; exact this _
      rw [valuesOf_cons]
      by_cases hk : k0 = k
      · subst hk
        simp only [if_true, pushAll, hq, Option.bind_some]
        rw [e2] at i1
        refine ⟨i1, ?_⟩
        rw [i2]
        split
        · rename_i hnil
          rw [if_neg (by simp), hsome, e2]
          rw [hnil] at i1
          simp only [pushAll] at i1
          exact i1
        · rw [if_neg (by simp)]
      · rw [if_neg hk, ← e3 k (Ne.symm hk), ← hget k (Ne.symm hk)]
        exact ⟨i1, i2⟩

theorem writeValues_merge {m1 m2 : OMap (Version × Key) (Option Value)} (s1 : OMap.Sorted valueKeyLt m1.entries)
    (s2 : OMap.Sorted valueKeyLt m2.entries) {vh vh1 vh2 : FMap Key (List (Version × Option Value))}
    (e1 : Store.writeValues m1.entries vh = .ok vh1) (e2 : Store.writeValues m2.entries vh1 = .ok vh2) :
    ∃ vh', Store.writeValues (m1.extend valueKeyLt m2.entries).entries vh = .ok vh' ∧ ∀ k, vh'.get k = vh2.get k := by
  have hk : ∀ k, pushAll (vhGet vh k) (valuesOf (m1.extend valueKeyLt m2.entries).entries k) = some (vhGet vh2 k) ∧
      (valuesOf (m1.extend valueKeyLt m2.entries).entries k = [] ↔ valuesOf m1.entries k = [] ∧ valuesOf m2.entries k = []) := by
    intro k
    obtain ⟨a1, a2⟩ := pushAll_merge (valuesOf_sorted s1 k) (valuesOf_sorted s2 k) (writeValues_get e1 k).1 (writeValues_get e2 k).1
    have hm := valuesOf_merge s1 s2 k a1
    refine ⟨by rw [hm]; exact a2, ?_⟩
    rw [hm, List.append_eq_nil_iff]
    constructor
    · rintro ⟨h1, h2⟩
      refine ⟨?_, h2⟩
      rw [h2] at h1
      simpa using h1
    · rintro ⟨h1, h2⟩
      rw [h1, h2]
      exact ⟨rfl, rfl⟩
  obtain ⟨vh', h1, h2⟩ := (writeValues_push _ vh).1 (fun k => vhGet vh2 k) (fun k => (hk k).1)
  refine ⟨vh', h1, ?_⟩
  intro k
  rw [(writeValues_get h1 k).2, (writeValues_get e2 k).2, (writeValues_get e1 k).2, h2 k]
  by_cases c2 : valuesOf m2.entries k = []
  · rw [if_pos c2]
    by_cases c1 : valuesOf m1.entries k = []
    · rw [if_pos ((hk k).2.2 ⟨c1, c2⟩), if_pos c1]
    · rw [if_neg (fun h => c1 ((hk k).2.1 h).1), if_neg c1]
      have := (writeValues_get e2 k).1
      rw [c2] at this
      simp only [pushAll] at this
      exact this.symm
  · rw [if_neg (fun h => c2 ((hk k).2.1 h).2), if_neg c2]

/-! nodes -/

theorem writeNodes_ok {ao : Bool} {l : List (NodeKey × Node D)} {m m' : FMap NodeKey (Node D)} (h : Store.writeNodes ao l m = .ok m') :
    m' = m.extend l ∧ (ao = false → ∀ e ∈ l, m.get e.1 = none) := by
  induction l generalizing m with
  | nil => cases h; exact ⟨rfl, fun _ e he => by cases he⟩
  | cons e t ih =>
    obtain ⟨nk, n⟩ := e
    cases ao with
    | true =>
      simp only [Store.writeNodes, Bool.not_true, Bool.false_eq_true, if_false] at h
      obtain ⟨i1, _⟩ := ih h
      exact ⟨i1, fun h => by cases h⟩
    | false =>
      simp only [Store.writeNodes, Bool.not_false, if_true] at h
      cases hg : m.get nk with
      | some x => rw [hg] at h; cases h
      | none =>
        rw [hg] at h
        obtain ⟨i1, i2⟩ := ih (m := m.set nk n) h
        refine ⟨i1, ?_⟩
        intro _ e he
        rcases List.mem_cons.1 he with rfl | he
        · exact hg
        · have := i2 rfl e he
          rw [FMap.get_set] at this
          split at this
          · cases this
          · exact this

theorem writeNodes_merge {ao : Bool} {m1 m2 m n1 n2 : FMap NodeKey (Node D)} (s1 : m1.NodupKeys) (s2 : m2.NodupKeys)
    (e1 : Store.writeNodes ao m1.entries m = .ok n1) (e2 : Store.writeNodes ao m2.entries n1 = .ok n2) :
    ∃ n', Store.writeNodes ao (m1.extend m2.entries).entries m = .ok n' ∧ ∀ nk, n'.get nk = n2.get nk := by
  obtain ⟨a1, a2⟩ := writeNodes_ok e1
  obtain ⟨b1, b2⟩ := writeNodes_ok e2
  have s3 : (m1.extend m2.entries).NodupKeys := s1.extend _
  have hget : ∀ nk, (m.extend (m1.extend m2.entries).entries).get nk = n2.get nk := by
    intro nk
    rw [b1, a1, FMap.get_extend _ _ s3, FMap.get_extend m2.entries (m.extend m1.entries) s2, FMap.get_extend _ _ s1]
    have : (⟨(m1.extend m2.entries).entries⟩ : FMap NodeKey (Node D)).get nk = (m2.get nk).or (m1.get nk) := FMap.get_extend _ _ s2 nk
    rw [this, Option.or_assoc]
  cases ao with
  | true => exact ⟨_, writeNodes_over _ _, hget⟩
  | false =>
    refine ⟨_, writeNodes_spec false _ m s3 ?_, hget⟩
    rintro ⟨nk, n⟩ he
    have hg : (m1.extend m2.entries).get nk = some n := FMap.get_of_mem s3 he
    rw [FMap.get_extend _ _ s2] at hg
    cases h2 : m2.get nk with
    | some x =>
      have := b2 rfl _ (FMap.mem_of_get h2)
      rw [a1, FMap.get_extend _ _ s1] at this
      simp only at this
      exact (Option.or_eq_none_iff.1 this).2
    | none =>
      have h2' : (⟨m2.entries⟩ : FMap NodeKey (Node D)).get nk = none := h2
      rw [h2', Option.none_or] at hg
      exact a2 rfl _ (FMap.mem_of_get hg)

theorem writeNodes_congr {ao : Bool} {l : List (NodeKey × Node D)} {a b b' : FMap NodeKey (Node D)} (h : ∀ k, a.get k = b.get k)
    (hb : Store.writeNodes ao l b = .ok b') : ∃ a', Store.writeNodes ao l a = .ok a' ∧ ∀ k, a'.get k = b'.get k := by
  induction l generalizing a b with
  | nil => cases hb; exact ⟨a, rfl, h⟩
  | cons e t ih =>
    obtain ⟨nk, n⟩ := e
    have hset : ∀ k, (a.set nk n).get k = (b.set nk n).get k := by intro k; rw [FMap.get_set, FMap.get_set, h]
    cases ao with
    | true =>
      simp only [Store.writeNodes, Bool.not_true, Bool.false_eq_true, if_false] at hb ⊢
      exact ih hset hb
    | false =>
      simp only [Store.writeNodes, Bool.not_false, if_true] at hb ⊢
      rw [h]
      cases hg : b.get nk with
      | some x => rw [hg] at hb; cases hb
      | none => rw [hg] at hb; exact ih hset hb

/-! stale marks -/

theorem putStale_free {l : List StaleNodeIndex} {s s' : FSet StaleNodeIndex} (h : Store.putStale l s = .ok s') : l.Nodup ∧ ∀ i ∈ l, i ∉ s := by
  induction l generalizing s with
  | nil => exact ⟨List.nodup_nil, fun i hi => by cases hi⟩
  | cons a t ih =>
    simp only [Store.putStale] at h
    cases hc : s.contains a with
    | true => rw [hc] at h; cases h
    | false =>
      rw [hc] at h
      obtain ⟨i1, i2⟩ := ih (s := s.insert a) h
      have ha : a ∉ s := by
        intro h
        rw [(FSet.contains_iff s a).2 h] at hc
        cases hc
      refine ⟨List.nodup_cons.2 ⟨?_, i1⟩, ?_⟩
      · intro hat
        exact i2 a hat (by rw [FSet.mem_insert]; exact .inl rfl)
      · intro i hi
        rcases List.mem_cons.1 hi with rfl | hi
        · exact ha
        · intro h
          exact i2 i hi (by rw [FSet.mem_insert]; exact .inr h)

theorem mem_foldl_insert {K : Type} [DecidableEq K] (l : List K) (s : FSet K) (i : K) : i ∈ l.foldl FSet.insert s ↔ i ∈ s ∨ i ∈ l := by
  induction l generalizing s with
  | nil => simp
  | cons a t ih =>
    rw [List.foldl_cons, ih, FSet.mem_insert, List.mem_cons]
    constructor
    · rintro ((h | h) | h)
      · exact .inr (.inl h)
      · exact .inl h
      · exact .inr (.inr h)
    · rintro (h | h | h)
      · exact .inl (.inr h)
      · exact .inl (.inl h)
      · exact .inr h

theorem putStale_merge {b1 b2 s s1 s2 : FSet StaleNodeIndex} (e1 : Store.putStale b1.elems s = .ok s1) (e2 : Store.putStale b2.elems s1 = .ok s2) :
    ∃ s', Store.putStale (b2.elems.foldl FSet.insert b1).elems s = .ok s' ∧ ∀ i, i ∈ s' ↔ i ∈ s2 := by
  obtain ⟨a1, a2⟩ := putStale_free e1
  obtain ⟨c1, c2⟩ := putStale_free e2
  have hmem : ∀ i, i ∈ (b2.elems.foldl FSet.insert b1).elems ↔ i ∈ b1.elems ∨ i ∈ b2.elems := mem_foldl_insert _ _
  have e3 := putStale_spec (b2.elems.foldl FSet.insert b1).elems s (foldl_insert_nodup _ _ a1) (by
    intro i hi his
    rcases (hmem i).1 hi with h | h
    · exact a2 i h his
    · exact c2 i h ((putStale_ok e1 i).2 (.inl his)))
  refine ⟨_, e3, ?_⟩
  intro i
  rw [putStale_ok e3 i, hmem, putStale_ok e2, putStale_ok e1, or_assoc]

theorem putStale_congr {l : List StaleNodeIndex} {a b b' : FSet StaleNodeIndex} (h : ∀ i, i ∈ a ↔ i ∈ b) (hb : Store.putStale l b = .ok b') :
    ∃ a', Store.putStale l a = .ok a' ∧ ∀ i, i ∈ a' ↔ i ∈ b' := by
  obtain ⟨h1, h2⟩ := putStale_free hb
  have e := putStale_spec l a h1 (fun i hi ha => h2 i hi ((h i).1 ha))
  refine ⟨_, e, ?_⟩
  intro i
  rw [putStale_ok e, putStale_ok hb, h]

/-! whole batches -/

/-- Two stores that hold the same. -/
structure Store.Agrees (s t : Store D) : Prop where
  nodes : ∀ nk, s.nodes.get nk = t.nodes.get nk
  history : ∀ k, s.valueHistory.get k = t.valueHistory.get k
  stale : ∀ i, i ∈ s.staleNodes ↔ i ∈ t.staleNodes
  flag : s.allowOverwrite = t.allowOverwrite

/-- A batch made by insertions. -/
structure NodeBatch.Ok (b : NodeBatch D) : Prop where
  nodes : b.nodes.NodupKeys
  values : OMap.Sorted valueKeyLt b.values.entries

theorem NodeBatch.Ok.merge {b1 b2 : NodeBatch D} (h1 : b1.Ok) : (b1.merge b2).Ok :=
  ⟨h1.nodes.extend _, OMap.sorted_extend valueKeyLt_strict _ _ h1.values⟩

theorem writeNodeBatch_parts {s s' : Store D} {b : NodeBatch D} (h : s.writeNodeBatch b = .ok s') :
    ∃ n vh, Store.writeNodes s.allowOverwrite b.nodes.entries s.nodes = .ok n ∧ Store.writeValues b.values.entries s.valueHistory = .ok vh ∧
      s' = { s with nodes := n, valueHistory := vh } := by
  unfold Store.writeNodeBatch at h
  obtain ⟨n, h1, h⟩ := Res.bind_ok h
  obtain ⟨vh, h2, h⟩ := Res.bind_ok h
  cases h
  exact ⟨n, vh, h1, h2, rfl⟩

theorem writeNodeBatch_of {s : Store D} {b : NodeBatch D} {n : FMap NodeKey (Node D)} {vh : FMap Key (List (Version × Option Value))}
    (h1 : Store.writeNodes s.allowOverwrite b.nodes.entries s.nodes = .ok n) (h2 : Store.writeValues b.values.entries s.valueHistory = .ok vh) :
    s.writeNodeBatch b = .ok { s with nodes := n, valueHistory := vh } := by
  unfold Store.writeNodeBatch
  rw [h1]
  simp only [Res.ok_bind, h2]
  rfl

theorem writeNodeBatch_merge {s s1 s2 : Store D} {b1 b2 : NodeBatch D} (o1 : b1.Ok) (o2 : b2.Ok) (e1 : s.writeNodeBatch b1 = .ok s1)
    (e2 : s1.writeNodeBatch b2 = .ok s2) : ∃ s', s.writeNodeBatch (b1.merge b2) = .ok s' ∧ s'.Agrees s2 := by
  obtain ⟨n1, v1, f1, f2, rfl⟩ := writeNodeBatch_parts e1
  obtain ⟨n2, v2, g1, g2, rfl⟩ := writeNodeBatch_parts e2
  obtain ⟨n, k1, k2⟩ := writeNodes_merge o1.nodes o2.nodes f1 g1
  obtain ⟨v, l1, l2⟩ := writeValues_merge o1.values o2.values f2 g2
  exact ⟨_, writeNodeBatch_of (b := b1.merge b2) k1 l1, k2, l2, fun _ => Iff.rfl, rfl⟩

theorem writeNodeBatch_congr {s t t' : Store D} {b : NodeBatch D} (h : s.Agrees t) (e : t.writeNodeBatch b = .ok t') :
    ∃ s', s.writeNodeBatch b = .ok s' ∧ s'.Agrees t' := by
  obtain ⟨n1, v1, f1, f2, rfl⟩ := writeNodeBatch_parts e
  obtain ⟨n, k1, k2⟩ := writeNodes_congr h.nodes f1
  obtain ⟨v, l1, l2⟩ := writeValues_alike _ h.history f2
  rw [← h.flag] at k1
  exact ⟨_, writeNodeBatch_of k1 l1, k2, l2, h.stale, h.flag⟩

theorem writeTree_parts {s s' : Store D} {b : TreeUpdateBatch D} (h : s.writeTreeUpdateBatch b = .ok s') :
    ∃ s1 st, s.writeNodeBatch b.nodeBatch = .ok s1 ∧ Store.putStale b.staleNodeIndexBatch.elems s.staleNodes = .ok st ∧
      s' = { s1 with staleNodes := st } := by
  unfold Store.writeTreeUpdateBatch at h
  obtain ⟨s1, h1, h⟩ := Res.bind_ok h
  obtain ⟨st, h2, h⟩ := Res.bind_ok h
  cases h
  obtain ⟨n1, v1, f1, f2, rfl⟩ := writeNodeBatch_parts h1
  exact ⟨_, st, h1, h2, rfl⟩

theorem writeTree_of {s s1 : Store D} {b : TreeUpdateBatch D} {st : FSet StaleNodeIndex} (h1 : s.writeNodeBatch b.nodeBatch = .ok s1)
    (h2 : Store.putStale b.staleNodeIndexBatch.elems s.staleNodes = .ok st) : s.writeTreeUpdateBatch b = .ok { s1 with staleNodes := st } := by
  unfold Store.writeTreeUpdateBatch
  rw [h1]
  obtain ⟨n1, v1, f1, f2, rfl⟩ := writeNodeBatch_parts h1
  simp only [Res.ok_bind, h2]
  rfl

theorem writeTree_merge {s s1 s2 : Store D} {b1 b2 : TreeUpdateBatch D} (o1 : b1.nodeBatch.Ok) (o2 : b2.nodeBatch.Ok)
    (e1 : s.writeTreeUpdateBatch b1 = .ok s1) (e2 : s1.writeTreeUpdateBatch b2 = .ok s2) :
    ∃ s', s.writeTreeUpdateBatch (b1.merge b2) = .ok s' ∧ s'.Agrees s2 := by
  obtain ⟨t1, st1, f1, f2, rfl⟩ := writeTree_parts e1
  obtain ⟨t2, st2, g1, g2, rfl⟩ := writeTree_parts e2
  obtain ⟨n1, v1, p1, p2, rfl⟩ := writeNodeBatch_parts f1
  obtain ⟨n2, v2, q1, q2, rfl⟩ := writeNodeBatch_parts g1
  obtain ⟨n, k1, k2⟩ := writeNodes_merge o1.nodes o2.nodes p1 q1
  obtain ⟨v, l1, l2⟩ := writeValues_merge o1.values o2.values p2 q2
  obtain ⟨st, m1, m2⟩ := putStale_merge f2 g2
  exact ⟨_, writeTree_of (b := b1.merge b2) (writeNodeBatch_of (b := b1.nodeBatch.merge b2.nodeBatch) k1 l1) m1, k2, l2, m2, rfl⟩

theorem writeTree_congr {s t t' : Store D} {b : TreeUpdateBatch D} (h : s.Agrees t) (e : t.writeTreeUpdateBatch b = .ok t') :
    ∃ s', s.writeTreeUpdateBatch b = .ok s' ∧ s'.Agrees t' := by
  obtain ⟨t1, st1, f1, f2, rfl⟩ := writeTree_parts e
  obtain ⟨s1, g1, g2⟩ := writeNodeBatch_congr h f1
  obtain ⟨st, k1, k2⟩ := putStale_congr h.stale f2
  exact ⟨_, writeTree_of g1 k1, g2.nodes, g2.history, k2, g2.flag⟩

theorem Store.Agrees.refl (s : Store D) : s.Agrees s := ⟨fun _ => rfl, fun _ => rfl, fun _ => Iff.rfl, rfl⟩
theorem Store.Agrees.trans {s t u : Store D} (h : s.Agrees t) (h' : t.Agrees u) : s.Agrees u :=
  ⟨fun nk => (h.nodes nk).trans (h'.nodes nk), fun k => (h.history k).trans (h'.history k), fun i => (h.stale i).trans (h'.stale i), h.flag.trans h'.flag⟩

theorem Store.Agrees.reader {s t : Store D} (h : s.Agrees t) : s.reader = t.reader := by
  unfold Store.reader
  have h1 : s.nodes.get = t.nodes.get := funext h.nodes
  have h2 : s.getValueOption = t.getValueOption := by
    funext v k; unfold Store.getValueOption; rw [h.history]
  rw [h1, h2]

/-- The node seen through a batch is the node of the store after writing it. -/
theorem through_batch {s s1 : Store D} {b : TreeUpdateBatch D} (o : b.nodeBatch.Ok) (h : s.writeTreeUpdateBatch b = .ok s1)
    (vals : Version → Key → Option Value) (nk : NodeKey) : (b.reader s vals).getNodeOption nk = s1.reader.getNodeOption nk := by
  obtain ⟨t1, st1, f1, f2, rfl⟩ := writeTree_parts h
  obtain ⟨n1, v1, p1, p2, rfl⟩ := writeNodeBatch_parts f1
  obtain ⟨a1, _⟩ := writeNodes_ok p1
  show (match b.nodeBatch.nodes.get nk with | some n => some n | none => s.nodes.get nk) = n1.get nk
  rw [a1, FMap.get_extend _ _ o.nodes]
  show _ = (b.nodeBatch.nodes.get nk).or _
  cases b.nodeBatch.nodes.get nk <;> rfl

/-- Collecting the updates and writing them at once comes to the same as writing each. -/
theorem collect_spec {H : Hasher D} {v0 : Version} {s : Store D} (vals : Version → Key → Option Value) (ops : List Op)
    (hno : ∀ m, Op.purge m ∉ ops) {lo : Version} {hist : List Commit} {b : TreeUpdateBatch D} {sA t : Store D} (o : b.nodeBatch.Ok)
    (hw : s.writeTreeUpdateBatch b = .ok sA) (hag : sA.Agrees t) (ht : StoreInv H v0 hist lo t) (hs : Resumable v0 hist (commitsOf ops)) :
    ∃ b' s' t', collect H s vals ops (b, v0 + hist.length) = .ok (b', v0 + (hist ++ commitsOf ops).length) ∧
      s.writeTreeUpdateBatch b' = .ok s' ∧ runOps H ops (t, v0 + hist.length) = .ok (t', v0 + (hist ++ commitsOf ops).length) ∧ s'.Agrees t' := by
  induction ops generalizing hist lo b sA t with
  | nil => exact ⟨b, sA, t, by simp [collect, commitsOf], hw, by simp [runOps, commitsOf], hag⟩
  | cons op ops ih =>
    have hco : commitsOf (op :: ops) = op.commits ++ commitsOf ops := by simp [commitsOf]
    rw [hco] at hs
    rw [hco, ← List.append_assoc]
    have hno' : ∀ m, Op.purge m ∉ ops := fun m hm => hno m (List.mem_cons_of_mem _ hm)
    have hnodes : ∀ nk, (b.reader s vals).getNodeOption nk = t.reader.getNodeOption nk := by
      intro nk
      rw [through_batch o hw, hag.reader]
    cases op with
    | update m sets =>
      obtain ⟨roots, b2, e1, e2⟩ := putValueSets_resume ht m sets hs.left
      obtain ⟨t1, f1, f2, _⟩ := ht.write e2
      obtain ⟨s1, k1, k2⟩ := writeTree_congr hag f1
      obtain ⟨s2, l1, l2⟩ := writeTree_merge o ⟨e2.nodup, e2.vsorted⟩ hw k1
      obtain ⟨b', s', t', g1, g2, g3, g4⟩ := ih hno' (b := b.merge b2) o.merge l1 (l2.trans k2) f2 hs.right
      have hl : v0 + (hist ++ sets.map (Commit.seq m)).length = v0 + hist.length + sets.length := by simp; omega
      rw [hl] at g1 g3
      refine ⟨b', s', t', ?_, g2, ?_, g4⟩
      · simp only [collect, putValueSets_same hnodes e1, Res.ok_bind]
        exact g1
      · simp only [runOps, Op.run, e1, Res.ok_bind, f1]
        exact g3
    | batch m sets =>
      obtain ⟨roots, b2, e1, e2, _⟩ := batchPutValueSets_resume ht m sets hs.left
      obtain ⟨t1, f1, f2, _⟩ := ht.write e2
      obtain ⟨s1, k1, k2⟩ := writeTree_congr hag f1
      obtain ⟨s2, l1, l2⟩ := writeTree_merge o ⟨e2.nodup, e2.vsorted⟩ hw k1
      obtain ⟨b', s', t', g1, g2, g3, g4⟩ := ih hno' (b := b.merge b2) o.merge l1 (l2.trans k2) f2 hs.right
      have hl : v0 + (hist ++ sets.map (Commit.batch m)).length = v0 + hist.length + sets.length := by simp; omega
      rw [hl] at g1 g3
      refine ⟨b', s', t', ?_, g2, ?_, g4⟩
      · simp only [collect, batchPutValueSets_same hnodes e1, Res.ok_bind]
        exact g1
      · simp only [runOps, Op.run, e1, Res.ok_bind, f1]
        exact g3
    | purge m => exact absurd (List.mem_cons_self ..) (hno m)

end Verif.Jmt
