import Mathlib.Data.List.Induction
import Verif.Proofs.Sets
import Verif.Spec.History
/-! The committed trees hold exactly the specified contents. -/

namespace Verif.Jmt
variable {D : Type}
open VTree Verif.Spec

theorem applyUpdates_lastOf (m : Key → Option Value) (s : Updates) (k : Key) :
    applyUpdates m s k = (lastOf s k).getD (m k) := by
  induction s generalizing m with
  | nil => rfl
  | cons e s ih =>
    have : applyUpdates m (e :: s) = applyUpdates (fun k => if k = e.1 then e.2 else m k) s := rfl
    rw [this, ih, lastOf]
    cases h : lastOf s k with
    | some x => simp
    | none =>
      by_cases he : e.1 = k
      · simp [he]
      · simp [he, Ne.symm he]

theorem contents_append (l l' : List Updates) : contents (l ++ l') = l'.foldl applyUpdates (contents l) := by
  simp [contents, List.foldl_append]

theorem contents_snoc (l : List Updates) (s : Updates) : contents (l ++ [s]) = applyUpdates (contents l) s := by
  simp [contents, List.foldl_append]

theorem applyOne_spec (ver : Version) (m : Bool) (k : Key) (x : Option D) {t : VTree D} (h : WF [] t) :
    WF [] (applyOne ver m k x t) ∧
    ∀ e, e ∈ (applyOne ver m k x t).entries ↔ (e.1 = k ∧ x = some e.2) ∨ (e.1 ≠ k ∧ e ∈ t.entries) := by
  have := put_spec (ver := ver) (m := m) (k := k) (x := x) t [] k.nibbles (by simp) h
  exact ⟨this.1, this.2.1⟩

/-- `t` holds exactly the contents `f` (keys with hashed values). -/
def Holding (H : Hasher D) (t : VTree D) (f : Key → Option Value) : Prop :=
  WF [] t ∧ ∀ k h, (k, h) ∈ t.entries ↔ (f k).map H.value = some h

theorem Holding.applyOne {H : Hasher D} {t : VTree D} {f : Key → Option Value} (h : Holding H t f) (ver : Version) (m : Bool)
    (k : Key) (x : Option Value) :
    Holding H (applyOne ver m k (x.map H.value) t) (fun k' => if k' = k then x else f k') := by
  obtain ⟨h1, h2⟩ := applyOne_spec ver m k (x.map H.value) h.1
  refine ⟨h1, fun k' h' => ?_⟩
  rw [h2]
  by_cases hk : k' = k
  · simp [hk]
  · simp [hk, h.2]

theorem Holding.applySet {H : Hasher D} {t : VTree D} {f : Key → Option Value} (h : Holding H t f) (ver : Version) (m : Bool)
    (s : Tree.ValueSet) : Holding H (applySet ver m (hashSet H s) t) (applyUpdates f s) := by
  induction s generalizing t f with
  | nil => exact h
  | cons e s ih => exact ih (h.applyOne ver m e.1 e.2)

theorem Holding.setVersion {H : Hasher D} {t : VTree D} {f : Key → Option Value} (h : Holding H t f) (w : Version) :
    Holding H (t.setVersion w) f := ⟨wf_setVersion h.1, by rw [entries_setVersion]; exact h.2⟩

theorem Holding.commit {H : Hasher D} {t : VTree D} {f : Key → Option Value} (h : Holding H t f) (ver : Version) (c : Commit) :
    Holding H (c.tree H ver t) (applyUpdates f c.updates) := by
  cases c with
  | seq m s => exact h.applySet ver m s
  | batch m s =>
    obtain ⟨h1, h2⟩ := binsert_spec ver m t [] 64 (hashKvs H s) (under_hashKvs H s) (by simp) h.1
    refine ⟨h1, fun k d => ?_⟩
    have hkeys : k ∈ (hashKvs H s).map Prod.fst ↔ (lastOf s k).isSome = true := by
      simp only [hashKvs, List.map_map, List.mem_map, Function.comp]
      constructor
      · rintro ⟨⟨k', x⟩, hm, rfl⟩
        rw [sortDedup_mem.1 hm]; rfl
      · intro hs
        obtain ⟨x, hx⟩ := Option.isSome_iff_exists.1 hs
        exact ⟨(k, x), sortDedup_mem.2 hx, rfl⟩
    have hmem : (k, d) ∈ hashKvs H s ↔ (lastOf s k).map H.value = some d := by
      simp only [hashKvs, List.mem_map, Prod.mk.injEq, Option.map_eq_some_iff]
      constructor
      · rintro ⟨⟨k', x⟩, hm, rfl, rfl⟩; exact ⟨x, sortDedup_mem.1 hm, rfl⟩
      · rintro ⟨x, hx, rfl⟩; exact ⟨(k, x), sortDedup_mem.2 hx, rfl, rfl⟩
    show (k, d) ∈ (binsert ver m 64 (hashKvs H s) t).entries ↔ _
    rw [h2, hmem, hkeys, h.2, Commit.updates, applyUpdates_lastOf, lastOf_map_some]
    cases lastOf s k with
    | none => simp
    | some x => simp

theorem Holding.fold {H : Hasher D} {t : VTree D} {f : Key → Option Value} (h : Holding H t f) (ver : Version) (l : List Commit) :
    Holding H (treeFold H ver t l) ((l.map Commit.updates).foldl applyUpdates f) := by
  induction l generalizing ver t f with
  | nil => exact h
  | cons c l ih => exact ih ((h.commit ver c).setVersion ver) (ver + 1)

theorem holding_empty (H : Hasher D) : Holding H .empty (fun _ => none) := by
  refine ⟨trivial, ?_⟩
  intro k h; simp [entries]

theorem holding_treeFold (H : Hasher D) (v0 : Version) (hist : List Commit) :
    Holding H (treeFold H v0 .empty hist) (contents (hist.map Commit.updates)) := (holding_empty H).fold v0 hist

theorem holding_treeAt (H : Hasher D) (v0 : Version) (hist : List Commit) (w : Version) :
    Holding H (treeAt H v0 hist w) (contents ((hist.take (w + 1 - v0)).map Commit.updates)) := holding_treeFold H v0 _

theorem Holding.ne_empty {H : Hasher D} {t : VTree D} {f : Key → Option Value} (h : Holding H t f) :
    t ≠ .empty ↔ ∃ k v, f k = some v := by
  constructor
  · intro hn
    have : t.entries ≠ [] := fun he => hn ((entries_eq_nil h.1).1 he)
    obtain ⟨⟨k, d⟩, hm⟩ := List.exists_mem_of_ne_nil _ this
    have := (h.2 k d).1 hm
    cases hf : f k with
    | none => simp [hf] at this
    | some v => exact ⟨k, v, hf⟩
  · rintro ⟨k, v, hf⟩ rfl
    have := (h.2 k (H.value v)).2 (by simp [hf])
    simp [entries] at this

/-- The value history of one key. -/
def histOf (v0 : Version) (hist : List Commit) (k : Key) : List (Version × Option Value) :=
  (hist.zipIdx v0).filterMap (fun e => (lastOf e.1.updates k).map (fun x => (e.2, x)))

theorem histOf_append (v0 : Version) (l l' : List Commit) (k : Key) :
    histOf v0 (l ++ l') k = histOf v0 l k ++ histOf (v0 + l.length) l' k := by
  simp [histOf, List.zipIdx_append, List.filterMap_append]

theorem histOf_bounds {v0 : Version} {hist : List Commit} {k : Key} {e : Version × Option Value} (h : e ∈ histOf v0 hist k) :
    v0 ≤ e.1 ∧ e.1 < v0 + hist.length ∧ (hist[e.1 - v0]?).bind (fun cm => lastOf cm.updates k) = some e.2 := by
  simp only [histOf, List.mem_filterMap, Option.map_eq_some_iff] at h
  obtain ⟨⟨c, i⟩, h1, x, h2, rfl⟩ := h
  have := List.mem_zipIdx h1
  refine ⟨this.1, by omega, ?_⟩
  simp only
  rw [List.getElem?_eq_getElem (by omega), Option.bind_some, ← this.2.2]
  exact h2

theorem histOf_mem {v0 : Version} {hist : List Commit} {k : Key} {v : Version} {x : Option Value} :
    (v, x) ∈ histOf v0 hist k ↔ v0 ≤ v ∧ (hist[v - v0]?).bind (fun cm => lastOf cm.updates k) = some x := by
  constructor
  · intro h; have := histOf_bounds h; exact ⟨this.1, this.2.2⟩
  · rintro ⟨h0, h1⟩
    rw [Option.bind_eq_some_iff] at h1
    obtain ⟨c, h1, h2⟩ := h1
    simp only [histOf, List.mem_filterMap, Option.map_eq_some_iff]
    refine ⟨(c, v), ?_, x, h2, rfl⟩
    rw [List.mem_zipIdx_iff_le_and_getElem?_sub]
    exact ⟨h0, h1⟩

theorem histOf_sorted (v0 : Version) (hist : List Commit) (k : Key) :
    (histOf v0 hist k).Pairwise (fun a b => a.1 < b.1) := by
  induction hist generalizing v0 with
  | nil => exact List.Pairwise.nil
  | cons c l ih =>
    have := histOf_append v0 [c] l k
    rw [List.singleton_append] at this
    rw [this, List.pairwise_append]
    refine ⟨?_, ih _, ?_⟩
    · simp only [histOf, List.zipIdx_singleton, List.filterMap_cons, List.filterMap_nil]
      cases lastOf c.updates k <;> simp
    · intro a ha b hb
      have h1 := histOf_bounds ha
      have h2 := histOf_bounds hb
      simp only [List.length_cons, List.length_nil] at h1 h2
      omega

/-- The newest value at or below a version. -/
theorem histOf_find (v0 : Version) (hist : List Commit) (k : Key) (w : Version) :
    ((histOf v0 hist k).reverse.find? (fun e => decide (e.1 ≤ w))).bind (fun e => e.2) =
      contents ((hist.take (w + 1 - v0)).map Commit.updates) k := by
  induction hist using List.reverseRecOn with
  | nil => simp [histOf, contents]
  | append_singleton l c ih =>
    rw [histOf_append, List.reverse_append, List.find?_append]
    by_cases hw : v0 + l.length ≤ w
    · rw [List.take_of_length_le (by simp; omega), List.map_append, List.map_singleton, contents_snoc, applyUpdates_lastOf]
      rw [List.take_of_length_le (by omega)] at ih
      rw [← ih]
      simp only [histOf, List.zipIdx_singleton, List.filterMap_cons, List.filterMap_nil]
      cases h : lastOf c.updates k with
      | none => simp
      | some x => simp [hw]
    · rw [List.take_append_of_le_length (by omega), ← ih]
      simp only [histOf, List.zipIdx_singleton, List.filterMap_cons, List.filterMap_nil]
      cases h : lastOf c.updates k with
      | none => simp
      | some x => simp [hw]

end Verif.Jmt
