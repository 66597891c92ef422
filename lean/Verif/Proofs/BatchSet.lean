import Verif.Proofs.BatchRefine
import Verif.Proofs.Freeze
import Verif.Proofs.OMap
/-! One round of `batch_put_value_sets`. -/

namespace Verif.Jmt
variable {D : Type}
open VTree

theorem keyLt_strict : StrictTotal keyLt := by
  refine ⟨?_, ?_, ?_⟩
  · intro a; simp only [keyLt, decide_eq_false_iff_not]; exact Key.lt_irrefl a
  · intro a b c h h'
    simp only [keyLt, decide_eq_true_eq] at *
    exact Key.lt_trans h h'
  · intro a b
    simp only [keyLt, decide_eq_true_eq]
    exact Key.lt_tri a b

theorem sortDedup_sorted (s : List (Key × Value)) : OMap.Sorted keyLt (Tree.sortDedup s) :=
  OMap.sorted_extend keyLt_strict _ _ List.Pairwise.nil

/-- The value a list of insertions leaves at a key. -/
theorem get_extend_last {K V : Type} [DecidableEq K] {lt : K → K → Bool} (hlt : StrictTotal lt) (l : List (K × V)) (m : OMap K V)
    (h : OMap.Sorted lt m.entries) (k : K) :
    (m.extend lt l).get k = (lastOf l k).or (m.get k) := by
  induction l generalizing m with
  | nil => simp [OMap.extend, lastOf]
  | cons e t ih =>
    obtain ⟨a, v⟩ := e
    have : (m.extend lt ((a, v) :: t)) = (m.insert lt a v).extend lt t := rfl
    rw [this, ih (m.insert lt a v) (OMap.sorted_insertL hlt _ _ _ h)]
    have e2 : (m.insert lt a v).get k = if k = a then some v else m.get k := OMap.lookup_insertL hlt a v m.entries h k
    rw [e2, lastOf]
    cases lastOf t k with
    | some x => simp
    | none =>
      by_cases hk : a = k
      · simp [hk]
      · simp [hk, Ne.symm hk]

theorem sortDedup_get (s : List (Key × Value)) (k : Key) : FMap.lookupL (Tree.sortDedup s) k = lastOf s k := by
  have := get_extend_last keyLt_strict s (.empty : OMap Key Value) List.Pairwise.nil k
  unfold OMap.get at this
  unfold Tree.sortDedup
  rw [this]
  cases lastOf s k <;> rfl

theorem sortDedup_mem {s : List (Key × Value)} {k : Key} {x : Value} : (k, x) ∈ Tree.sortDedup s ↔ lastOf s k = some x := by
  rw [OMap.mem_iff_lookup keyLt_strict (sortDedup_sorted s), sortDedup_get]

theorem sortDedup_ne_nil {s : List (Key × Value)} (h : s ≠ []) : Tree.sortDedup s ≠ [] := by
  intro h0
  match s, h with
  | (k, x) :: l, _ =>
    have : lastOf ((k, x) :: l) k = none := by rw [← sortDedup_get, h0]; rfl
    simp [lastOf] at this

/-- The sorted entries with hashed values. -/
def hashKvs (H : Hasher D) (s : List (Key × Value)) : List (Key × D) := (Tree.sortDedup s).map (fun e => (e.1, H.value e.2))

theorem under_hashKvs (H : Hasher D) (s : List (Key × Value)) : Under [] (hashKvs H s) := by
  refine ⟨?_, fun _ _ => List.nil_prefix⟩
  rw [hashKvs, List.pairwise_map]
  refine List.Pairwise.imp ?_ (sortDedup_sorted s)
  intro a b hab
  simpa [keyLt] using hab

theorem hashKvs_ne_nil (H : Hasher D) {s : List (Key × Value)} (h : s ≠ []) : hashKvs H s ≠ [] := by
  simpa [hashKvs] using sortDedup_ne_nil h

theorem foldl_putValue (ver : Version) (kvs : List (Key × Value)) (hn : (kvs.map Prod.fst).Nodup) (c : TreeCache D) :
    ∃ c', kvs.foldl (fun c e => c.putValue ver e.1 (some e.2)) c = c' ∧ c'.rootNodeKey = c.rootNodeKey ∧ c'.nextVersion = c.nextVersion ∧
      c'.nodeCache = c.nodeCache ∧ c'.frozen = c.frozen ∧ c'.reader = c.reader ∧
      (∀ (H : Hasher D) t0 t, Cur H ver c t0 t → Cur H ver c' t0 t) ∧ (c.valueCache.NodupKeys → c'.valueCache.NodupKeys) ∧
      ∀ v k, c'.valueCache.get (v, k) = if v = ver then ((FMap.lookupL kvs k).map some).or (c.valueCache.get (v, k)) else c.valueCache.get (v, k) := by
  induction kvs generalizing c with
  | nil => exact ⟨c, rfl, rfl, rfl, rfl, rfl, rfl, fun _ _ _ h => h, id, fun v k => by simp [FMap.lookupL]⟩
  | cons e l ih =>
    obtain ⟨k0, x0⟩ := e
    rw [List.map_cons, List.nodup_cons] at hn
    obtain ⟨c', h1, h2, h3, h4, h5, h6, h7, h8, h9⟩ := ih hn.2 (c.putValue ver k0 (some x0))
    refine ⟨c', h1, h2, h3, h4, h5, h6, fun H t0 t h => h7 H t0 t (h.putValue _ _ _), fun h => h8 (h.set _ _), ?_⟩
    intro v k
    rw [h9]
    simp only [TreeCache.putValue, FMap.get_set, FMap.lookupL, Prod.mk.injEq]
    by_cases hv : v = ver
    · by_cases hk : k0 = k
      · subst hk
        have : FMap.lookupL l k0 = none := (FMap.get_eq_none_iff ⟨l⟩ k0).2 hn.1
        simp [hv, this]
      · simp [hv, hk, Ne.symm hk]
    · simp [hv]

/-- `batch_insert_at` from the root. -/
theorem batchRoot_spec (H : Hasher D) (m : Bool) (ver : Version) (kvs : List (Key × D)) (c : TreeCache D) (t0 t : VTree D)
    (hcur : Cur H ver c t0 t) (hk : RootThere c t) (hu : Under [] kvs) (hne : kvs ≠ []) :
    ∃ c', (∀ hc, HcOk H hc ver [] (binsert ver m 64 kvs t) → Tree.batchInsertAt H m hc ver 64 c.rootNodeKey kvs c =
        .ok (c', (⟨ver, []⟩, (binsert ver m 64 kvs t).toNode H))) ∧ Ext c c' ∧
      Cur H ver (c'.setRootNodeKey ⟨ver, []⟩) t0 (binsert ver m 64 kvs t) := by
  obtain ⟨n1, n2⟩ := binsert_version ver m (t := t) (p := []) (h := 64) hu (by simp) hcur.wf hne
  have hwf := (binsert_spec ver m t [] 64 kvs hu (by simp) hcur.wf).1
  have hle := verLe_binsert (m := m) t 64 kvs hcur.le
  have hold : ∀ v q n, v < ver → (binsert ver m 64 kvs t).at? H v q = some n → t.at? H v q = some n :=
    fun v q n hv hn => binsert_old t 64 kvs hv hn
  -- the new state, given a step from `t`
  have mk : ∀ c1 c2, Ext c c1 → (∀ nk, c1.S nk ↔ c.S nk) → TreeCache.StatsOk c1 → Step H ver [] c1 t c2 (binsert ver m 64 kvs t) →
      Ext c c2 ∧ Cur H ver (c2.setRootNodeKey ⟨ver, []⟩) t0 (binsert ver m 64 kvs t) := by
    intro c1 c2 he hS1 hst1 st
    have he2 : Ext c c2 := he.trans st.same.ext
    refine ⟨he2, .tree _ n1 (by rw [n2]; rfl) ?_ (.inl n2), he2.nextVersion.trans hcur.next, ?_, ?_, ?_, ?_, hcur.lt0, hwf, hle,
      statsOk_setRoot (st.stats hst1)⟩
    · intro v q
      have := st.M v q
      rw [List.nil_append] at this
      exact this
    · intro v q
      show c2.S ⟨v, q⟩ ↔ _
      rw [st.S, hS1, hcur.S]
      simp only [List.nil_append]
      constructor
      · rintro (⟨h1, h2, h3⟩ | ⟨q', rfl, h1, h2, h3⟩)
        · refine ⟨h1, h2, ?_⟩
          cases hh : (binsert ver m 64 kvs t).at? H v q with
          | none => rfl
          | some n => rw [hold v q n h1 hh] at h3; cases h3
        · obtain ⟨n, hn⟩ := Option.isSome_iff_exists.1 h2
          exact ⟨h1, by rw [hcur.old v _ n h1 hn]; rfl, h3⟩
      · rintro ⟨h1, h2, h3⟩
        cases hh : t.at? H v q with
        | none => exact .inl ⟨h1, h2, rfl⟩
        | some n => exact .inr ⟨q, rfl, h1, by rw [hh]; rfl, h3⟩
    · intro v q n hv hn; exact hcur.old v q n hv (hold v q n hv hn)
    · intro v q n hv hn
      have : (c2.setRootNodeKey ⟨ver, []⟩).base = c.base := ((he2.trans (Ext.setRoot _ _))).base
      rw [this]; exact hcur.base v q n hv hn
    · intro nk h
      have : (c2.setRootNodeKey ⟨ver, []⟩).base = c.base := ((he2.trans (Ext.setRoot _ _))).base
      rw [this] at h
      exact hcur.fresh nk h
  have hem : kvs.isEmpty = false := by cases kvs <;> simp at hne ⊢
  rcases hcur.root with ⟨t, ht, rk, hM, hsame⟩ | ⟨rk, hM, hr⟩ | ⟨rv, hv, rk, hM, hb, h0⟩
  · obtain ⟨c', e1, st⟩ := batchInsertAt_spec H m ver t 64 [] kvs c hu (by simp) hne hcur.wf ht (hcur.holds hM)
    obtain ⟨h1, h2⟩ := mk c c' ⟨rfl, rfl, rfl, rfl⟩ (fun _ => Iff.rfl) hcur.stats st
    exact ⟨c', fun hc hok => by rw [rk]; exact e1 hc hok, h1, h2⟩
  · have hn : c.getNodeOption ⟨ver, []⟩ = some .null := by
      rcases hk with hk | hk
      · exact absurd rfl hk
      · rwa [rk] at hk
    have hr' : c.M ⟨ver, []⟩ = some .null := by
      rcases hr with hr | hr
      · rw [TreeCache.getNodeOption_eq, hr] at hn
        have := hcur.fresh ⟨ver, []⟩ (by simp only [] at hn; rw [hn]; rfl)
        simp at this
      · exact hr
    obtain ⟨c1, e1, e2, e3, e4, e5⟩ := TreeCache.deleteNode_new hr' (fun _ => hcur.stats)
    have hM1 : ∀ v q, c1.M ⟨v, [] ++ q⟩ = none := by
      intro v q
      rw [e3]
      split
      · rfl
      · rename_i h; exact hM _ h
    rw [binsert_empty] at *
    obtain ⟨c2, f1, st⟩ := batchCreate_spec H m ver 64 [] kvs c1 hu (by simp) hne hM1
    obtain ⟨h1, h2⟩ := mk c1 c2 e2.ext e4 (e5 hcur.stats) st
    refine ⟨c2, fun hc hok => ?_, h1, h2⟩
    rw [Tree.batchInsertAt, rk]
    have e1' : c.deleteNode ⟨ver, []⟩ false = .ok c1 := e1
    simp only [hem, Bool.not_false, assert_true, Res.ok_bind, TreeCache.getNode_of hn, List.isEmpty_nil, ensure_true, if_true, e1']
    exact f1 hc hok
  · have hn : c.getNodeOption ⟨rv, []⟩ = some .null := by
      rcases hk with hk | hk
      · exact absurd rfl hk
      · rwa [rk] at hk
    rw [binsert_empty] at *
    obtain ⟨c2, f1, st⟩ := batchCreate_spec H m ver 64 [] kvs c hu (by simp) hne (fun v q => hM _)
    obtain ⟨h1, h2⟩ := mk c c2 ⟨rfl, rfl, rfl, rfl⟩ (fun _ => Iff.rfl) hcur.stats st
    refine ⟨c2, fun hc hok => ?_, h1, h2⟩
    have hrv : ¬ (rv = ver) := by omega
    rw [Tree.batchInsertAt, rk]
    simp only [hem, Bool.not_false, assert_true, Res.ok_bind, TreeCache.getNode_of hn, List.isEmpty_nil, ensure_true, hrv, if_false, Res.pure_eq]
    exact f1 hc hok

theorem lastOf_map_some (s : List (Key × Value)) (k : Key) :
    lastOf (s.map (fun e => (e.1, some e.2))) k = (lastOf s k).map some := by
  induction s with
  | nil => rfl
  | cons e s ih =>
    simp only [List.map_cons, lastOf, ih]
    cases lastOf s k with
    | some x => simp
    | none => by_cases h : e.1 = k <;> simp [h]

/-- One round of the loop of `batch_put_value_sets`, up to the call of `freeze`. -/
theorem batchPutSet_spec (H : Hasher D) (m : Bool) (ver : Version) (s : List (Key × Value)) (c : TreeCache D) (t0 t : VTree D)
    (hcur : Cur H ver c t0 t) (hk : RootThere c t) (hne : s ≠ []) :
    ∃ c', (∀ hc, HcOk H hc ver [] (binsert ver m 64 (hashKvs H s) t) → Tree.batchPutSet H m hc ver s c = c'.freeze H) ∧
      Cur H ver c' t0 (binsert ver m 64 (hashKvs H s) t) ∧ RootKnown c' (binsert ver m 64 (hashKvs H s) t) ∧
      c'.frozen = c.frozen ∧ c'.reader = c.reader ∧ (c.valueCache.NodupKeys → c'.valueCache.NodupKeys) ∧
      ∀ v k, c'.valueCache.get (v, k) =
        if v = ver then (lastOf (s.map (fun e => (e.1, some e.2))) k).or (c.valueCache.get (v, k)) else c.valueCache.get (v, k) := by
  obtain ⟨c1, h1, h2, h3, h4, h5, h6, h7, h8, h9⟩ := foldl_putValue ver (Tree.sortDedup s) (OMap.sorted_nodup keyLt_strict (sortDedup_sorted s)) c
  have hk1 : RootThere c1 t := by
    rcases hk with hk | hk
    · exact .inl hk
    · right
      rw [h2]
      simp only [TreeCache.getNodeOption, h4, h5, h6] at hk ⊢
      exact hk
  obtain ⟨c2, e1, e2, e3⟩ := batchRoot_spec H m ver (hashKvs H s) c1 t0 t (h7 H t0 t hcur) hk1 (under_hashKvs H s) (hashKvs_ne_nil H hne)
  have n1 := (binsert_version ver m (t := t) (p := []) (h := 64) (under_hashKvs H s) (by simp) hcur.wf (hashKvs_ne_nil H hne)).1
  refine ⟨c2.setRootNodeKey ⟨ver, []⟩, fun hc hok => ?_, e3, .inl n1, e2.frozen.trans h5, e2.reader.trans h6, fun h => ?_, ?_⟩
  · have hem : s.isEmpty = false := by cases s <;> simp at hne ⊢
    simp only [Tree.batchPutSet, hem, Bool.not_false, assert_true, Res.ok_bind, h1]
    have := e1 hc hok
    unfold hashKvs at this
    rw [show rootNibbleHeight = 64 from rfl, this]
    rfl
  · show c2.valueCache.NodupKeys
    rw [e2.valueCache]; exact h8 h
  · intro v k
    show c2.valueCache.get (v, k) = _
    rw [e2.valueCache, h9, sortDedup_get, lastOf_map_some]

end Verif.Jmt
