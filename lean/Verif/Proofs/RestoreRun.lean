import Verif.Proofs.RestoreAdd
import Verif.Proofs.StoreWrite
import Verif.Spec.Restore
/-! The state of a restore over a run of `add_chunk` calls. -/

set_option autoImplicit false

namespace Verif.Jmt
open VTree Verif.Spec
variable {D : Type}

/-- The value of a key that has been received: still unwritten, or in the store. -/
def Restore.curVal (r : Restore D) (v : Version) (k : Key) : Option Value :=
  match r.frozenNodes.values.get (v, k) with
  | some x => x
  | none => r.store.getValueOption v k

/-- The state after the pairs `P` have been received, apart from the values. -/
structure RBase (H : Hasher D) (v : Version) (m : Bool) (P : List (Key × Value)) (z : Zip D) (pend : Bool) (r : Restore D) : Prop where
  core : Core H v m z pend r
  pen : Pending v z pend r
  ents : z.entries = hashed H P
  prev : r.previousLeaf = P.getLast?.map (fun e => ⟨e.1, H.value e.2⟩)
  key : ∀ e, P.getLast? = some e → z.key = e.1
  nil : P = [] → z.n = 0
  sorted : P.Pairwise (fun a b => a.1 < b.1)
  vsorted : OMap.Sorted valueKeyLt r.frozenNodes.values.entries
  vver : ∀ e ∈ r.frozenNodes.values.entries, e.1.1 = v
  hist : ∀ k l, r.store.valueHistory.get k = some l → ∃ x, l = [(v, x)]
  snodup : r.store.nodes.NodupKeys

/-- The state after the pairs `P` have been received. -/
structure RInv (H : Hasher D) (v : Version) (m : Bool) (P : List (Key × Value)) (z : Zip D) (pend : Bool) (r : Restore D) : Prop
    extends RBase H v m P z pend r where
  val : ∀ k x, r.curVal v k = some x ↔ (k, x) ∈ P

theorem esOf_empty {B : Nibble → VTree D} (h : ∀ i, B i = .empty) (L : List Nibble) : esOf B L = [] := by
  rw [esOf, List.flatMap_eq_nil_iff]; intro i _; rw [h i]; rfl

/-- A restore that starts on a store without nodes. -/
theorem RBase.fresh (H : Hasher D) {s : Store D} (v : Version) (m : Bool) (root : D) (hs : s.nodes.entries = [])
    (hh : ∀ k l, s.valueHistory.get k = some l → ∃ x, l = [(v, x)]) :
    RBase H v m [] ⟨⟨List.replicate 32 0, rfl⟩, 0, fun _ _ => .empty, fun _ => .empty⟩ false
      ⟨s, v, [.newEmpty (.newEmptyPath v)], .empty, none, 0, root, m⟩ := by
  have hget : ∀ nk, s.nodes.get nk = none := by intro nk; rw [FMap.get, hs]; rfl
  refine ⟨⟨rfl, rfl, rfl, ⟨Nat.zero_lt_succ _, ?_, ?_, ?_, ?_, ?_, ?_⟩, ?_, ?_, FMap.nodupKeys_empty⟩, ⟨by simp, by simp, by simp⟩, ?_, rfl, by simp, fun _ => rfl, .nil,
    List.Pairwise.nil, ?_, hh, ?_⟩
  · intro j hj; simp at hj
  · intro j hj; simp at hj
  · intro j hj; simp at hj
  · intro i; trivial
  · intro i; trivial
  · intro i _; rfl
  · intro nk x
    constructor
    · intro h; simp [Restore.M, NodeBatch.empty, hget] at h
    · rintro ⟨_, (⟨j, hj, _⟩ | ⟨i, q, _, h⟩), _⟩
      · simp at hj
      · simp at h
  · intro nk; exact .inl (hget nk)
  · show (List.range 0).flatMap _ ++ esOf _ _ = []
    rw [esOf_empty (fun _ => rfl)]; rfl
  · intro e he; simp [NodeBatch.empty, OMap.empty] at he
  · show (List.map Prod.fst s.nodes.entries).Nodup
    rw [hs]; exact List.nodup_nil

/-- A restore that starts on a store without nodes and values. -/
theorem RInv.fresh (H : Hasher D) {s : Store D} (v : Version) (m : Bool) (root : D) (hs : s.nodes.entries = [])
    (hv : s.valueHistory.entries = []) :
    RInv H v m [] ⟨⟨List.replicate 32 0, rfl⟩, 0, fun _ _ => .empty, fun _ => .empty⟩ false
      ⟨s, v, [.newEmpty (.newEmptyPath v)], .empty, none, 0, root, m⟩ := by
  have hvget : ∀ k, s.valueHistory.get k = none := by intro nk; rw [FMap.get, hv]; rfl
  refine ⟨RBase.fresh H v m root hs (by intro k l h; simp [hvget] at h), ?_⟩
  intro k x
  simp [Restore.curVal, NodeBatch.empty, OMap.empty, OMap.get, FMap.lookupL, Store.getValueOption, hvget]

theorem OMap_get_insert {K V : Type} [DecidableEq K] {lt : K → K → Bool} (hlt : StrictTotal lt) {m : OMap K V} (h : OMap.Sorted lt m.entries) (k : K) (x : V) (k' : K) :
    (m.insert lt k x).get k' = if k' = k then some x else m.get k' := OMap.lookup_insertL hlt k x _ h k'

theorem lt_of_last {P : List (Key × Value)} (hs : P.Pairwise (fun a b => a.1 < b.1)) {k : Key}
    (hk : ∀ e, P.getLast? = some e → e.1 < k) {a : Key × Value} (ha : a ∈ P) : a.1 < k := by
  cases hl : P.getLast? with
  | none => rw [List.getLast?_eq_none_iff.1 hl] at ha; cases ha
  | some e =>
    have hlt := hk e hl
    obtain ⟨ys, rfl⟩ := List.getLast?_eq_some_iff.1 hl
    rw [List.pairwise_append] at hs
    rcases List.mem_append.1 ha with ha | ha
    · exact Key.lt_trans (hs.2.2 a ha _ (by simp)) hlt
    · simp only [List.mem_singleton] at ha
      subst ha; exact hlt

/-- Receiving one more pair. -/
theorem RBase.addPair {H : Hasher D} {v : Version} {m : Bool} {P : List (Key × Value)} {z : Zip D} {pend : Bool} {r : Restore D}
    (h : RBase H v m P z pend r) (k : Key) (x : Value)
    (hk : ∀ e, P.getLast? = some e → e.1 < k ∧ (pend = true ∨ e.1.commonPrefixNibblesLen k = z.n)) :
    ∃ r' z', r.addPair H k x = .ok r' ∧ RBase H v m (P ++ [(k, x)]) z' true r' ∧ r'.store = r.store ∧
      r'.expectedRootHash = r.expectedRootHash ∧ ∀ k', r'.curVal v k' = if k' = k then some x else r.curVal v k' := by
  obtain rfl := h.core.ver
  have hc : Core H r.version m z pend { r with frozenNodes := r.frozenNodes.insertValue r.version k x } :=
    ⟨rfl, h.core.mig, h.core.parts, h.core.good, h.core.map, h.core.disj, h.core.nodup⟩
  have hp : Pending r.version z pend { r with frozenNodes := r.frozenNodes.insertValue r.version k x } := ⟨h.pen.num, h.pen.leaf, h.pen.two⟩
  have hor : (z.n = 0 ∧ ∀ i, z.B i = .empty) ∨ (z.key < k ∧ (pend = true ∨ z.key.commonPrefixNibblesLen k = z.n)) := by
    cases hl : P.getLast? with
    | none =>
      left
      have hP : P = [] := List.getLast?_eq_none_iff.1 hl
      refine ⟨h.nil hP, ?_⟩
      intro i
      have := h.ents
      rw [hP] at this
      unfold Zip.entries hashed at this
      rw [List.map_nil, List.append_eq_nil_iff] at this
      exact (entries_eq_nil (h.core.good.bwf i)).1 (List.flatMap_eq_nil_iff.1 this.2 i (List.mem_finRange i))
    | some e =>
      right
      rw [h.key e hl]
      exact hk e hl
  obtain ⟨fz, ps, z', a1, a2, a3, a4, a5, a6, a7⟩ := hc.addOne hp k (H.value x) hor
  refine ⟨{ r with partialNodes := ps, frozenNodes := fz, previousLeaf := some ⟨k, H.value x⟩, numKeysReceived := r.numKeysReceived + 1 }, z', ?_, ?_, rfl, rfl, ?_⟩
  rotate_left
  · exact RBase.mk
      ⟨rfl, a3.mig, a3.parts, a3.good, a3.map, a3.disj, a3.nodup⟩
      ⟨by simp, fun _ => ⟨H.value x, by rw [a6, a4]⟩, a7⟩
      (by rw [a5, h.ents]; simp [hashed])
      (by simp)
      (by intro e he; simp at he; subst he; exact a4)
      (by simp)
      (by
        rw [List.pairwise_append]
        refine ⟨h.sorted, by simp, ?_⟩
        intro a ha b hb
        simp only [List.mem_singleton] at hb
        subst hb
        exact lt_of_last h.sorted (fun e he => (hk e he).1) ha)
      (by
        show OMap.Sorted _ fz.values.entries
        rw [a2]
        exact OMap.sorted_insertL valueKeyLt_strict _ _ _ h.vsorted)
      (by
        intro e he
        have he : e ∈ fz.values.entries := he
        rw [a2] at he
        rcases OMap.insertL_mem_fst _ _ _ he with rfl | he
        · rfl
        · exact h.vver e he)
      h.hist
      h.snodup
  · intro k'
    unfold Restore.curVal
    show (match fz.values.get (r.version, k') with | some x => x | none => _) = _
    rw [a2]
    show (match (r.frozenNodes.values.insert valueKeyLt (r.version, k) (some x)).get (r.version, k') with | some x => x | none => _) = _
    rw [OMap_get_insert valueKeyLt_strict h.vsorted]
    by_cases hkk : k' = k
    · subst hkk; simp
    · simp [hkk]
  · unfold Restore.addPair
    simp only [a1, Res.ok_bind, Res.pure_eq]

theorem RInv.addPair {H : Hasher D} {v : Version} {m : Bool} {P : List (Key × Value)} {z : Zip D} {pend : Bool} {r : Restore D}
    (h : RInv H v m P z pend r) (k : Key) (x : Value)
    (hk : ∀ e, P.getLast? = some e → e.1 < k ∧ (pend = true ∨ e.1.commonPrefixNibblesLen k = z.n)) :
    ∃ r' z', r.addPair H k x = .ok r' ∧ RInv H v m (P ++ [(k, x)]) z' true r' ∧ r'.store = r.store ∧
      r'.expectedRootHash = r.expectedRootHash := by
  obtain ⟨r', z', a1, a2, a3, a4, a5⟩ := h.toRBase.addPair k x hk
  refine ⟨r', z', a1, ⟨a2, ?_⟩, a3, a4⟩
  intro k' x'
  rw [a5, List.mem_append]
  by_cases hkk : k' = k
  · subst hkk
    simp only [if_true, Option.some.injEq, List.mem_singleton, Prod.mk.injEq, true_and]
    constructor
    · rintro rfl; exact .inr rfl
    · rintro (hm | rfl)
      · exfalso
        exact Key.lt_irrefl _ (lt_of_last h.sorted (fun e he => (hk e he).1) hm)
      · rfl
  · simp only [hkk, if_false, List.mem_singleton, Prod.mk.injEq, false_and, or_false]
    exact h.val k' x'

/-- The last key received is pending, or nothing has been received. -/
def Live (H : Hasher D) (v : Version) (m : Bool) (P : List (Key × Value)) (r : Restore D) : Prop :=
  ∃ z pend, RInv H v m P z pend r ∧ (P = [] ∨ pend = true)

theorem Live.addPair {H : Hasher D} {v : Version} {m : Bool} {P : List (Key × Value)} {r : Restore D}
    (h : Live H v m P r) (k : Key) (x : Value) (hk : ∀ e, P.getLast? = some e → e.1 < k) :
    ∃ r', r.addPair H k x = .ok r' ∧ Live H v m (P ++ [(k, x)]) r' ∧ r'.store = r.store ∧
      r'.expectedRootHash = r.expectedRootHash := by
  obtain ⟨z, pend, h1, h2⟩ := h
  obtain ⟨r', z', a1, a2, a3, a4⟩ := h1.addPair k x (by
    intro e he
    refine ⟨hk e he, .inl ?_⟩
    rcases h2 with rfl | h2
    · simp at he
    · exact h2)
  exact ⟨r', a1, ⟨z', true, a2, .inr rfl⟩, a3, a4⟩

theorem RInv.inOrder {H : Hasher D} {v : Version} {m : Bool} {P : List (Key × Value)} {z : Zip D} {pend : Bool} {r : Restore D}
    (h : RInv H v m P z pend r) (k : Key) : r.inOrder k = true ↔ ∀ e, P.getLast? = some e → e.1 < k := by
  unfold Restore.inOrder
  rw [h.prev]
  cases P.getLast? <;> simp

theorem rising_sorted {P : List (Key × Value)} (chunk : List (Key × Value)) (h : (P ++ chunk).Pairwise (fun a b => a.1 < b.1)) :
    rising (P.getLast?.map Prod.fst) chunk = chunk := by
  induction chunk generalizing P with
  | nil => cases P.getLast?.map Prod.fst <;> rfl
  | cons e t ih =>
    have := ih (P := P ++ [e]) (by simpa using h)
    rw [List.getLast?_append] at this
    simp only [List.getLast?_singleton, Option.some_or, Option.map_some] at this
    cases hl : P.getLast? with
    | none => simp only [Option.map_none, rising, this]
    | some a =>
      have hlt : a.1 < e.1 := (List.pairwise_append.1 h).2.2 a (List.mem_of_getLast? hl) e List.mem_cons_self
      simp only [Option.map_some, rising, hlt, if_true, this]

/-- Adding the pairs of a chunk: all of them, or those before the first one out of order. -/
theorem Live.addPairs {H : Hasher D} {v : Version} {m : Bool} (chunk : List (Key × Value)) {P : List (Key × Value)} {r : Restore D}
    (h : Live H v m P r) :
    ∃ r' out, r.addPairs H chunk = .ok (r', out) ∧ Live H v m (receive P chunk) r' ∧
      r'.store = r.store ∧ r'.expectedRootHash = r.expectedRootHash ∧ (out = none ↔ rising (P.getLast?.map Prod.fst) chunk = chunk) := by
  induction chunk generalizing P r with
  | nil =>
    have e : rising (P.getLast?.map Prod.fst) [] = [] := by cases P.getLast?.map Prod.fst <;> rfl
    exact ⟨r, none, rfl, by rw [receive, e, List.append_nil]; exact h, rfl, rfl, by rw [e]; simp⟩
  | cons e t ih =>
    obtain ⟨k, x⟩ := e
    by_cases ho : r.inOrder k = true
    · have hk : ∀ e, P.getLast? = some e → e.1 < k := by
        obtain ⟨z, pend, h1, _⟩ := h
        exact (h1.inOrder k).1 ho
      obtain ⟨r1, b1, b2, b3, b4⟩ := h.addPair k x hk
      obtain ⟨r', out, c2, c3, c4, c5, c6⟩ := ih b2
      have hr : rising (P.getLast?.map Prod.fst) ((k, x) :: t) = (k, x) :: rising (some k) t := by
        cases hl : P.getLast? with
        | none => rfl
        | some a => simp only [Option.map_some, rising, hk a hl, if_true]
      have hl : ((P ++ [(k, x)]).getLast?.map Prod.fst) = some k := by simp
      rw [hl] at c6
      refine ⟨r', out, ?_, ?_, by rw [c4, b3], by rw [c5, b4], ?_⟩
      · simp only [Restore.addPairs, ho, if_true, b1, Res.ok_bind, c2]
      · rw [receive, hl] at c3
        rw [receive, hr]
        simpa using c3
      · rw [c6, hr]; simp
    · have hr : rising (P.getLast?.map Prod.fst) ((k, x) :: t) = [] := by
        obtain ⟨z, pend, h1, _⟩ := h
        rw [h1.inOrder] at ho
        cases hl : P.getLast? with
        | none => rw [hl] at ho; exact absurd (by simp) ho
        | some a =>
          have : ¬ a.1 < k := by
            intro hlt
            apply ho
            intro e he
            rw [hl] at he
            cases he; exact hlt
          simp only [Option.map_some, rising, this, if_false]
      refine ⟨r, _, by simp only [Restore.addPairs, ho]; rfl, ?_, rfl, rfl, by rw [hr]; simp⟩
      rw [receive, hr, List.append_nil]; exact h

/-! writing -/

theorem get_singleton_hist {vh : FMap Key (List (Version × Option Value))} {v : Version} (l : List ((Version × Key) × Option Value))
    (hs : OMap.Sorted valueKeyLt l) (hv : ∀ e ∈ l, e.1.1 = v) (hh : ∀ k h, vh.get k = some h → ∃ x, h = [(v, x)]) :
    ∃ vh', Store.writeValues l vh = .ok vh' ∧
      ∀ k, vh'.get k = match FMap.lookupL l (v, k) with | some x => some [(v, x)] | none => vh.get k := by
  induction l generalizing vh with
  | nil => exact ⟨vh, rfl, fun k => rfl⟩
  | cons e t ih =>
    obtain ⟨⟨v', k⟩, x⟩ := e
    have : v' = v := hv _ List.mem_cons_self
    subst this
    have hs' := List.pairwise_cons.1 hs
    have h1 : Store.putValueHistory vh v' k x = .ok (vh.set k [(v', x)]) := by
      unfold Store.putValueHistory
      cases hg : vh.get k with
      | none => rfl
      | some h =>
        obtain ⟨y, rfl⟩ := hh k h hg
        simp
    obtain ⟨vh', e1, e2⟩ := ih (vh := vh.set k [(v', x)]) hs'.2 (fun e he => hv e (List.mem_cons_of_mem _ he)) (by
      intro k' h hg
      rw [FMap.get_set] at hg
      split at hg
      · cases hg; exact ⟨_, rfl⟩
      · exact hh k' h hg)
    refine ⟨vh', by simp only [Store.writeValues, h1, Res.ok_bind, e1], ?_⟩
    intro k'
    rw [e2]
    simp only [FMap.lookupL]
    by_cases hk : k' = k
    · subst hk
      have hnone : FMap.lookupL t (v', k') = none := by
        have := (FMap.get_eq_none_iff (⟨t⟩ : FMap (Version × Key) (Option Value)) (v', k')).2 (by
          intro hm
          obtain ⟨e, he, hek⟩ := List.mem_map.1 hm
          have := hs'.1 e he
          rw [hek] at this
          simp [valueKeyLt, Key.lt_irrefl] at this)
        exact this
      rw [hnone]
      simp
    · simp only [FMap.get_set, hk, if_false, Prod.mk.injEq, true_and, Ne.symm hk]

theorem getValueOption_single {s : Store D} {v : Version} {k : Key} (h : ∀ l, s.valueHistory.get k = some l → ∃ x, l = [(v, x)]) :
    s.getValueOption v k = match s.valueHistory.get k with | some [(_, x)] => x | _ => none := by
  unfold Store.getValueOption
  cases hg : s.valueHistory.get k with
  | none => rfl
  | some l =>
    obtain ⟨x, rfl⟩ := h l hg
    simp

/-- Writing nodes and values to the store. -/
theorem Restore.write_ok {v : Version} {r : Restore D} (hnod : r.frozenNodes.nodes.NodupKeys)
    (hdisj : ∀ nk, r.store.nodes.get nk = none ∨ r.frozenNodes.nodes.get nk = none)
    (hvs : OMap.Sorted valueKeyLt r.frozenNodes.values.entries) (hvv : ∀ e ∈ r.frozenNodes.values.entries, e.1.1 = v)
    (hh : ∀ k l, r.store.valueHistory.get k = some l → ∃ x, l = [(v, x)]) (hs : r.store.nodes.NodupKeys) :
    ∃ s', r.store.writeNodeBatch r.frozenNodes = .ok s' ∧
      (∀ nk, s'.nodes.get nk = r.M nk) ∧ (∀ k, s'.getValueOption v k = r.curVal v k) ∧ s'.allowOverwrite = r.store.allowOverwrite ∧
      (∀ k l, s'.valueHistory.get k = some l → ∃ x, l = [(v, x)]) ∧ s'.nodes.NodupKeys := by
  have hn : Store.writeNodes r.store.allowOverwrite r.frozenNodes.nodes.entries r.store.nodes = .ok (r.store.nodes.extend r.frozenNodes.nodes.entries) := by
    apply writeNodes_spec _ _ _ hnod
    intro e he
    rcases hdisj e.1 with hd | hd
    · exact hd
    · have := FMap.get_of_mem hnod he
      rw [hd] at this; cases this
  obtain ⟨vh', hv1, hv2⟩ := get_singleton_hist (vh := r.store.valueHistory) _ hvs hvv hh
  have hM : ∀ nk, (r.store.nodes.extend r.frozenNodes.nodes.entries).get nk = r.M nk := fun nk => FMap.get_extend _ _ hnod nk
  have hhist : ∀ k l, vh'.get k = some l → ∃ x, l = [(v, x)] := by
    intro k l hg
    rw [hv2] at hg
    split at hg
    · cases hg; exact ⟨_, rfl⟩
    · exact hh k l hg
  have hval : ∀ k, ({ r.store with nodes := r.store.nodes.extend r.frozenNodes.nodes.entries, valueHistory := vh' } : Store D).getValueOption v k = r.curVal v k := by
    intro k
    rw [getValueOption_single (hhist k)]
    simp only [hv2]
    unfold Restore.curVal OMap.get
    cases hl : FMap.lookupL r.frozenNodes.values.entries (v, k) with
    | some x => rfl
    | none => simp only [getValueOption_single (hh k)]
  refine ⟨{ r.store with nodes := r.store.nodes.extend r.frozenNodes.nodes.entries, valueHistory := vh' }, ?_, hM, hval, rfl, hhist, hs.extend _⟩
  unfold Store.writeNodeBatch
  simp only [hn, hv1, Res.ok_bind, Res.pure_eq]

/-- Writing the frozen nodes and values to the store. -/
theorem RInv.write {H : Hasher D} {v : Version} {m : Bool} {P : List (Key × Value)} {z : Zip D} {pend : Bool} {r : Restore D}
    (h : RInv H v m P z pend r) :
    ∃ s', r.store.writeNodeBatch r.frozenNodes = .ok s' ∧ RInv H v m P z pend { r with store := s', frozenNodes := .empty } ∧
      (∀ nk, s'.nodes.get nk = r.M nk) ∧ (∀ k, s'.getValueOption v k = r.curVal v k) ∧ s'.allowOverwrite = r.store.allowOverwrite := by
  obtain ⟨s', w1, hM, hval, w4, hhist, hnod⟩ := Restore.write_ok h.core.nodup h.core.disj h.vsorted h.vver h.hist h.snodup
  refine ⟨s', w1, ?_, hM, hval, w4⟩
  refine ⟨⟨⟨h.core.ver, h.core.mig, h.core.parts, h.core.good, ?_, fun nk => .inr rfl, FMap.nodupKeys_empty⟩, ⟨h.pen.num, h.pen.leaf, h.pen.two⟩, h.ents, h.prev,
    h.key, h.nil, h.sorted, List.Pairwise.nil, ?_, hhist, hnod⟩, ?_⟩
  · intro nk x
    rw [← h.core.map]
    show ((FMap.empty : FMap NodeKey (Node D)).get nk).or _ = some x ↔ _
    rw [FMap.get_empty, Option.none_or, hM]
  · intro e he; simp [NodeBatch.empty, OMap.empty] at he
  · intro k x
    rw [← h.val]
    show Store.getValueOption _ v k = some x ↔ _
    rw [hval]

end Verif.Jmt
