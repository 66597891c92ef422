import Verif.Jmt.RestoreRefused
import Verif.Proofs.RestoreContinue
import Verif.Proofs.Interrupt
/-! Chunks refused by the store. -/

set_option autoImplicit false

namespace Verif.Jmt
variable {D : Type}

theorem writeNodeBatch_eq (s : Store D) (b : NodeBatch D) : s.writeNodeBatch b = s.applyAll b.writes := by
  unfold Store.writeNodeBatch NodeBatch.writes
  rw [Store.applyAll_append, applyAll_nodes]
  cases Store.writeNodes s.allowOverwrite b.nodes.entries s.nodes with
  | error e => rfl
  | ok m =>
    simp only [Except.map, Except.bind, bind, applyAll_values]
    cases Store.writeValues b.values.entries s.valueHistory with
    | error e => rfl
    | ok vh => rfl

theorem Store.attempt_append {s s1 : Store D} {ws : List (Write D)} (h : s.applyAll ws = .ok s1) (ws' : List (Write D)) :
    s.attempt (ws ++ ws') = s1.attempt ws' := by
  induction ws generalizing s with
  | nil => cases h; rfl
  | cons w ws ih =>
    simp only [Store.applyAll] at h
    obtain ⟨s2, h2, h⟩ := Res.bind_ok h
    simp only [List.cons_append, Store.attempt, h2]
    exact ih h

/-- The values written before one is refused. -/
theorem attempt_values (l : List ((Version × Key) × Option Value)) (s : Store D) {e : Err} (h : Store.writeValues l s.valueHistory = .error e) :
    ∃ pre x post vh, l = pre ++ x :: post ∧ Store.writeValues pre s.valueHistory = .ok vh ∧ Store.putValueHistory vh x.1.1 x.1.2 x.2 = .error e ∧
      s.attempt (l.map (fun e => .value e.1.1 e.1.2 e.2)) = { s with valueHistory := vh } := by
  induction l generalizing s with
  | nil => cases h
  | cons x t ih =>
    obtain ⟨⟨v, k⟩, y⟩ := x
    simp only [Store.writeValues] at h
    cases hp : Store.putValueHistory s.valueHistory v k y with
    | error e' =>
      rw [hp] at h
      cases h
      refine ⟨[], ((v, k), y), t, s.valueHistory, rfl, rfl, hp, ?_⟩
      simp only [List.map_cons, Store.attempt, Store.apply, hp]
      rfl
    | ok vh1 =>
      rw [hp] at h
      obtain ⟨pre, x, post, vh, h1, h2, h3, h4⟩ := ih { s with valueHistory := vh1 } h
      refine ⟨((v, k), y) :: pre, x, post, vh, by rw [h1]; rfl, ?_, h3, ?_⟩
      · simp only [Store.writeValues, hp]
        exact h2
      · simp only [List.map_cons, Store.attempt, Store.apply, hp]
        exact h4

theorem writeNodes_no_err (o : Bool) (l : List (NodeKey × Node D)) (m : FMap NodeKey (Node D)) (e : String) :
    Store.writeNodes o l m ≠ .error (.err e) := by
  induction l generalizing m with
  | nil => intro h; cases h
  | cons x t ih =>
    obtain ⟨nk, n⟩ := x
    intro h
    simp only [Store.writeNodes] at h
    split at h
    · cases ha : (m.get nk).isNone with
      | true => rw [ha] at h; exact ih _ h
      | false => rw [ha] at h; cases h
    · exact ih _ h

/-- What is left of a write that is refused. -/
theorem writeNodeBatch_refused {s : Store D} {b : NodeBatch D} {m : String} (h : s.writeNodeBatch b = .error (.err m)) :
    ∃ ns pre x post vh, Store.writeNodes s.allowOverwrite b.nodes.entries s.nodes = .ok ns ∧ b.values.entries = pre ++ x :: post ∧
      Store.writeValues pre s.valueHistory = .ok vh ∧ Store.putValueHistory vh x.1.1 x.1.2 x.2 = .error (.err m) ∧
      s.attempt b.writes = { s with nodes := ns, valueHistory := vh } := by
  unfold Store.writeNodeBatch at h
  cases hn : Store.writeNodes s.allowOverwrite b.nodes.entries s.nodes with
  | error e =>
    rw [hn] at h
    cases h
    exact absurd hn (writeNodes_no_err _ _ _ _)
  | ok ns =>
    rw [hn] at h
    simp only [Res.ok_bind] at h
    cases hv : Store.writeValues b.values.entries s.valueHistory with
    | ok vh => rw [hv] at h; cases h
    | error e =>
      rw [hv] at h
      cases h
      obtain ⟨pre, x, post, vh, h1, h2, h3, h4⟩ := attempt_values b.values.entries { s with nodes := ns } hv
      refine ⟨ns, pre, x, post, vh, rfl, h1, h2, h3, ?_⟩
      unfold NodeBatch.writes
      rw [Store.attempt_append (s1 := { s with nodes := ns }) (by rw [applyAll_nodes, hn]; rfl)]
      exact h4

/-- A key has a value of a version after `w`. -/
def Ahead (vh : FMap Key (List (Version × Option Value))) (k : Key) (w : Version) : Prop :=
  ∃ e, (vhGet vh k).getLast? = some e ∧ w < e.1

theorem putValueHistory_or (vh : FMap Key (List (Version × Option Value))) (v : Version) (k : Key) (x : Option Value) :
    (Ahead vh k v ∧ Store.putValueHistory vh v k x = .error (.err "values must be pushed in order")) ∨
      (¬ Ahead vh k v ∧ ∃ l, Store.putValueHistory vh v k x = .ok (vh.set k (l ++ [(v, x)]))) := by
  unfold Ahead Store.putValueHistory vhGet
  cases hg : vh.get k with
  | none => exact .inr ⟨by simp, [], rfl⟩
  | some l =>
    simp only [Option.getD_some]
    cases hl : l.getLast? with
    | none => exact .inr ⟨by simp, l, rfl⟩
    | some e =>
      by_cases h : v < e.1
      · exact .inl ⟨⟨e, rfl, h⟩, by simp only [h, if_true]⟩
      · refine .inr ⟨by rintro ⟨e', he, h'⟩; cases he; exact h h', ?_⟩
        simp only [h, if_false]
        split
        · exact ⟨_, rfl⟩
        · exact ⟨_, rfl⟩

theorem Ahead.put {vh vh' : FMap Key (List (Version × Option Value))} {v w : Version} {k k' : Key} {x : Option Value} (h : Ahead vh k' w)
    (hp : Store.putValueHistory vh v k x = .ok vh') : Ahead vh' k' w := by
  rcases putValueHistory_or vh v k x with ⟨_, h1⟩ | ⟨h1, l, h2⟩
  · rw [h1] at hp; cases hp
  · rw [h2] at hp
    cases hp
    unfold Ahead vhGet
    rw [FMap.get_set]
    by_cases hk : k' = k
    · subst hk
      obtain ⟨e, he, hw⟩ := h
      refine ⟨(v, x), by simp, ?_⟩
      by_contra hn
      exact h1 ⟨e, he, by simp only at hn; omega⟩
    · simp only [hk, if_false]
      exact h

theorem Ahead.writes {l : List ((Version × Key) × Option Value)} {vh vh' : FMap Key (List (Version × Option Value))} {w : Version} {k : Key}
    (h : Ahead vh k w) (hw : Store.writeValues l vh = .ok vh') : Ahead vh' k w := by
  induction l generalizing vh with
  | nil => cases hw; exact h
  | cons e t ih =>
    obtain ⟨⟨v, k'⟩, x⟩ := e
    simp only [Store.writeValues] at hw
    obtain ⟨vh1, h1, hw⟩ := Res.bind_ok hw
    exact ih (h.put h1) hw

/-- A write of a value that comes too late does not succeed. -/
theorem Ahead.refused {l : List ((Version × Key) × Option Value)} {vh vh' : FMap Key (List (Version × Option Value))} {e : (Version × Key) × Option Value}
    (he : e ∈ l) (h : Ahead vh e.1.2 e.1.1) : Store.writeValues l vh ≠ .ok vh' := by
  induction l generalizing vh with
  | nil => cases he
  | cons x t ih =>
    obtain ⟨⟨v, k⟩, y⟩ := x
    intro hw
    simp only [Store.writeValues] at hw
    obtain ⟨vh1, h1, hw⟩ := Res.bind_ok hw
    rcases List.mem_cons.1 he with rfl | he
    · rcases putValueHistory_or vh v k y with ⟨_, h2⟩ | ⟨h2, _⟩
      · rw [h2] at h1; cases h1
      · exact h2 h
    · exact ih he (h.put h1) hw

/-- Values of version `w` do not make a key have a value of a later one. -/
theorem writeValues_ahead {w : Version} {l : List ((Version × Key) × Option Value)} {vh vh' : FMap Key (List (Version × Option Value))} {k : Key}
    (hl : ∀ e ∈ l, e.1.1 = w) (hw : Store.writeValues l vh = .ok vh') (h : Ahead vh' k w) : Ahead vh k w := by
  induction l generalizing vh with
  | nil => cases hw; exact h
  | cons e t ih =>
    obtain ⟨⟨v, k'⟩, x⟩ := e
    obtain rfl : v = w := hl _ List.mem_cons_self
    simp only [Store.writeValues] at hw
    obtain ⟨vh1, h1, hw⟩ := Res.bind_ok hw
    have := ih (fun e he => hl e (List.mem_cons_of_mem _ he)) hw
    rcases putValueHistory_or vh v k' x with ⟨_, h2⟩ | ⟨h2, l, h3⟩
    · rw [h2] at h1; cases h1
    · rw [h3] at h1
      cases h1
      unfold Ahead vhGet at this
      rw [FMap.get_set] at this
      by_cases hk : k = k'
      · subst hk
        obtain ⟨e, he, hlt⟩ := this
        simp at he
        subst he
        exact absurd hlt (Nat.lt_irrefl _)
      · simp only [hk, if_false] at this
        exact this

theorem insertL_key {K V : Type} [DecidableEq K] (lt : K → K → Bool) (k : K) (v : V) (l : List (K × V)) {e : K × V} (he : e ∈ l) :
    ∃ e' ∈ OMap.insertL lt k v l, e'.1 = e.1 := by
  induction l with
  | nil => cases he
  | cons x t ih =>
    unfold OMap.insertL
    split
    · exact ⟨e, List.mem_cons_of_mem _ he, rfl⟩
    · split
      · rename_i hk
        rcases List.mem_cons.1 he with rfl | he
        · exact ⟨_, List.mem_cons_self, hk.symm⟩
        · exact ⟨e, List.mem_cons_of_mem _ he, rfl⟩
      · rcases List.mem_cons.1 he with rfl | he
        · exact ⟨_, List.mem_cons_self, rfl⟩
        · obtain ⟨e', h1, h2⟩ := ih he
          exact ⟨e', List.mem_cons_of_mem _ h1, h2⟩

namespace Restore

/-! ### The version stays -/

theorem freezePreviousLeaf_version {r r' : Restore D} (h : r.freezePreviousLeaf = .ok r') : r'.version = r.version := by
  unfold Restore.freezePreviousLeaf at h
  split at h
  · cases h; rfl
  · split at h
    · cases h
    · split at h
      · cases h
      · split at h
        · obtain ⟨ck, _, h⟩ := Res.bind_ok h
          cases h; rfl
        · cases h

theorem freezeInternalNodes_version {H : Hasher D} (n : Nat) {r r' : Restore D} (h : Restore.freezeInternalNodes H n r = .ok r') : r'.version = r.version := by
  induction n generalizing r with
  | zero => cases h; rfl
  | succ n ih =>
    unfold Restore.freezeInternalNodes at h
    split at h
    · cases h
    · obtain ⟨⟨nk, node⟩, _, h⟩ := Res.bind_ok h
      obtain ⟨ps, _, h⟩ := Res.bind_ok h
      have := ih h
      exact this

theorem freeze_version {H : Hasher D} {r r' : Restore D} {n : Nat} (h : r.freeze H n = .ok r') : r'.version = r.version := by
  unfold Restore.freeze at h
  obtain ⟨r1, h1, h⟩ := Res.bind_ok h
  exact (freezeInternalNodes_version _ h).trans (freezePreviousLeaf_version h1)

theorem insertAtLeaf_version {H : Hasher D} {r r' : Restore D} {i : Nibble} {l : LeafNode D} {k : Key} {d : D} {a b : List Nibble}
    (h : r.insertAtLeaf H i l k d a b = .ok r') : r'.version = r.version := by
  unfold Restore.insertAtLeaf at h
  obtain ⟨⟨vis, ps⟩, _, h⟩ := Res.bind_ok h
  obtain ⟨_, _, h⟩ := Res.bind_ok h
  obtain ⟨r1, h1, h⟩ := Res.bind_ok h
  obtain ⟨_, _, h⟩ := Res.bind_ok h
  have := freeze_version h1
  cases h
  exact this

theorem addOneLoop_version {H : Hasher D} {r r' : Restore D} {k : Key} {d : D} (l : List Nibble) {i : Nat} {vis : List Nibble}
    (h : r.addOneLoop H k d l i vis = .ok r') : r'.version = r.version := by
  induction l generalizing i vis with
  | nil => cases h; rfl
  | cons nib rest ih =>
    unfold Restore.addOneLoop at h
    split at h
    · cases h
    · split at h
      · obtain ⟨_, _, h⟩ := Res.bind_ok h
        exact insertAtLeaf_version h
      · exact ih h
      · obtain ⟨r1, h1, h⟩ := Res.bind_ok h
        have := freeze_version h1
        cases h
        exact this

/-! ### What is to be written -/

/-- The values to be written are of version `w`, the one that is restored, and of keys `Q`. -/
structure Due (w : Version) (Q : Key → Prop) (r : Restore D) : Prop where
  version : r.version = w
  pend : ∀ e ∈ r.frozenNodes.values.entries, e.1.1 = w
  keys : ∀ e ∈ r.frozenNodes.values.entries, Q e.1.2

/-- A pair that has been taken: the store stays, and so do the keys of the values to be written. -/
theorem addPair_due {H : Hasher D} {w : Version} {Q : Key → Prop} {r r' : Restore D} {k : Key} {x : Value} (h : Due w Q r) (hq : Q k) (ha : r.addPair H k x = .ok r') :
    Due w Q r' ∧ r'.store = r.store ∧ ∀ e ∈ r.frozenNodes.values.entries, ∃ e' ∈ r'.frozenNodes.values.entries, e'.1 = e.1 := by
  unfold Restore.addPair at ha
  obtain ⟨r1, h1, ha⟩ := Res.bind_ok ha
  have hs := Restore.addOneLoop_same _ h1
  have hv := addOneLoop_version _ h1
  cases ha
  refine ⟨⟨hv.trans h.version, ?_, ?_⟩, hs.1, ?_⟩
  · intro e he
    have he : e ∈ r1.frozenNodes.values.entries := he
    rw [hs.2] at he
    rcases OMap.insertL_mem_fst _ _ _ he with rfl | he
    · exact h.version
    · exact h.pend e he
  · intro e he
    have he : e ∈ r1.frozenNodes.values.entries := he
    rw [hs.2] at he
    rcases OMap.insertL_mem_fst _ _ _ he with rfl | he
    · exact hq
    · exact h.keys e he
  · intro e he
    show ∃ e' ∈ r1.frozenNodes.values.entries, _
    rw [hs.2]
    exact insertL_key _ _ _ _ he

theorem addPairs_due {H : Hasher D} {w : Version} {Q : Key → Prop} (chunk : List (Key × Value)) {r r' : Restore D} {out : Option String} (h : Due w Q r)
    (hq : ∀ c ∈ chunk, Q c.1) (ha : r.addPairs H chunk = .ok (r', out)) :
    Due w Q r' ∧ r'.store = r.store ∧ ∀ e ∈ r.frozenNodes.values.entries, ∃ e' ∈ r'.frozenNodes.values.entries, e'.1 = e.1 := by
  induction chunk generalizing r with
  | nil => cases ha; exact ⟨h, rfl, fun e he => ⟨e, he, rfl⟩⟩
  | cons c t ih =>
    unfold Restore.addPairs at ha
    split at ha
    · obtain ⟨r1, h1, ha⟩ := Res.bind_ok ha
      obtain ⟨a1, a2, a3⟩ := addPair_due h (hq _ List.mem_cons_self) h1
      obtain ⟨b1, b2, b3⟩ := ih a1 (fun c hc => hq c (List.mem_cons_of_mem _ hc)) ha
      refine ⟨b1, b2.trans a2, fun e he => ?_⟩
      obtain ⟨e1, h3, h4⟩ := a3 e he
      obtain ⟨e2, h5, h6⟩ := b3 e1 h3
      exact ⟨e2, h5, h6.trans h4⟩
    · cases ha; exact ⟨h, rfl, fun e he => ⟨e, he, rfl⟩⟩

/-- A value to be written comes too late. -/
def Blocked (r : Restore D) : Prop := ∃ e ∈ r.frozenNodes.values.entries, Ahead r.store.valueHistory e.1.2 e.1.1

theorem Blocked.write {r : Restore D} (h : Blocked r) (b : NodeBatch D) (hb : b.values = r.frozenNodes.values) (s : Store D) :
    r.store.writeNodeBatch b ≠ .ok s := by
  obtain ⟨e, he, hlt⟩ := h
  intro hw
  unfold Store.writeNodeBatch at hw
  obtain ⟨ns, _, hw⟩ := Res.bind_ok hw
  obtain ⟨vh, hv, _⟩ := Res.bind_ok hw
  rw [hb] at hv
  exact hlt.refused he hv

/-! ### The errors of `verify` are others -/

/-- The text of the error of the store. -/
def orderError : String := "values must be pushed in order"

/-- The text is not that of the store. -/
def OtherErr {A : Type} (x : Res A) : Prop := ∀ m, x = .error (.err m) → m ≠ orderError

theorem OtherErr.bind {A B : Type} {x : Res A} {f : A → Res B} (h : OtherErr x) (hf : ∀ a, OtherErr (f a)) : OtherErr (x >>= f) := by
  cases x with
  | error e =>
    intro m hm
    cases hm
    exact h m rfl
  | ok a => exact hf a

theorem OtherErr.ok {A : Type} (a : A) : OtherErr (.ok a : Res A) := fun _ h => by cases h

theorem OtherErr.panic {A : Type} (t : String) : OtherErr (.error (.panic t) : Res A) := fun _ h => by cases h

theorem OtherErr.text {A : Type} {t : String} (h : t ≠ orderError) : OtherErr (.error (.err t) : Res A) := fun _ e => by cases e; exact h

theorem OtherErr.ensure (b : Bool) {t : String} (h : t ≠ orderError) : OtherErr (Verif.ensure b t) := by
  cases b with
  | true => exact .ok ()
  | false => exact .text h

theorem computeLeftSiblingImpl_other (H : Hasher D) [DecidableEq D] (c : Nibble → Option (ChildInfo D)) (h start : Nat) :
    OtherErr (computeLeftSiblingImpl H c h start) := by
  induction h generalizing start with
  | zero =>
    unfold computeLeftSiblingImpl
    split
    · exact .ok _
    · exact .panic _
    · exact .ok _
    · exact .ok _
  | succ h ih =>
    unfold computeLeftSiblingImpl
    refine .bind (ih _) fun ⟨a, a'⟩ => .bind (ih _) fun ⟨b, b'⟩ => ?_
    dsimp only
    split
    · exact .ok _
    · split
      · exact .ok _
      · exact .ok _

theorem collectLeft_other (H : Hasher D) [DecidableEq D] (ps : List (InternalInfo D)) (key : Key) (l : List Nat) (left : List D) (num : Nat) :
    OtherErr (collectLeft H ps key l left num) := by
  induction l generalizing left num with
  | nil => exact .ok _
  | cons i t ih =>
    unfold collectLeft
    split
    · split
      · exact ih _ _
      · exact .bind (.bind (computeLeftSiblingImpl_other _ _ _ _) fun _ => .ok _) fun _ => ih _ _
    · exact ih _ _

theorem trimLeft_other (H : Hasher D) [DecidableEq D] (n : Nat) (bits : List Bool) (left : List D) (num : Nat) :
    OtherErr (trimLeft H n bits left num) := by
  induction bits generalizing left num with
  | nil => exact .ok _
  | cons b t ih =>
    cases b with
    | true =>
      unfold trimLeft
      split
      · exact .panic _
      · split
        · exact ih _ _
        · exact .ok _
    | false =>
      unfold trimLeft
      split
      · exact ih _ _
      · exact .ok _

theorem verifyLoop_other (H : Hasher D) (bits : List Bool) (left right : List D) (d : D) :
    OtherErr (SparseMerkleRangeProof.verifyLoop H bits left right d) := by
  induction bits generalizing left right d with
  | nil => exact .ok _
  | cons b t ih =>
    cases b with
    | true =>
      cases left with
      | nil => exact .text (by decide)
      | cons x left => exact ih _ _ _
    | false =>
      cases right with
      | nil => cases left <;> exact .text (by decide)
      | cons x right => cases left <;> exact ih _ _ _

theorem verify_other (H : Hasher D) [DecidableEq D] (r : Restore D) (p : SparseMerkleRangeProof D) : OtherErr (r.verify H p) := by
  unfold verify
  split
  · exact .panic _
  · refine .bind (collectLeft_other _ _ _ _ _ _) fun a => .bind (.ensure _ (by decide)) fun _ => .bind (trimLeft_other _ _ _ _ _) fun l => ?_
    unfold SparseMerkleRangeProof.verify
    dsimp only
    split
    · exact .bind (verifyLoop_other _ _ _ _ _) fun _ => .ensure _ (by decide)
    · exact .panic _

theorem addPairs_other {H : Hasher D} (chunk : List (Key × Value)) {r r' : Restore D} {m : String} (ha : r.addPairs H chunk = .ok (r', some m)) :
    m ≠ orderError := by
  induction chunk generalizing r with
  | nil => cases ha
  | cons c t ih =>
    unfold Restore.addPairs at ha
    split at ha
    · obtain ⟨r1, _, ha⟩ := Res.bind_ok ha
      exact ih ha
    · cases ha
      decide

/-- The calls of `add_chunk`, one by one. -/
theorem addChunkLeft_cases {H : Hasher D} [DecidableEq D] {w : Version} {Q : Key → Prop} {chunk : List (Key × Value)} {proof : SparseMerkleRangeProof D} {r r' : Restore D}
    {out : Option String} (h : Due w Q r) (hq : ∀ c ∈ chunk, Q c.1) (ha : r.addChunkLeft H chunk proof = .ok (r', out)) :
    Due w Q r' ∧ (Blocked r → Blocked r' ∧ out ≠ none) ∧
      ((∃ m, out = some m ∧ m ≠ orderError ∧ r'.store = r.store ∧ r.addChunk H chunk proof = .ok (r', out)) ∨
       (out = none ∧ r.addChunk H chunk proof = .ok (r', out) ∧ ∀ k, Ahead r'.store.valueHistory k w → Ahead r.store.valueHistory k w) ∨
       (out = some orderError ∧ Blocked r' ∧ ∃ k, Q k ∧ Ahead r.store.valueHistory k w)) := by
  unfold addChunkLeft at ha
  unfold addChunk
  split at ha
  · rename_i hc
    cases ha
    rw [if_pos hc]
    exact ⟨h, fun hb => ⟨hb, by simp⟩, .inl ⟨_, rfl, by decide, rfl, rfl⟩⟩
  · rename_i hc
    rw [if_neg hc]
    have kept : ∀ {r1 : Restore D}, r1.store = r.store → (∀ e ∈ r.frozenNodes.values.entries, ∃ e' ∈ r1.frozenNodes.values.entries, e'.1 = e.1) →
        Blocked r → Blocked r1 := by
      rintro r1 hs hk ⟨e, he, hlt⟩
      obtain ⟨e', h1, h2⟩ := hk e he
      exact ⟨e', h1, by rw [h2, hs]; exact hlt⟩
    split at ha
    · cases ha
    · rename_i r1 m h1
      cases ha
      obtain ⟨a1, a2, a3⟩ := addPairs_due _ h hq h1
      rw [h1]
      exact ⟨a1, fun hb => ⟨kept a2 a3 hb, by simp⟩, .inl ⟨_, rfl, addPairs_other _ h1, a2, rfl⟩⟩
    · rename_i r1 h1
      obtain ⟨a1, a2, a3⟩ := addPairs_due _ h hq h1
      rw [h1]
      unfold finishChunkLeft at ha
      simp only [finishChunk]
      cases hv : r1.verify H proof with
      | error e =>
        rw [hv] at ha
        cases e with
        | panic m => cases ha
        | err m =>
          cases ha
          exact ⟨a1, fun hb => ⟨kept a2 a3 hb, by simp⟩, .inl ⟨_, rfl, verify_other H _ proof m hv, a2, rfl⟩⟩
      | ok u =>
        rw [hv] at ha
        simp only at ha ⊢
        cases hw : r1.store.writeNodeBatch r1.frozenNodes with
        | ok s =>
          rw [hw] at ha
          cases ha
          refine ⟨⟨a1.version, fun _ he => (nomatch he), fun _ he => (nomatch he)⟩, fun hb => absurd hw ((kept a2 a3 hb).write _ rfl s), .inr (.inl ⟨rfl, rfl, ?_⟩)⟩
          intro k hk
          unfold Store.writeNodeBatch at hw
          obtain ⟨ns, _, hw⟩ := Res.bind_ok hw
          obtain ⟨vh, hvh, hw⟩ := Res.bind_ok hw
          cases hw
          rw [← a2]
          exact writeValues_ahead a1.pend hvh hk
        | error e =>
          rw [hw] at ha
          cases e with
          | panic m => cases ha
          | err m =>
            cases ha
            obtain ⟨ns, pre, x, post, vh, g1, g2, g3, g4, g5⟩ := writeNodeBatch_refused hw
            have hx : x ∈ r1.frozenNodes.values.entries := by rw [g2]; simp
            have hxw := a1.pend x hx
            rcases putValueHistory_or vh x.1.1 x.1.2 x.2 with ⟨k1, k2⟩ | ⟨k1, l, k2⟩
            swap
            · rw [k2] at g4; cases g4
            rw [k2] at g4
            cases g4
            have hb' : Blocked { r1 with store := r1.store.attempt r1.frozenNodes.writes } :=
              ⟨x, hx, by rw [g5]; exact k1⟩
            refine ⟨⟨a1.version, a1.pend, a1.keys⟩, fun _ => ⟨hb', by simp⟩, .inr (.inr ⟨rfl, hb', x.1.2, a1.keys x hx, ?_⟩)⟩
            rw [← a2]
            rw [hxw] at k1
            exact writeValues_ahead (fun e he => a1.pend e (by rw [g2]; exact List.mem_append_left _ he)) g3 k1

theorem addChunkLeft_error {H : Hasher D} [DecidableEq D] (r : Restore D) (chunk : List (Key × Value)) (proof : SparseMerkleRangeProof D) (e : Err)
    (h : r.addChunkLeft H chunk proof = .error e) : r.addChunk H chunk proof = .error e := by
  unfold addChunkLeft at h
  unfold addChunk
  split at h
  · cases h
  · rename_i hc
    rw [if_neg hc]
    split at h
    · rename_i e' h1
      rw [h1]
      exact h
    · cases h
    · rename_i r1 h1
      rw [h1]
      unfold finishChunkLeft at h
      simp only [finishChunk]
      cases hv : r1.verify H proof with
      | error e' =>
        rw [hv] at h
        cases e' with
        | panic m => exact h
        | err m => cases h
      | ok u =>
        rw [hv] at h
        simp only at h ⊢
        cases hw : r1.store.writeNodeBatch r1.frozenNodes with
        | ok s => rw [hw] at h; cases h
        | error e' =>
          rw [hw] at h
          cases e' with
          | panic m => exact h
          | err m => cases h

/-- On a store without later values of the keys given the simplification of `finishChunk` is none. -/
theorem addChunksLeft_eq {H : Hasher D} [DecidableEq D] {w : Version} {Q : Key → Prop} (calls : List (List (Key × Value) × SparseMerkleRangeProof D)) {r : Restore D}
    (h : Due w Q r) (hq : ∀ c ∈ calls, ∀ e ∈ c.1, Q e.1) (hn : ∀ k, Q k → ¬ Ahead r.store.valueHistory k w) :
    r.addChunksLeft H calls = r.addChunks H calls ∧ ∀ r' outs, r.addChunks H calls = .ok (r', outs) → none ∉ outs → r'.store = r.store := by
  induction calls generalizing r with
  | nil => exact ⟨rfl, fun r' outs h0 _ => by cases h0; rfl⟩
  | cons c t ih =>
    unfold addChunksLeft addChunks
    cases hc : r.addChunkLeft H c.1 c.2 with
    | error e =>
      rw [addChunkLeft_error r c.1 c.2 e hc]
      exact ⟨rfl, fun r' outs h0 => by cases h0⟩
    | ok p =>
      obtain ⟨r1, out⟩ := p
      obtain ⟨a1, _, a3⟩ := addChunkLeft_cases h (hq c List.mem_cons_self) hc
      have hstore : (out = none ∨ r1.store = r.store) ∧ r.addChunk H c.1 c.2 = .ok (r1, out) ∧ ∀ k, Q k → ¬ Ahead r1.store.valueHistory k w := by
        rcases a3 with ⟨m, b1, _, b2, b3⟩ | ⟨b1, b2, b3⟩ | ⟨_, _, k, hk, hk'⟩
        · exact ⟨.inr b2, b3, by rw [b2]; exact hn⟩
        · exact ⟨.inl b1, b2, fun k hk hk' => hn k hk (b3 k hk')⟩
        · exact absurd hk' (hn k hk)
      obtain ⟨b1, b2, b3⟩ := hstore
      rw [b2]
      obtain ⟨c1, c2⟩ := ih a1 (fun c hc => hq c (List.mem_cons_of_mem _ hc)) b3
      simp only [Res.ok_bind]
      rw [c1]
      refine ⟨rfl, fun r' outs h0 hno => ?_⟩
      obtain ⟨⟨r2, os⟩, h2, h0⟩ := Res.bind_ok h0
      cases h0
      simp only [List.mem_cons, not_or] at hno
      rw [c2 r2 os h2 hno.2]
      exact b1.resolve_left (fun h => hno.1 h.symm)

theorem Blocked.finish {H : Hasher D} {r : Restore D} (h : Blocked r) (s : Store D) : r.finish H ≠ .ok s := by
  intro hf
  unfold Restore.finish at hf
  split at hf
  · obtain ⟨_, _, hf⟩ := Res.bind_ok hf
    exact h.write (r.frozenNodes.insertNode _ _) rfl s hf
  · obtain ⟨r1, h1, hf⟩ := Res.bind_ok hf
    have hs := Restore.freeze_same h1
    rw [hs.1] at hf
    exact h.write _ hs.2 s hf

theorem addChunksLeft_due {H : Hasher D} [DecidableEq D] {w : Version} {Q : Key → Prop} (calls : List (List (Key × Value) × SparseMerkleRangeProof D))
    {r r' : Restore D} {outs : List (Option String)} (h : Due w Q r) (hq : ∀ c ∈ calls, ∀ e ∈ c.1, Q e.1)
    (ha : r.addChunksLeft H calls = .ok (r', outs)) : Due w Q r' := by
  induction calls generalizing r outs with
  | nil => cases ha; exact h
  | cons c t ih =>
    unfold addChunksLeft at ha
    obtain ⟨⟨r1, out⟩, h1, ha⟩ := Res.bind_ok ha
    obtain ⟨⟨r2, os⟩, h2, ha⟩ := Res.bind_ok ha
    cases ha
    exact ih (addChunkLeft_cases h (hq c List.mem_cons_self) h1).1 (fun c hc => hq c (List.mem_cons_of_mem _ hc)) h2

theorem addChunksLeft_blocked {H : Hasher D} [DecidableEq D] {w : Version} {Q : Key → Prop} (calls : List (List (Key × Value) × SparseMerkleRangeProof D))
    {r r' : Restore D} {outs : List (Option String)} (h : Due w Q r) (hq : ∀ c ∈ calls, ∀ e ∈ c.1, Q e.1) (hb : Blocked r) (ha : r.addChunksLeft H calls = .ok (r', outs)) :
    Blocked r' ∧ none ∉ outs := by
  induction calls generalizing r outs with
  | nil => cases ha; exact ⟨hb, by simp⟩
  | cons c t ih =>
    unfold addChunksLeft at ha
    obtain ⟨⟨r1, out⟩, h1, ha⟩ := Res.bind_ok ha
    obtain ⟨⟨r2, os⟩, h2, ha⟩ := Res.bind_ok ha
    cases ha
    obtain ⟨a1, a2, _⟩ := addChunkLeft_cases h (hq c List.mem_cons_self) h1
    obtain ⟨b1, b2⟩ := ih a1 (fun c hc => hq c (List.mem_cons_of_mem _ hc)) (a2 hb).1 h2
    refine ⟨b1, ?_⟩
    simp only [List.mem_cons, not_or]
    exact ⟨fun h => (a2 hb).2 h.symm, b2⟩

/-- Once the store has refused a value, nothing succeeds any more. -/
theorem addChunksLeft_refused {H : Hasher D} [DecidableEq D] {w : Version} (calls more : List (List (Key × Value) × SparseMerkleRangeProof D))
    {r r1 r' : Restore D} {outs outs' : List (Option String)} (h : Due w (fun _ => True) r) (ha : r.addChunksLeft H calls = .ok (r1, outs))
    (hout : some orderError ∈ outs) (hb : r1.addChunksLeft H more = .ok (r', outs')) : none ∉ outs' ∧ Blocked r' := by
  have key : Due w (fun _ => True) r1 ∧ Blocked r1 := by
    clear hb
    induction calls generalizing r outs with
    | nil => cases ha; cases hout
    | cons c t ih =>
      unfold addChunksLeft at ha
      obtain ⟨⟨r2, out⟩, h1, ha⟩ := Res.bind_ok ha
      obtain ⟨⟨r3, os⟩, h2, ha⟩ := Res.bind_ok ha
      cases ha
      obtain ⟨a1, _, a3⟩ := addChunkLeft_cases h (fun _ _ => trivial) h1
      rcases List.mem_cons.1 hout with hout | hout
      · subst hout
        have hb : Blocked r2 := by
          rcases a3 with ⟨m, b1, b2, _⟩ | ⟨b1, _⟩ | ⟨_, b2, _⟩
          · cases b1; exact absurd rfl b2
          · cases b1
          · exact b2
        exact ⟨addChunksLeft_due t a1 (fun _ _ _ _ => trivial) h2, (addChunksLeft_blocked t a1 (fun _ _ _ _ => trivial) hb h2).1⟩
      · exact ih a1 h2 hout
  obtain ⟨b1, b2⟩ := addChunksLeft_blocked more key.1 (fun _ _ _ _ => trivial) key.2 hb
  exact ⟨b2, b1⟩

theorem due_newOverwrite (s : Store D) (w : Version) (root : D) (m : Bool) (Q : Key → Prop) : Due w Q (Restore.newOverwrite s w root m) :=
  ⟨rfl, fun _ he => (nomatch he), fun _ he => (nomatch he)⟩

theorem due_new {H : Hasher D} {s : Store D} {w : Version} {root : D} {m : Bool} {r : Restore D} (h : Restore.new H s w root m = .ok r)
    (Q : Key → Prop) :
    Due w Q r ∧ r.store = s := by
  unfold Restore.new at h
  split at h
  · obtain ⟨ps, _, h⟩ := Res.bind_ok h
    cases h
    exact ⟨⟨rfl, fun _ he => (nomatch he), fun _ he => (nomatch he)⟩, rfl⟩
  · cases h
    exact ⟨⟨rfl, fun _ he => (nomatch he), fun _ he => (nomatch he)⟩, rfl⟩

end Restore

end Verif.Jmt
