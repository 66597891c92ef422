import Verif.Proofs.RestoreResume
/-! The store left by a finished restore is one on which work can go on. -/

set_option autoImplicit false

namespace Verif.Jmt
open VTree Verif.Spec
variable {D : Type}

/-! ### trees with one version and one flag are determined by their entries -/

theorem VTree.mem_child_iff {p : List Nibble} {v : Version} {m : Bool} {ch : Nibble → VTree D} (h : WF p (.node v m ch)) (i : Nibble) (e : Key × D) :
    e ∈ (ch i).entries ↔ e ∈ (VTree.node v m ch).entries ∧ p ++ [i] <+: e.1.nibbles := by
  have hw : ∀ j, WF (p ++ [j]) (ch j) := h.1
  constructor
  · intro he
    exact ⟨List.mem_flatMap.2 ⟨i, List.mem_finRange i, he⟩, mem_entries_prefix (hw i) he⟩
  · rintro ⟨he, hp⟩
    obtain ⟨j, _, hj⟩ := List.mem_flatMap.1 he
    have hq := mem_entries_prefix (hw j) hj
    have heq : p ++ [i] = p ++ [j] := by
      rw [List.prefix_iff_eq_take] at hp hq
      rw [hp, hq]; simp
    have := List.append_cancel_left heq
    simp only [List.cons.injEq, and_true] at this
    rw [this]; exact hj

theorem VTree.Uni.unique {v : Version} {m : Bool} {t t' : VTree D} {p : List Nibble} (hw : WF p t) (hw' : WF p t') (hu : Uni v m t) (hu' : Uni v m t')
    (he : ∀ e, e ∈ t.entries ↔ e ∈ t'.entries) : t = t' := by
  have hlen : t.entries.length = t'.entries.length :=
    ((List.perm_ext_iff_of_nodup (nodup_of_map _ (entries_nodup hw)) (nodup_of_map _ (entries_nodup hw'))).2 he).length_eq
  induction t generalizing t' p with
  | empty =>
    have : t'.entries = [] := List.length_eq_zero_iff.1 hlen.symm
    exact ((entries_eq_nil hw').1 this).symm
  | leaf v1 k d =>
    have h1 : t'.entries.length = 1 := hlen.symm
    have := (entries_length_one hw').1 h1
    cases t' with
    | empty => cases this
    | node => cases this
    | leaf v2 k' d' =>
      have := (he (k, d)).1 (by simp [entries])
      simp only [entries, List.mem_singleton, Prod.mk.injEq] at this
      obtain ⟨rfl, rfl⟩ := this
      rw [show v1 = v from hu, show v2 = v from hu']
  | node v1 m1 ch ih =>
    have h2 : 2 ≤ t'.entries.length := by rw [← hlen]; exact hw.2
    cases t' with
    | empty => simp [entries] at h2
    | leaf => simp [entries] at h2
    | node v2 m2 ch' =>
      obtain ⟨rfl, rfl, hu1⟩ := hu
      obtain ⟨rfl, rfl, hu2⟩ := hu'
      congr 1
      funext i
      have hi : ∀ e, e ∈ (ch i).entries ↔ e ∈ (ch' i).entries := by
        intro e; rw [mem_child_iff hw, mem_child_iff hw', he]
      exact ih i (hw.1 i) (hw'.1 i) (hu1 i) (hu2 i) hi
        ((List.perm_ext_iff_of_nodup (nodup_of_map _ (entries_nodup (hw.1 i))) (nodup_of_map _ (entries_nodup (hw'.1 i)))).2 hi).length_eq

theorem VTree.create_uni (ver : Version) (m : Bool) (h : Nat) (kvs : List (Key × D)) : Uni ver m (create ver m h kvs) := by
  induction h generalizing kvs with
  | zero =>
    match kvs with
    | [] => trivial
    | [(_, _)] => rfl
    | _ :: _ :: _ => trivial
  | succ h ih =>
    match kvs with
    | [] => trivial
    | [(_, _)] => rfl
    | _ :: _ :: _ => exact ⟨rfl, rfl, fun i => ih _⟩

theorem VTree.Uni.setVersion {v : Version} {m : Bool} {t : VTree D} (h : Uni v m t) : t.setVersion v = t := by
  cases t with
  | empty => rfl
  | leaf => simp only [VTree.setVersion]; rw [show _ = v from h]
  | node => simp only [VTree.setVersion]; rw [show _ = v from h.1]

theorem VTree.Uni.verLe {v : Version} {m : Bool} {t : VTree D} (h : Uni v m t) : VerLe v t := by
  induction t with
  | empty => trivial
  | leaf v' k d => exact Nat.le_of_eq h
  | node v' m' ch ih => exact ⟨Nat.le_of_eq h.1, fun i => ih i (h.2.2 i)⟩

/-- The tree of a single batch. -/
theorem treeAt_single (H : Hasher D) (w : Version) (m : Bool) (P : List (Key × Value)) :
    treeAt H w [.batch m P] w = create w m 64 (hashKvs H P) := by
  unfold treeAt
  rw [List.take_of_length_le (by simp)]
  exact (create_uni w m 64 _).setVersion

/-! ### values -/

theorem lastOf_sorted {P : List (Key × Value)} (hs : P.Pairwise (fun a b => a.1 < b.1)) (k : Key) (x : Value) :
    lastOf P k = some x ↔ (k, x) ∈ P := by
  induction P generalizing x with
  | nil => simp [lastOf]
  | cons e t ih =>
    rw [List.pairwise_cons] at hs
    have ih := ih hs.2
    rw [lastOf, List.mem_cons]
    cases hl : lastOf t k with
    | some y =>
      have h1 : (k, y) ∈ t := (ih y).1 hl
      have hne : (k, x) ≠ e := by
        intro he
        have := hs.1 _ h1
        rw [← he] at this
        exact Key.lt_irrefl _ this
      rw [Option.some_or, ← hl, ih]
      simp [hne]
    | none =>
      have h1 : (k, x) ∉ t := by rw [← ih, hl]; simp
      simp only [Option.none_or, h1, or_false]
      obtain ⟨a, b⟩ := e
      by_cases hk : a = k
      · subst hk; simp [eq_comm]
      · simp [hk, Ne.symm hk]

/-- The value history of a single batch of sorted pairs. -/
theorem histOf_single {P : List (Key × Value)} (hs : P.Pairwise (fun a b => a.1 < b.1)) (w : Version) (m : Bool) {f : Key → Option Value}
    (hf : ∀ k x, (k, x) ∈ P ↔ f k = some x) (k : Key) : histOf w [.batch m P] k = ((f k).map (fun x => (w, some x))).toList := by
  have : lastOf P k = f k := by
    apply Option.ext
    intro x
    rw [lastOf_sorted hs, hf]
  simp only [histOf, List.zipIdx_cons, List.zipIdx_nil, List.filterMap_cons, List.filterMap_nil, Commit.updates, lastOf_map_some, this]
  cases f k <;> rfl

/-! ### what a restore never does: delete a value, mark a node stale -/

/-- Same values and store. -/
def Restore.Same (r r' : Restore D) : Prop := r'.store = r.store ∧ r'.frozenNodes.values = r.frozenNodes.values

theorem Restore.same_refl (r : Restore D) : r.Same r := ⟨rfl, rfl⟩

theorem Restore.Same.trans {r r' r'' : Restore D} (h : r.Same r') (h' : r'.Same r'') : r.Same r'' := ⟨h'.1.trans h.1, h'.2.trans h.2⟩

theorem Res.bind_ok {A B : Type} {x : Res A} {f : A → Res B} {y : B} (h : (x >>= f) = .ok y) : ∃ a, x = .ok a ∧ f a = .ok y := by
  cases x with
  | error e => cases h
  | ok a => exact ⟨a, rfl, h⟩

theorem Restore.freezePreviousLeaf_same {r r' : Restore D} (h : r.freezePreviousLeaf = .ok r') : r.Same r' := by
  unfold Restore.freezePreviousLeaf at h
  split at h
  · cases h; exact r.same_refl
  · split at h
    · cases h
    · split at h
      · cases h
      · split at h
        · obtain ⟨ck, _, h⟩ := Res.bind_ok h
          cases h; exact ⟨rfl, rfl⟩
        · cases h

theorem Restore.freezeInternalNodes_same {H : Hasher D} (n : Nat) {r r' : Restore D} (h : Restore.freezeInternalNodes H n r = .ok r') : r.Same r' := by
  induction n generalizing r with
  | zero => cases h; exact Restore.same_refl _
  | succ n ih =>
    unfold Restore.freezeInternalNodes at h
    split at h
    · cases h
    · obtain ⟨⟨nk, node⟩, _, h⟩ := Res.bind_ok h
      obtain ⟨ps, _, h⟩ := Res.bind_ok h
      have := ih h
      exact ⟨this.1, this.2⟩

theorem Restore.freeze_same {H : Hasher D} {r r' : Restore D} {n : Nat} (h : r.freeze H n = .ok r') : r.Same r' := by
  unfold Restore.freeze at h
  obtain ⟨r1, h1, h⟩ := Res.bind_ok h
  exact (Restore.freezePreviousLeaf_same h1).trans (Restore.freezeInternalNodes_same _ h)

theorem Restore.insertAtLeaf_same {H : Hasher D} {r r' : Restore D} {i : Nibble} {l : LeafNode D} {k : Key} {d : D} {a b : List Nibble}
    (h : r.insertAtLeaf H i l k d a b = .ok r') : r.Same r' := by
  unfold Restore.insertAtLeaf at h
  obtain ⟨⟨vis, ps⟩, _, h⟩ := Res.bind_ok h
  obtain ⟨_, _, h⟩ := Res.bind_ok h
  obtain ⟨r1, h1, h⟩ := Res.bind_ok h
  obtain ⟨_, _, h⟩ := Res.bind_ok h
  have := Restore.freeze_same h1
  cases h
  exact ⟨this.1, this.2⟩

theorem Restore.addOneLoop_same {H : Hasher D} {r r' : Restore D} {k : Key} {d : D} (l : List Nibble) {i : Nat} {vis : List Nibble}
    (h : r.addOneLoop H k d l i vis = .ok r') : r.Same r' := by
  induction l generalizing i vis with
  | nil => cases h; exact r.same_refl
  | cons nib rest ih =>
    unfold Restore.addOneLoop at h
    split at h
    · cases h
    · split at h
      · obtain ⟨_, _, h⟩ := Res.bind_ok h
        exact Restore.insertAtLeaf_same h
      · exact ih h
      · obtain ⟨r1, h1, h⟩ := Res.bind_ok h
        have := Restore.freeze_same h1
        cases h
        exact ⟨this.1, this.2⟩

theorem putValueHistory_some {vh vh' : FMap Key (List (Version × Option Value))} {v : Version} {k : Key} {x : Option Value}
    (h : Store.putValueHistory vh v k x = .ok vh') (hx : x ≠ none) (hh : ∀ k l, vh.get k = some l → ∀ e ∈ l, e.2 ≠ none) :
    ∀ k l, vh'.get k = some l → ∀ e ∈ l, e.2 ≠ none := by
  intro k' l hl e he
  have hset : ∀ l', (∀ e ∈ l', e.2 ≠ none) → vh' = vh.set k l' → e.2 ≠ none := by
    intro l' h1 h2
    rw [h2, FMap.get_set] at hl
    split at hl
    · cases hl; exact h1 e he
    · exact hh k' l hl e he
  have hnew : ∀ l' : List (Version × Option Value), (∀ e ∈ l', e.2 ≠ none) → ∀ e ∈ l' ++ [(v, x)], e.2 ≠ none := by
    intro l' h1 e he
    rcases List.mem_append.1 he with he | he
    · exact h1 e he
    · rw [List.mem_singleton.1 he]; exact hx
  unfold Store.putValueHistory at h
  split at h
  · rename_i l' hl'
    have hold := hh k l' hl'
    split at h
    · split at h
      · cases h
      · split at h
        · exact hset _ (hnew _ (fun e he => hold e (List.dropLast_subset _ he))) (Except.ok.inj h).symm
        · exact hset _ (hnew _ hold) (Except.ok.inj h).symm
    · exact hset _ (hnew _ hold) (Except.ok.inj h).symm
  · exact hset _ (hnew [] (by simp)) (Except.ok.inj h).symm

theorem writeValues_some {l : List ((Version × Key) × Option Value)} {vh vh' : FMap Key (List (Version × Option Value))}
    (h : Store.writeValues l vh = .ok vh') (hx : ∀ e ∈ l, e.2 ≠ none) (hh : ∀ k l, vh.get k = some l → ∀ e ∈ l, e.2 ≠ none) :
    ∀ k l, vh'.get k = some l → ∀ e ∈ l, e.2 ≠ none := by
  induction l generalizing vh with
  | nil => cases h; exact hh
  | cons e t ih =>
    obtain ⟨⟨v, k⟩, x⟩ := e
    simp only [Store.writeValues] at h
    obtain ⟨vh1, h1, h⟩ := Res.bind_ok h
    exact ih h (fun e he => hx e (List.mem_cons_of_mem _ he)) (putValueHistory_some h1 (hx _ List.mem_cons_self) hh)

/-- Values all there and nothing stale, in a store. -/
structure Store.Clean (s : Store D) : Prop where
  hist : ∀ k l, s.valueHistory.get k = some l → ∀ e ∈ l, e.2 ≠ none
  nodup : s.valueHistory.NodupKeys
  stale : s.staleNodes.elems = []

theorem Store.Clean.writeNodeBatch {s s' : Store D} {b : NodeBatch D} (h : s.Clean) (hb : ∀ e ∈ b.values.entries, e.2 ≠ none)
    (hw : s.writeNodeBatch b = .ok s') : s'.Clean := by
  unfold Store.writeNodeBatch at hw
  obtain ⟨nodes, _, hw⟩ := Res.bind_ok hw
  obtain ⟨vh, hv, hw⟩ := Res.bind_ok hw
  cases hw
  exact ⟨writeValues_some hv hb h.hist, writeValues_nodup hv h.nodup, h.stale⟩

/-- Values all there and nothing stale, in a restore. -/
structure Restore.Clean (r : Restore D) : Prop where
  store : r.store.Clean
  pend : ∀ e ∈ r.frozenNodes.values.entries, e.2 ≠ none

theorem Restore.Clean.same {r r' : Restore D} (h : r.Clean) (hs : r.Same r') : r'.Clean :=
  ⟨by rw [hs.1]; exact h.store, by rw [hs.2]; exact h.pend⟩

theorem Restore.Clean.addPair {H : Hasher D} {r r' : Restore D} {k : Key} {x : Value} (h : r.Clean) (ha : r.addPair H k x = .ok r') : r'.Clean := by
  unfold Restore.addPair at ha
  obtain ⟨r1, h1, ha⟩ := Res.bind_ok ha
  have hs := Restore.addOneLoop_same _ h1
  cases ha
  refine ⟨by show r1.store.Clean; rw [hs.1]; exact h.store, ?_⟩
  intro e he
  have he : e ∈ r1.frozenNodes.values.entries := he
  rw [hs.2] at he
  rcases OMap.insertL_mem_fst _ _ _ he with rfl | he
  · simp
  · exact h.pend e he

theorem Restore.Clean.addPairs {H : Hasher D} (chunk : List (Key × Value)) {r r' : Restore D} {out : Option String} (h : r.Clean)
    (ha : r.addPairs H chunk = .ok (r', out)) : r'.Clean := by
  induction chunk generalizing r with
  | nil => cases ha; exact h
  | cons e t ih =>
    unfold Restore.addPairs at ha
    split at ha
    · obtain ⟨r1, h1, ha⟩ := Res.bind_ok ha
      exact ih (h.addPair h1) ha
    · cases ha; exact h

theorem Restore.Clean.addChunk {H : Hasher D} [DecidableEq D] {chunk : List (Key × Value)} {proof : SparseMerkleRangeProof D} {r r' : Restore D}
    {out : Option String} (h : r.Clean) (ha : r.addChunk H chunk proof = .ok (r', out)) : r'.Clean := by
  unfold Restore.addChunk at ha
  split at ha
  · cases ha; exact h
  · split at ha
    · cases ha
    · rename_i h1
      cases ha
      exact h.addPairs _ h1
    · rename_i r1 h1
      have hc := h.addPairs _ h1
      unfold Restore.finishChunk at ha
      split at ha
      · cases ha
      · cases ha; exact hc
      · split at ha
        · cases ha
        · cases ha; exact hc
        · rename_i hw
          cases ha
          exact ⟨hc.store.writeNodeBatch hc.pend hw, by simp [NodeBatch.empty, OMap.empty]⟩

theorem Restore.Clean.addChunks {H : Hasher D} [DecidableEq D] (calls : List (List (Key × Value) × SparseMerkleRangeProof D)) {r r' : Restore D}
    {outs : List (Option String)} (h : r.Clean) (ha : r.addChunks H calls = .ok (r', outs)) : r'.Clean := by
  induction calls generalizing r outs with
  | nil => cases ha; exact h
  | cons c t ih =>
    unfold Restore.addChunks at ha
    obtain ⟨⟨r1, out⟩, h1, ha⟩ := Res.bind_ok ha
    obtain ⟨⟨r2, os⟩, h2, ha⟩ := Res.bind_ok ha
    cases ha
    exact ih (h.addChunk h1) h2

theorem Restore.Clean.new {H : Hasher D} {s : Store D} {v : Version} {root : D} {m : Bool} {r : Restore D} (h : s.Clean)
    (hn : Restore.new H s v root m = .ok r) : r.Clean := by
  have hp : ∀ e ∈ (NodeBatch.empty : NodeBatch D).values.entries, e.2 ≠ none := by simp [NodeBatch.empty, OMap.empty]
  unfold Restore.new at hn
  split at hn
  · obtain ⟨ps, _, hn⟩ := Res.bind_ok hn
    cases hn
    exact ⟨h, hp⟩
  · cases hn
    exact ⟨h, hp⟩

theorem Restore.Clean.finish {H : Hasher D} {r : Restore D} {s : Store D} (h : r.Clean) (hf : r.finish H = .ok s) : s.Clean := by
  unfold Restore.finish at hf
  split at hf
  · obtain ⟨_, _, hf⟩ := Res.bind_ok hf
    exact h.store.writeNodeBatch (b := r.frozenNodes.insertNode _ _) h.pend hf
  · obtain ⟨r1, h1, hf⟩ := Res.bind_ok hf
    have := h.same (Restore.freeze_same h1)
    exact this.store.writeNodeBatch this.pend hf

theorem Store.Clean.sessions {H : Hasher D} [DecidableEq D] {w : Version} {root : D} {m : Bool}
    (cs : List (List (List (Key × Value) × SparseMerkleRangeProof D))) {s s' : Store D} {outs : List (List (Option String))} (h : s.Clean)
    (hs : Restore.sessions H w root m s cs = .ok (s', outs)) : s'.Clean := by
  induction cs generalizing s outs with
  | nil => cases hs; exact h
  | cons c t ih =>
    unfold Restore.sessions at hs
    obtain ⟨r, h1, hs⟩ := Res.bind_ok hs
    obtain ⟨⟨r1, o⟩, h2, hs⟩ := Res.bind_ok hs
    obtain ⟨⟨s1, os⟩, h3, hs⟩ := Res.bind_ok hs
    cases hs
    exact ih ((Restore.Clean.new h h1).addChunks _ h2).store h3

theorem Store.Clean.fresh {s : Store D} (hv : s.valueHistory.entries = []) (hs : s.staleNodes.elems = []) : s.Clean := by
  refine ⟨?_, by rw [FMap.NodupKeys, hv]; exact List.nodup_nil, hs⟩
  intro k l hl
  rw [FMap.get, hv] at hl
  cases hl

/-! ### the store of a finished restore -/

/-- It is the store after one batch of the restored pairs. -/
theorem Live.storeInv {H : Hasher D} {w : Version} {m : Bool} {P : List (Key × Value)} {r : Restore D} {s' : Store D}
    (h : Live H w m P r) (hc : r.Clean) (hP : P ≠ []) (h1 : r.frozenNodes = .empty) (hf : r.finish H = .ok s') :
    StoreInv H w [.batch m P] w s' := by
  obtain ⟨z, hz⟩ := h.nonempty hP
  obtain ⟨s1, t, a1, a2, a3, a4, a5, a6, a7⟩ := hz.finish_exact hP (fun _ => by rw [h1]; rfl)
  rw [hf] at a1
  obtain rfl := Except.ok.inj a1
  have hcl := hc.finish hf
  have hsorted := hz.sorted
  have hu : Under [] (hashKvs H P) := under_hashKvs H P
  have hcs := create_spec w m 64 [] (hashKvs H P) hu rfl
  have ht : treeAt H w [.batch m P] w = t := by
    rw [treeAt_single]
    refine VTree.Uni.unique hcs.1 a2.hold.1 (create_uni w m 64 _) a4 ?_
    intro e
    rw [hcs.2, a3, hashKvs, hashed, List.mem_map, List.mem_map]
    refine exists_congr fun x => and_congr_left fun _ => ?_
    obtain ⟨k, x⟩ := x
    rw [sortDedup_mem, lastOf_sorted hsorted]
  have hne : t ≠ .empty := by
    rintro rfl
    have : hashed H P = [] := a3.symm
    exact hP (List.map_eq_nil_iff.1 this)
  have hone : ∀ u, w ≤ u → u < w + [Commit.batch m P].length → u = w := by
    intro u h1 h2; simp only [List.length_singleton] at h2; omega
  refine ⟨⟨by simp, .inl (by simp), Nat.le_refl _, ?_, ?_, ?_, ?_, ?_, ?_, ?_, ?_, ?_⟩, a6, by rw [hcl.stale]; exact List.nodup_nil, ?_, hcl.nodup⟩
  · intro u h0 h1
    rw [hone u h0 h1, ht]
    exact ⟨a2.hold.1, a4.verLe, fun _ => a2.ver hne⟩
  · intro u h0 h1; simp only [List.length_singleton] at h1; omega
  · intro u h0 h1 v q n hn
    rw [hone u h0 h1, ht, stored_of_ne H hne] at hn
    have := at?_uni a4 hn
    subst this
    exact (a5 _ _).2 ⟨rfl, hn⟩
  · intro v q n hn
    obtain ⟨rfl, hn⟩ := (a5 _ _).1 hn
    refine ⟨Nat.le_refl _, by simp, ?_⟩
    rw [ht, stored_of_ne H hne]; exact hn
  · intro u v q hs
    have : (⟨u, ⟨v, q⟩⟩ : StaleNodeIndex) ∈ s'.staleNodes.elems := hs
    rw [hcl.stale] at this; cases this
  · intro u u' nk hs
    have : (⟨u, nk⟩ : StaleNodeIndex) ∈ s'.staleNodes.elems := hs
    rw [hcl.stale] at this; cases this
  · intro u h0 h1; simp only [List.length_singleton] at h1; omega
  · intro u v i q hs
    have : (⟨u, ⟨v, i :: q⟩⟩ : StaleNodeIndex) ∈ s'.staleNodes.elems := hs
    rw [hcl.stale] at this; cases this
  · intro v i q n hn
    obtain ⟨rfl, hn⟩ := (a5 _ _).1 hn
    refine ⟨v, Nat.le_refl _, by simp, ?_⟩
    rw [ht]; exact hn
  · intro k
    rw [histOf_single hsorted w m (fun k x => (hz.val k x).symm)]
    have hval : s'.getValueOption w k = r.curVal w k := a2.value k
    rw [getValueOption_single (a7 k)] at hval
    rw [← hval]
    unfold vhGet
    cases hg : s'.valueHistory.get k with
    | none => rfl
    | some l =>
      obtain ⟨x, rfl⟩ := a7 k l hg
      have := hcl.hist k _ hg (w, x) (by simp)
      cases x with
      | none => exact absurd rfl this
      | some x => rfl

end Verif.Jmt
