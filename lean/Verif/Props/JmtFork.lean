import Verif.Props.JmtMap
import Verif.Props.JmtBatch
import Verif.Proofs.Fork
/-! Property C65: updates computed on top of a version that is not the newest one. -/

set_option autoImplicit false

namespace Verif.Props
open Verif Verif.Jmt Verif.Spec
variable {D : Type}

/-- The part of the history up to version `v`. -/
def upTo (v0 : Version) (ops : List Op) (v : Version) : List Commit := (commitsOf ops).take (v + 1 - v0)

theorem upTo_length {v0 : Version} {ops : List Op} {v : Version} (hv : Readable v0 ops v) : v0 + (upTo v0 ops v).length = v + 1 := by
  have := hv.ge
  have := hv.lt
  rw [upTo, List.length_take]; omega

theorem upTo_ne_nil {v0 : Version} {ops : List Op} {v : Version} (hv : Readable v0 ops v) : upTo v0 ops v ≠ [] := by
  intro h
  have := upTo_length hv
  have := hv.ge
  rw [h] at *
  simp only [List.length_nil] at *
  omega

theorem Startable.extend {v0 : Version} {l l' : List Commit} (h : Startable v0 l) (hne : l ≠ []) (hb : ∀ m s, Commit.batch m s ∈ l' → s ≠ []) :
    Startable v0 (l ++ l') := by
  refine ⟨h.first.imp id (fun h c hc => h c (by cases l with | nil => exact absurd rfl hne | cons a l => exact hc)), ?_⟩
  · intro m s hm
    rcases List.mem_append.1 hm with hm | hm
    · exact h.batches m s hm
    · exact hb m s hm

/-- A store `s` with a readable version `v`, and a store `s'` where `v` is the newest version: they share the nodes of `v`. -/
theorem thin_within {H : Hasher D} {v0 next lo : Version} {ops : List Op} {s s' : Store D} (h : Reached H v0 ops s next) {v : Version}
    (hv : Readable v0 ops v) (h' : StoreInv H v0 (upTo v0 ops v) lo s') (nk : NodeKey) (n : Node D)
    (hn : (thin H v0 (upTo v0 ops v) (v0 + (upTo v0 ops v).length - 1) s').nodes.get nk = some n) :
    s.nodes.get nk = some n ∧ s'.nodes.get nk = some n := by
  have hl := upTo_length hv
  obtain ⟨v1, q⟩ := nk
  rw [thin_get] at hn
  split at hn
  · rename_i hst
    obtain ⟨n', hn'⟩ := Option.isSome_iff_exists.1 hst
    have hlo := h'.inv.loLt
    have hge := hv.ge
    have := h'.inv.nodes _ (by omega) (by omega) _ _ _ hn'
    rw [hn] at this
    cases this
    refine ⟨?_, hn⟩
    obtain ⟨_, hi⟩ := h.inv
    have hf : floorOf ops v0 v0 ≤ v := by
      rcases hv.kept with hk | hk
      · exact floorOf_le ops v0 v0 v hv.ge hk
      · have := hi.inv.loLt
        omega
    apply hi.inv.nodes v hf hv.lt
    have e : v0 + (upTo v0 ops v).length - 1 = v := by omega
    rw [e] at hn'
    have et : treeAt H v0 (upTo v0 ops v) v = treeAt H v0 (commitsOf ops) v := by
      unfold treeAt upTo
      rw [List.take_take, Nat.min_self]
    rw [et] at hn'
    exact hn'
  · cases hn

theorem contentsAt_upTo {v0 : Version} {ops : List Op} {v : Version} :
    contents ((upTo v0 ops v).map Commit.updates) = contentsAt v0 ops v := by
  rw [contentsAt, upTo, List.map_take]

/-- **C65** (the part that holds). An update computed with `put_value_sets` on top of any readable version `v` gives the same root hashes
and the same batch as on a store whose newest version is `v`; the versions after `v` do not matter. Required: no value set deletes a key
after it has itself removed the last one (`Steady`). -/
theorem C65_update_same_partial (H : Hasher D) (v0 next next' : Version) (ops ops' : List Op) (s s' : Store D) (h : Reached H v0 ops s next)
    (v : Version) (hv : Readable v0 ops v) (h' : Reached H v0 ops' s' next') (he : commitsOf ops' = (commitsOf ops).take (v + 1 - v0))
    (m : Bool) (sets : List Tree.ValueSet) (hs : Steady (contentsAt v0 ops v) sets) :
    ∃ x, Tree.putValueSets H m s'.reader sets (v + 1) = .ok x ∧ Tree.putValueSets H m s.reader sets (v + 1) = .ok x := by
  obtain ⟨_, hi'⟩ := h'.inv
  have he' : commitsOf ops' = upTo v0 ops v := he
  rw [he'] at hi'
  have hne := upTo_ne_nil hv
  have hst : Startable v0 (upTo v0 ops v ++ sets.map (.seq m)) := by
    refine Startable.extend (by rw [← he']; exact h'.startable) hne ?_
    intro m s hm
    simp at hm
  have ht := hi'.thin hne
  obtain ⟨roots, b, e1, _⟩ := putValueSets_spec ht m sets hst
  have hs0 : Steady (contents ((upTo v0 ops v).map Commit.updates)) sets := by rw [contentsAt_upTo]; exact hs
  have g1 := putValueSets_more ht hne (r := s'.reader) (fun nk n hn => (thin_within h hv hi' nk n hn).2) m sets hs0 e1
  have g2 := putValueSets_more ht hne (r := s.reader) (fun nk n hn => (thin_within h hv hi' nk n hn).1) m sets hs0 e1
  rw [upTo_length hv] at g1 g2
  exact ⟨_, g1, g2⟩

/-- There is a store whose newest version is `v`. -/
theorem upTo_exists (H : Hasher D) {v0 next : Version} {ops : List Op} {s : Store D} (h : Reached H v0 ops s next) (v : Version) :
    ∃ ops' s' next', Reached H v0 ops' s' next' ∧ commitsOf ops' = (commitsOf ops).take (v + 1 - v0) := by
  have hop : ∀ l : List Commit, ∃ ops', commitsOf ops' = l := by
    intro l
    induction l with
    | nil => exact ⟨[], rfl⟩
    | cons c l ih =>
      obtain ⟨ops', e⟩ := ih
      cases c with
      | seq m s => exact ⟨.update m [s] :: ops', by rw [← e]; rfl⟩
      | batch m s => exact ⟨.batch m [s] :: ops', by rw [← e]; rfl⟩
  obtain ⟨ops', e⟩ := hop ((commitsOf ops).take (v + 1 - v0))
  have hs : Startable v0 (commitsOf ops') := by
    have := h.startable
    rw [← List.take_append_drop (v + 1 - v0) (commitsOf ops)] at this
    rw [e]
    exact Startable.prefix this
  obtain ⟨s', h'⟩ := Reached.exists H hs
  exact ⟨ops', s', _, h', e⟩

/-- **C65** (the part that holds). The root hashes of an update computed on top of any readable version `v` are the sparse Merkle roots of the
contents of `v` with the value sets applied. -/
theorem C65_update_roots_partial (H : Hasher D) (v0 next : Version) (ops : List Op) (s : Store D) (h : Reached H v0 ops s next)
    (v : Version) (hv : Readable v0 ops v) (m : Bool) (sets : List Tree.ValueSet) (hs : Steady (contentsAt v0 ops v) sets) :
    ∃ roots b, Tree.putValueSets H m s.reader sets (v + 1) = .ok (roots, b) ∧ roots.length = sets.length ∧
      ∀ i, i < sets.length → ∀ L, Lists H ((sets.take (i + 1)).foldl applyUpdates (contentsAt v0 ops v)) L → roots[i]? = some (smtRoot H L) := by
  obtain ⟨ops', s', next', h', he⟩ := upTo_exists H h v
  obtain ⟨⟨roots, b⟩, e1, e2⟩ := C65_update_same_partial H v0 next next' ops ops' s s' h v hv h' he m sets hs
  have hst : Startable v0 (commitsOf ops' ++ sets.map (.seq m)) := by
    refine Startable.extend h'.startable (by rw [he]; exact upTo_ne_nil hv) ?_
    intro m s hm
    simp at hm
  have hn : next' = v + 1 := by
    have := upTo_length hv
    rw [h'.inv.1, he]; exact this
  subst hn
  obtain ⟨r1, r2⟩ := C01_returned_roots H v0 _ ops' s' h' m sets hst roots b e1
  refine ⟨roots, b, e2, r1, ?_⟩
  intro i hi L hL
  refine r2 i hi L ?_
  rw [he]
  unfold contents
  rw [List.foldl_append, List.map_take]
  exact hL

/-- **C65** for `batch_put_value_sets`, without conditions on what the sets do: the same root hashes and the same batch as on a store whose
newest version is `v`. -/
theorem C65_batch_same (H : Hasher D) (v0 next next' : Version) (ops ops' : List Op) (s s' : Store D) (h : Reached H v0 ops s next)
    (v : Version) (hv : Readable v0 ops v) (h' : Reached H v0 ops' s' next') (he : commitsOf ops' = (commitsOf ops).take (v + 1 - v0))
    (m : Bool) (sets : List (List (Key × Value))) (hs : ∀ x ∈ sets, x ≠ []) :
    ∃ x, Tree.batchPutValueSets H m s'.reader sets none (v + 1) = .ok x ∧ Tree.batchPutValueSets H m s.reader sets none (v + 1) = .ok x := by
  obtain ⟨_, hi'⟩ := h'.inv
  have he' : commitsOf ops' = upTo v0 ops v := he
  rw [he'] at hi'
  have hne := upTo_ne_nil hv
  have hst : Startable v0 (upTo v0 ops v ++ sets.map (.batch m)) := by
    refine Startable.extend (by rw [← he']; exact h'.startable) hne ?_
    intro m s hm
    simp only [List.mem_map, Commit.batch.injEq] at hm
    obtain ⟨x, hx, _, rfl⟩ := hm
    exact hs x hx
  have ht := hi'.thin hne
  obtain ⟨roots, b, e1, _⟩ := batchPutValueSets_spec ht m sets hst
  have hv0 : v0 + (upTo v0 ops v).length ≠ 0 := by rw [upTo_length hv]; omega
  have g1 := batchPutValueSets_more (r := s'.reader) (fun nk n hn => (thin_within h hv hi' nk n hn).2) hv0 e1
  have g2 := batchPutValueSets_more (r := s.reader) (fun nk n hn => (thin_within h hv hi' nk n hn).1) hv0 e1
  rw [upTo_length hv] at g1 g2
  exact ⟨_, g1, g2⟩

/-- **C65** for `batch_put_value_sets`: the root hashes are the sparse Merkle roots of the contents of `v` with the value sets applied. -/
theorem C65_batch_roots (H : Hasher D) (v0 next : Version) (ops : List Op) (s : Store D) (h : Reached H v0 ops s next)
    (v : Version) (hv : Readable v0 ops v) (m : Bool) (sets : List (List (Key × Value))) (hs : ∀ x ∈ sets, x ≠ []) :
    ∃ roots b, Tree.batchPutValueSets H m s.reader sets none (v + 1) = .ok (roots, b) ∧ roots.length = sets.length ∧
      ∀ i, i < sets.length → ∀ L, Lists H (((sets.map asInserts).take (i + 1)).foldl applyUpdates (contentsAt v0 ops v)) L →
        roots[i]? = some (smtRoot H L) := by
  obtain ⟨ops', s', next', h', he⟩ := upTo_exists H h v
  obtain ⟨⟨roots, b⟩, e1, e2⟩ := C65_batch_same H v0 next next' ops ops' s s' h v hv h' he m sets hs
  have hne : commitsOf ops' ≠ [] := by rw [he]; exact upTo_ne_nil hv
  have hst : Startable v0 (commitsOf ops' ++ sets.map (.batch m)) := by
    refine Startable.extend h'.startable hne ?_
    intro m s hm
    simp only [List.mem_map, Commit.batch.injEq] at hm
    obtain ⟨x, hx, _, rfl⟩ := hm
    exact hs x hx
  have hst' : Startable v0 (commitsOf ops' ++ (sets.map asInserts).map (.seq m)) := by
    refine Startable.extend h'.startable hne ?_
    intro m s hm
    simp at hm
  have hn : next' = v + 1 := by
    have := upTo_length hv
    rw [h'.inv.1, he]; exact this
  subst hn
  obtain ⟨roots', b1, b2, f1, f2⟩ := C10_batch_roots_partial H v0 _ ops' s' h' m m sets hst
  rw [f1] at e1
  cases e1
  obtain ⟨r1, r2⟩ := C01_returned_roots H v0 _ ops' s' h' m (sets.map asInserts) hst' roots b2 f2
  refine ⟨roots, b, e2, by simpa using r1, ?_⟩
  intro i hi L hL
  refine r2 i (by simpa using hi) L ?_
  rw [he]
  unfold contents
  rw [List.foldl_append, List.map_take]
  exact hL

/-! #### Where it fails -/

/-- Two versions, each with one new key. -/
def exFork : List Op := [.update true [[(key 1 1, some [1])], [(key 2 2, some [2])]]]

/-- What `put_value_sets` returns on top of version 0 of a history. -/
def forkRoots (ops : List Op) (sets : List Tree.ValueSet) : Option (List Term) :=
  ((runOps termHasher ops (Store.empty, 0)).bind (fun x => Tree.putValueSets termHasher true x.1.reader sets 1)).toOption.map Prod.fst

/-- **C65** fails without the condition. A value set that deletes the only key of version 0 twice leaves nothing, yet the root hash returned for it
is the one of version 1, which is stored already. Where version 0 is the newest version, or when the key is deleted once, the root hash of the
empty map is returned. -/
theorem C65_update_false :
    forkRoots exFork [[(key 1 1, none), (key 1 1, none)]] = forkRoots exFork [[(key 2 2, some [2])]] ∧
    forkRoots exFork [[(key 1 1, none), (key 1 1, none)]] ≠ some [termHasher.placeholder] ∧
    forkRoots [.update true [[(key 1 1, some [1])]]] [[(key 1 1, none), (key 1 1, none)]] = some [termHasher.placeholder] ∧
    forkRoots exFork [[(key 1 1, none)]] = some [termHasher.placeholder] := by
  decide +kernel

theorem exFork_startable : Startable 0 (commitsOf exFork) := ⟨.inl rfl, by simp [exFork, commitsOf, Op.commits]⟩

theorem exFork_readable : Readable 0 exFork 0 := ⟨by decide, by decide, .inl (by simp [exFork])⟩

/-- Two sets on top of version 0: one removes the key and stores another, one removes that and stops. -/
def exSteady : List Tree.ValueSet := [[(key 1 1, none), (key 3 3, some [3])], [(key 3 3, none)]]

theorem exSteady_steady : Steady (contentsAt 0 exFork 0) exSteady := by
  refine ⟨?_, ?_, trivial⟩
  · intro a k b h
    match a with
    | [] => exact .inl ⟨key 1 1, [1], by decide +kernel⟩
    | [_] => simp at h
    | _ :: _ :: _ => simp at h
  · intro a k b h
    match a with
    | [] => exact .inl ⟨key 3 3, [3], by decide +kernel⟩
    | _ :: _ => simp at h

example : ∃ s roots b, Reached termHasher 0 exFork s 2 ∧ Tree.putValueSets termHasher true s.reader exSteady 1 = .ok (roots, b) ∧
    roots[1]? = some termHasher.placeholder := by
  obtain ⟨s, h⟩ := Reached.exists termHasher exFork_startable
  obtain ⟨roots, b, e1, _, e3⟩ := C65_update_roots_partial _ _ _ _ _ h 0 exFork_readable true exSteady exSteady_steady
  refine ⟨s, roots, b, h, e1, e3 1 (by decide) [] ?_⟩
  refine ⟨List.nodup_nil, fun k d => ?_⟩
  have : ∀ k, ((exSteady.take 2).foldl applyUpdates (contentsAt 0 exFork 0)) k = none := by
    intro k
    simp only [exSteady, contentsAt, exFork, commitsOf, Op.commits, contents, applyUpdates, Commit.updates, List.flatMap_cons, List.flatMap_nil,
      List.map_cons, List.map_nil, List.append_nil, List.take_succ_cons, List.take_zero, List.foldl_cons, List.foldl_nil, Nat.sub_zero]
    by_cases h1 : k = key 1 1 <;> by_cases h3 : k = key 3 3 <;> simp [h1, h3]
  rw [this]
  simp

example : ∃ s roots b, Reached termHasher 0 exFork s 2 ∧ Tree.batchPutValueSets termHasher true s.reader exBatch none 1 = .ok (roots, b) ∧
    roots.length = 2 := by
  obtain ⟨s, h⟩ := Reached.exists termHasher exFork_startable
  obtain ⟨roots, b, e1, e2, _⟩ := C65_batch_roots _ _ _ _ _ h 0 exFork_readable true exBatch (by simp [exBatch])
  exact ⟨s, roots, b, h, e1, e2⟩

end Verif.Props
