import Verif.Props.JmtFork
import Verif.Props.JmtVersioned
/-! Property C66: updates computed on top of a version that was pruned or never committed. -/

set_option autoImplicit false

namespace Verif.Props
open Verif Verif.Jmt Verif.Spec
variable {D : Type}

/-- The nodes of a committed version `w`, of which a store `s` that pruned may lack some. -/
theorem base_nodes {H : Hasher D} {v0 next : Version} {ops : List Op} {s : Store D} (h : Reached H v0 ops s next) {w : Version}
    (h0 : v0 ≤ w) (h1 : w < next) :
    ∃ ops' s' next', Reached H v0 ops' s' next' ∧ commitsOf ops' = upTo v0 (withoutPurges ops) w ∧ next' = w + 1 ∧
      ∀ nk n, (thin H v0 (upTo v0 (withoutPurges ops) w) (v0 + (upTo v0 (withoutPurges ops) w).length - 1) s').nodes.get nk = some n →
        s'.nodes.get nk = some n ∧ (s.nodes.get nk = some n ∨ s.nodes.get nk = none) := by
  obtain ⟨u, hu, hb⟩ := unpruned h
  have hv := readable_withoutPurges h0 (h.inv.1 ▸ h1)
  obtain ⟨ops', s', next', h', he⟩ := upTo_exists H hu w
  have he' : commitsOf ops' = upTo v0 (withoutPurges ops) w := he
  refine ⟨ops', s', next', h', he', by rw [h'.inv.1, he', upTo_length hv], ?_⟩
  intro nk n hn
  obtain ⟨_, hi'⟩ := h'.inv
  rw [he'] at hi'
  obtain ⟨g1, g2⟩ := thin_within hu hv hi' nk n hn
  refine ⟨g2, ?_⟩
  cases hs : s.nodes.get nk with
  | none => exact .inr rfl
  | some n' =>
    have : u.nodes.get nk = some n' := hb.node nk n' hs
    rw [g1] at this
    exact .inl (by rw [this])

theorem stored_nil_version {H : Hasher D} {w v : Version} {t : VTree D} {n : Node D} (h : t ≠ .empty → t.version = w)
    (hn : VTree.stored H w t v [] = some n) : v = w := by
  by_cases ht : t = .empty
  · subst ht
    simp only [VTree.stored] at hn
    split at hn
    · rename_i hv; exact hv.1
    · cases hn
  · rw [stored_of_ne H ht, VTree.at?_nil H ht] at hn
    split at hn
    · rename_i hv; rw [hv]; exact h ht
    · cases hn

theorem base_contents {v0 : Version} {ops : List Op} {w : Version} :
    contents ((upTo v0 (withoutPurges ops) w).map Commit.updates) = contentsAt v0 ops w := by
  rw [contentsAt_upTo, contentsAt_withoutPurges]

/-- **C66** (the part that holds). An update computed with `put_value_sets` on top of any version whose root hash can still be read gives the
right root hashes, or an error. Required: `Steady`, as in C65. -/
theorem C66_update_partial (H : Hasher D) (v0 next : Version) (ops : List Op) (s : Store D) (h : Reached H v0 ops s next) (w : Version)
    (hw : ∃ root, Tree.getRootHash H s.reader w = .ok root) (m : Bool) (sets : List Tree.ValueSet) (hs : Steady (contentsAt v0 ops w) sets) :
    (∃ e, Tree.putValueSets H m s.reader sets (w + 1) = .error (.err e)) ∨
    ∃ roots b, Tree.putValueSets H m s.reader sets (w + 1) = .ok (roots, b) ∧ roots.length = sets.length ∧
      ∀ i, i < sets.length → ∀ L, Lists H ((sets.take (i + 1)).foldl applyUpdates (contentsAt v0 ops w)) L → roots[i]? = some (smtRoot H L) := by
  obtain ⟨root, hroot⟩ := hw
  have hrn : ∃ n, s.nodes.get ⟨w, []⟩ = some n := by
    cases hn : s.nodes.get ⟨w, []⟩ with
    | some n => exact ⟨n, rfl⟩
    | none =>
      have hn' : s.reader.getNodeOption (.newEmptyPath w) = none := hn
      unfold Tree.getRootHash Tree.getRootNode at hroot
      rw [hn'] at hroot
      cases hroot
  obtain ⟨nr, hnr⟩ := hrn
  have hc : v0 ≤ w ∧ w < next := by
    by_contra hc
    have : s.nodes.get ⟨w, []⟩ = none := uncommitted h hc []
    rw [hnr] at this; cases this
  obtain ⟨ops', s', next', h', he, hn, hnodes⟩ := base_nodes h hc.1 hc.2
  obtain ⟨_, hi'⟩ := h'.inv
  rw [he] at hi'
  have hv := readable_withoutPurges hc.1 (h.inv.1 ▸ hc.2)
  have hne := upTo_ne_nil hv
  have hst : Startable v0 (upTo v0 (withoutPurges ops) w ++ sets.map (.seq m)) := by
    refine Startable.extend (by rw [← he]; exact h'.startable) hne ?_
    intro m s hm
    simp at hm
  have ht := hi'.thin hne
  obtain ⟨roots, b, e1, _⟩ := putValueSets_spec ht m sets hst
  have hs0 : Steady (contents ((upTo v0 (withoutPurges ops) w).map Commit.updates)) sets := by rw [base_contents]; exact hs
  have g1 := putValueSets_more ht hne (r := s'.reader) (fun nk n hn => (hnodes nk n hn).1) m sets hs0 e1
  have g2 := putValueSets_over (L := fun nk => nk.path ≠ []) ht hne (r := s.reader) (fun nk h1 h2 => h2 h1) (by
    intro nk n hn
    rcases (hnodes nk n hn).2 with g | g
    · exact .inl g
    · refine .inr ⟨?_, g⟩
      intro hp
      obtain ⟨v1, q⟩ := nk
      simp only at hp
      subst hp
      have hst : (thin H v0 (upTo v0 (withoutPurges ops) w) (v0 + (upTo v0 (withoutPurges ops) w).length - 1) s').nodes.get ⟨v1, []⟩ = some n := hn
      rw [thin_get] at hst
      split at hst
      · rename_i hst1
        obtain ⟨n', hn'⟩ := Option.isSome_iff_exists.1 hst1
        have hl := upTo_length hv
        have hge : v0 ≤ w := hc.1
        have hv1 : v1 = v0 + (upTo v0 (withoutPurges ops) w).length - 1 := stored_nil_version (ht.inv.tree _ (by omega) (by omega)).2.2 hn'
        have : v1 = w := by omega
        subst this
        rw [hnr] at g; cases g
      · cases hst) m sets hs0 e1
  rw [upTo_length hv] at g1 g2
  rcases g2 with g2 | ⟨_, e, g2⟩
  · refine .inr ⟨roots, b, g2, ?_⟩
    subst hn
    rw [← he] at hst
    obtain ⟨r1, r2⟩ := C01_returned_roots H v0 _ ops' s' h' m sets hst roots b g1
    refine ⟨r1, ?_⟩
    intro i hi L hL
    refine r2 i hi L ?_
    rw [he]
    unfold contents
    rw [List.foldl_append]
    have := base_contents (v0 := v0) (ops := ops) (w := w)
    unfold contents at this
    rw [this]
    exact hL
  · exact .inl ⟨e, g2⟩

theorem foldl_putValue_eq (ver : Version) (kvs : List (Key × Value)) (c : TreeCache D) :
    ∃ vc, kvs.foldl (fun c e => c.putValue ver e.1 (some e.2)) c = { c with valueCache := vc } := by
  induction kvs generalizing c with
  | nil => exact ⟨c.valueCache, rfl⟩
  | cons e kvs ih =>
    obtain ⟨vc, h⟩ := ih (c.putValue ver e.1 (some e.2))
    exact ⟨vc, h⟩

/-- `batch_put_value_sets` on top of a version without a root node is an error. -/
theorem batch_no_root (H : Hasher D) (m : Bool) (r : Reader D) (w : Version) (hn : r.getNodeOption ⟨w, []⟩ = none)
    (sets : List (List (Key × Value))) (h0 : sets ≠ []) (hs : ∀ x ∈ sets, x ≠ []) :
    ∃ e, Tree.batchPutValueSets H m r sets none (w + 1) = .error (.err e) := by
  cases sets with
  | nil => exact absurd rfl h0
  | cons x sets =>
    have hx := hs x (by simp)
    obtain ⟨vc, hvc⟩ := foldl_putValue_eq (w + 1) (Tree.sortDedup x) (TreeCache.new r (w + 1))
    have hnew : (TreeCache.new r (w + 1)).getNode (TreeCache.new r (w + 1)).rootNodeKey = r.getNode ⟨w, []⟩ := by
      unfold TreeCache.new
      rw [if_neg (by omega)]
      rfl
    have hget : r.getNode ⟨w, []⟩ = .error (.err "Missing node") := by
      unfold Reader.getNode
      rw [hn]
    unfold Tree.batchPutValueSets
    simp only [List.map_cons, List.zip_cons_cons, Tree.batchPutSets, Tree.batchPutSet]
    have he : (!x.isEmpty) = true := by simpa using hx
    rw [he, assert_true, hvc]
    simp only [Res.ok_bind]
    have hk : (!((Tree.sortDedup x).map (fun e => (e.1, H.value e.2))).isEmpty) = true := by simpa using sortDedup_ne_nil hx
    unfold Tree.batchInsertAt
    rw [hk, assert_true]
    have hg : (TreeCache.getNode { TreeCache.new r (w + 1) with valueCache := vc } (TreeCache.new r (w + 1)).rootNodeKey) =
      .error (.err "Missing node") := hnew.trans hget
    simp only [Res.ok_bind]
    rw [hg]
    exact ⟨_, rfl⟩

/-- **C66** for `batch_put_value_sets`: on top of any version at all it gives the right root hashes, or an error. -/
theorem C66_batch (H : Hasher D) (v0 next : Version) (ops : List Op) (s : Store D) (h : Reached H v0 ops s next) (w : Version)
    (m : Bool) (sets : List (List (Key × Value))) (h0 : sets ≠ []) (hs : ∀ x ∈ sets, x ≠ []) :
    (∃ e, Tree.batchPutValueSets H m s.reader sets none (w + 1) = .error (.err e)) ∨
    (v0 ≤ w ∧ w < next ∧ ∃ roots b, Tree.batchPutValueSets H m s.reader sets none (w + 1) = .ok (roots, b) ∧ roots.length = sets.length ∧
      ∀ i, i < sets.length → ∀ L, Lists H (((sets.map asInserts).take (i + 1)).foldl applyUpdates (contentsAt v0 ops w)) L →
        roots[i]? = some (smtRoot H L)) := by
  by_cases hc : v0 ≤ w ∧ w < next
  · have hv := readable_withoutPurges hc.1 (h.inv.1 ▸ hc.2)
    obtain ⟨u, hu, hb⟩ := unpruned h
    obtain ⟨roots, b, e1, e2, e3⟩ := C65_batch_roots H v0 next _ u hu w hv m sets hs
    rw [contentsAt_withoutPurges] at e3
    obtain ⟨ops', s', next', h', he, hn, hnodes⟩ := base_nodes h hc.1 hc.2
    obtain ⟨x, g1, g2⟩ := C65_batch_same H v0 next next' _ ops' u s' hu w hv h' he m sets hs
    rw [e1] at g2
    cases g2
    obtain ⟨_, hi'⟩ := h'.inv
    rw [he] at hi'
    have hne := upTo_ne_nil hv
    have hst : Startable v0 (upTo v0 (withoutPurges ops) w ++ sets.map (.batch m)) := by
      refine Startable.extend (by rw [← he]; exact h'.startable) hne ?_
      intro m s hm
      simp only [List.mem_map, Commit.batch.injEq] at hm
      obtain ⟨x, hx, _, rfl⟩ := hm
      exact hs x hx
    obtain ⟨roots', b', f1, _⟩ := batchPutValueSets_spec (hi'.thin hne) m sets hst
    have hv0 : v0 + (upTo v0 (withoutPurges ops) w).length ≠ 0 := by rw [upTo_length hv]; omega
    have f2 := batchPutValueSets_more (r := s'.reader) (fun nk n hn => (hnodes nk n hn).1) hv0 f1
    have f3 := batchPutValueSets_over (L := fun _ => True) (r := s.reader) (fun nk n hn => by
      rcases (hnodes nk n hn).2 with g | g
      · exact .inl g
      · exact .inr ⟨trivial, g⟩) hv0 f1
    rw [upTo_length hv] at f2 f3
    rw [g1] at f2
    cases f2
    rcases f3 with f3 | ⟨_, e, f3⟩
    · exact .inr ⟨hc.1, hc.2, roots, b, f3, e2, e3⟩
    · exact .inl ⟨e, f3⟩
  · exact .inl (batch_no_root H m s.reader w (uncommitted h hc []) sets h0 hs)

/-! #### Where it fails -/

/-- What `put_value_sets` returns at version `ver` after a history. -/
def baseRoots (ops : List Op) (sets : List Tree.ValueSet) (ver : Version) : Option (List Term) :=
  ((runOps termHasher ops (Store.empty, 0)).bind (fun x => Tree.putValueSets termHasher true x.1.reader sets ver)).toOption.map Prod.fst

/-- **C66** fails for `put_value_sets` on a pruned version: it starts from the empty map instead. In `exPruned` version 0 holds a key; an update
on top of it that stores another key returns the root hash of that other key alone, as it would on an empty store, and not the one it returns
where version 0 was not pruned. -/
theorem C66_pruned_false :
    baseRoots exPruned [[(key 2 2, some [2])]] 1 = baseRoots [] [[(key 2 2, some [2])]] 1 ∧
    baseRoots exPruned [[(key 2 2, some [2])]] 1 ≠ baseRoots (withoutPurges exPruned) [[(key 2 2, some [2])]] 1 ∧
    (baseRoots exPruned [[(key 2 2, some [2])]] 1).isSome = true := by
  decide +kernel

/-- **C66** fails for `put_value_sets` on a version that was never committed, in the same way: after version 0, an update at version 5 instead of
1 drops everything that is stored. -/
theorem C66_gap_false :
    baseRoots [.update true [[(key 1 1, some [1])]]] [[(key 2 2, some [2])]] 5 = baseRoots [] [[(key 2 2, some [2])]] 5 ∧
    baseRoots [.update true [[(key 1 1, some [1])]]] [[(key 2 2, some [2])]] 5 ≠
      baseRoots [.update true [[(key 1 1, some [1])]]] [[(key 2 2, some [2])]] 1 ∧
    (baseRoots [.update true [[(key 1 1, some [1])]]] [[(key 2 2, some [2])]] 5).isSome = true := by
  decide +kernel

/-- Two keys; a version that changes nothing; a change; then versions 0 and 1 are pruned. The root node of version 1 stays. -/
def exLeft : List Op := [.update true [[(key 1 1, some [1]), (key 0xF0 0, some [2])], [], [(key 1 1, some [3])]], .purge 2]

theorem exLeft_root (s : Store Term) (next : Version) (h : Reached termHasher 0 exLeft s next) :
    ∃ root, Tree.getRootHash termHasher s.reader 1 = .ok root := by
  have hd : ((runOps termHasher exLeft (Store.empty, 0)).map (fun s => (Tree.getRootHash termHasher s.1.reader 1).isOk)).toOption = some true := by
    decide +kernel
  rw [h.run] at hd
  simp only [Except.map, Except.toOption, Option.some.injEq] at hd
  cases hx : Tree.getRootHash termHasher s.reader 1 with
  | ok root => exact ⟨root, rfl⟩
  | error e => rw [hx] at hd; cases hd

/-- On top of version 1 of `exLeft`, overwriting the key whose leaf was pruned is an error, and deleting it too; another key can be written. -/
theorem exLeft_both :
    baseRoots exLeft [[(key 1 1, some [7])]] 2 = none ∧ baseRoots exLeft [[(key 1 1, none)]] 2 = none ∧
    (baseRoots exLeft [[(key 0xF0 0, some [7])]] 2).isSome = true := by
  decide +kernel

example : ∃ s, Reached termHasher 0 exLeft s 3 ∧ ¬ Readable 0 exLeft 1 ∧
    ((∃ e, Tree.putValueSets termHasher true s.reader [[(key 0xF0 0, some [7])]] 2 = .error (.err e)) ∨
      ∃ roots b, Tree.putValueSets termHasher true s.reader [[(key 0xF0 0, some [7])]] 2 = .ok (roots, b) ∧ roots.length = 1) := by
  obtain ⟨s, h⟩ := Reached.exists (v0 := 0) (ops := exLeft) termHasher ⟨.inl rfl, by simp [exLeft, commitsOf, Op.commits]⟩
  have h : Reached termHasher 0 exLeft s 3 := h
  refine ⟨s, h, ?_, ?_⟩
  · intro hr
    rcases hr.kept with hk | hk
    · have := hk 2 (by simp [exLeft])
      omega
    · revert hk; decide +kernel
  · rcases C66_update_partial _ _ _ _ _ h 1 (exLeft_root s 3 h) true [[(key 0xF0 0, some [7])]] (by
      refine ⟨?_, trivial⟩
      intro a k b hab
      match a with
      | [] => simp at hab
      | _ :: _ => simp at hab) with g | ⟨roots, b, g1, g2, _⟩
    · exact .inl g
    · exact .inr ⟨roots, b, g1, g2⟩

example : ∃ s e, Reached termHasher 0 exPruned s 2 ∧ Tree.batchPutValueSets termHasher true s.reader exBatch none 8 = .error (.err e) := by
  obtain ⟨s, h⟩ := Reached.exists (v0 := 0) (ops := exPruned) termHasher ⟨.inl rfl, by simp [exPruned, commitsOf, Op.commits]⟩
  have h : Reached termHasher 0 exPruned s 2 := h
  rcases C66_batch _ _ _ _ _ h 7 true exBatch (by simp [exBatch]) (by simp [exBatch]) with ⟨e, g⟩ | ⟨_, g, _⟩
  · exact ⟨s, e, h, g⟩
  · omega

end Verif.Props
