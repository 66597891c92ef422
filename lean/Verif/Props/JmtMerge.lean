import Verif.Proofs.Merge
import Verif.Props.Examples
import Verif.Props.JmtIcs23
/-! Properties C89 to C91: merged batches, `put_leaf` and key preimages. -/

set_option autoImplicit false

namespace Verif.Props
open Verif Verif.Jmt Verif.Spec Verif.Ics23
variable {D : Type}

/-- Batches that can be made: `default`, the insertions, `extend`, `merge` and `clear`. -/
inductive MadeBatch : NodeBatch D → Prop
  | empty : MadeBatch .empty
  | node {b : NodeBatch D} (nk : NodeKey) (n : Node D) : MadeBatch b → MadeBatch (b.insertNode nk n)
  | value {b : NodeBatch D} (v : Version) (k : Key) (x : Value) : MadeBatch b → MadeBatch (b.insertValue v k x)
  | extend {b : NodeBatch D} (ns : List (NodeKey × Node D)) (vs : List ((Version × Key) × Option Value)) : MadeBatch b → MadeBatch (b.extend ns vs)
  | merge {b c : NodeBatch D} : MadeBatch b → MadeBatch c → MadeBatch (b.merge c)
  | clear {b : NodeBatch D} : MadeBatch b → MadeBatch b.clear

theorem MadeBatch.ok {b : NodeBatch D} (h : MadeBatch b) : b.Ok := by
  induction h with
  | empty => exact ⟨FMap.nodupKeys_empty, List.Pairwise.nil⟩
  | node nk n _ ih => exact ⟨ih.nodes.set nk n, ih.values⟩
  | value v k x _ ih => exact ⟨ih.nodes, OMap.sorted_insertL valueKeyLt_strict _ _ _ ih.values⟩
  | extend ns vs _ ih => exact ⟨ih.nodes.extend ns, OMap.sorted_extend valueKeyLt_strict vs _ ih.values⟩
  | merge _ _ ih _ => exact ih.merge
  | clear _ _ => exact ⟨FMap.nodupKeys_empty, List.Pairwise.nil⟩

/-- **C89.** `merge` holds the nodes and the values of both batches, those of the argument where both have one; a cleared batch holds
nothing; `is_empty` says whether there is anything. -/
theorem C89_contents (b c : NodeBatch D) (hb : MadeBatch b) (hc : MadeBatch c) :
    (∀ nk, (b.merge c).getNode nk = (c.getNode nk).or (b.getNode nk)) ∧
    (∀ v k, (b.merge c).values.get (v, k) = (c.values.get (v, k)).or (b.values.get (v, k))) ∧
    (∀ nk, b.clear.getNode nk = none) ∧ (∀ v k, b.clear.values.get (v, k) = none) ∧
    (b.isEmpty = true ↔ (∀ nk, b.getNode nk = none) ∧ ∀ v k, b.values.get (v, k) = none) := by
  refine ⟨fun nk => FMap.get_extend _ _ hc.ok.nodes nk, fun v k => ?_, fun _ => rfl, fun _ _ => rfl, ?_⟩
  · exact OMap.get_extend valueKeyLt_strict _ _ hb.ok.values (OMap.sorted_nodup valueKeyLt_strict hc.ok.values) (v, k)
  · unfold NodeBatch.isEmpty
    rw [Bool.and_eq_true, FMap.isEmpty_iff]
    refine and_congr Iff.rfl ?_
    have := FMap.isEmpty_iff (⟨b.values.entries⟩ : FMap (Version × Key) (Option Value))
    constructor
    · intro h v k; exact this.1 h (v, k)
    · intro h; exact this.2 (fun x => h x.1 x.2)

/-- **C89.** Where one batch can be written and then another, the merged batch can be written, and the store then holds the same.
Partial: where one of them is refused, the merged batch need not be (`C89_refused_false`). -/
theorem C89_write_partial (s s1 s2 : Store D) (b c : NodeBatch D) (hb : MadeBatch b) (hc : MadeBatch c) (e1 : s.writeNodeBatch b = .ok s1)
    (e2 : s1.writeNodeBatch c = .ok s2) : ∃ s', s.writeNodeBatch (b.merge c) = .ok s' ∧ s'.Agrees s2 :=
  writeNodeBatch_merge hb.ok hc.ok e1 e2

/-- **C89.** Computing any updates without writing them, each through the batch collected so far, and writing the merged batch
at the end, is possible wherever the updates could be written one by one, and leads to a store that holds the same; what the caller's
reader answers about values makes no difference. -/
theorem C89_collected (H : Hasher D) (v0 next next2 : Version) (ops more : List Op) (s t : Store D) (h : Reached H v0 ops s next)
    (h2 : Reached H v0 (ops ++ more) t next2) (hno : ∀ m, Op.purge m ∉ more) (vals : Version → Key → Option Value) :
    ∃ b s', collect H s vals more (⟨.empty, .empty, []⟩, next) = .ok (b, next2) ∧ s.writeTreeUpdateBatch b = .ok s' ∧ s'.Agrees t ∧
      s'.reader = t.reader := by
  obtain ⟨rfl, hi⟩ := h.inv
  have hco : commitsOf (ops ++ more) = commitsOf ops ++ commitsOf more := by simp [commitsOf]
  have hs := h2.startable
  rw [hco] at hs
  obtain ⟨b, s', t', e1, e2, e3, e4⟩ := collect_spec vals more hno (b := ⟨.empty, .empty, []⟩) (sA := s)
    ⟨FMap.nodupKeys_empty, List.Pairwise.nil⟩ rfl (Store.Agrees.refl s) hi hs.resumable
  have hrun : runOps H (ops ++ more) (Store.empty, v0) = .ok (t', v0 + (commitsOf ops ++ commitsOf more).length) := by
    have happ : ∀ (a : List Op) (st st' : Store D × Version), runOps H a st = .ok st' → runOps H (a ++ more) st = runOps H more st' := by
      intro a
      induction a with
      | nil => intro st st' h; cases h; rfl
      | cons op a ih =>
        intro st st' h
        simp only [runOps] at h
        obtain ⟨st1, h1, h2⟩ := Res.bind_ok h
        simp only [List.cons_append, runOps, h1, Res.ok_bind]
        exact ih _ _ h2
    rw [happ _ _ _ h.run]
    exact e3
  rw [h2.run] at hrun
  simp only [Except.ok.injEq, Prod.mk.injEq] at hrun
  obtain ⟨rfl, rfl⟩ := hrun
  exact ⟨b, s', e1, e2, e4, e4.reader⟩

/-- A batch with one value and nothing else. -/
def oneValue (v : Version) (k : Key) (x : Value) : NodeBatch D := NodeBatch.empty.insertValue v k x

/-- A batch with one node and nothing else. -/
def oneNode (nk : NodeKey) (n : Node D) : NodeBatch D := NodeBatch.empty.insertNode nk n

/-- **C89** is false in the other direction: `merge` hides that the second batch would have been refused, be it that it holds an older
value or that it holds a node written already. -/
theorem C89_refused_false (k : Key) (x y : Value) (n n' : Node D) (nk : NodeKey) :
    ∃ s1 : Store D, Store.empty.writeNodeBatch (oneValue 2 k x) = .ok s1 ∧
      s1.writeNodeBatch (oneValue 1 k y) = .error (.err "values must be pushed in order") ∧
      (∃ s', (Store.empty : Store D).writeNodeBatch ((oneValue 2 k x).merge (oneValue 1 k y)) = .ok s' ∧
        s'.getValueOption 1 k = some y ∧ s'.getValueOption 2 k = some x) ∧
    ∃ s1 : Store D, Store.empty.writeNodeBatch (oneNode nk n) = .ok s1 ∧
      (∃ e, s1.writeNodeBatch (oneNode nk n') = .error (.panic e)) ∧
      ∃ s', (Store.empty : Store D).writeNodeBatch ((oneNode nk n).merge (oneNode nk n')) = .ok s' ∧ s'.nodes.get nk = some n' := by
  have hlt : valueKeyLt (1, k) (2, k) = true := by simp [valueKeyLt]
  refine ⟨_, rfl, ?_, ⟨⟨.empty, .empty, ⟨[(k, [(1, some y), (2, some x)])]⟩, false⟩, ?_, ?_, ?_⟩, ⟨⟨[(nk, n)]⟩, .empty, .empty, false⟩, ?_, ?_, ?_⟩
  · simp [Store.writeNodeBatch, oneValue, NodeBatch.insertValue, NodeBatch.empty, Store.writeNodes, Store.writeValues, OMap.insert, OMap.insertL,
      OMap.empty, FMap.empty, Store.putValueHistory, Store.empty, FMap.set, FMap.get, FMap.lookupL, FMap.erase, Res.ok_bind, Res.error_bind, pure, Except.pure]
  · simp [NodeBatch.merge, NodeBatch.extend, OMap.extend, FMap.extend, Store.writeNodeBatch, oneValue, NodeBatch.insertValue, NodeBatch.empty,
      Store.writeNodes, Store.writeValues, OMap.insert, OMap.insertL, hlt,
      OMap.empty, FMap.empty, Store.putValueHistory, Store.empty, FMap.set, FMap.get, FMap.lookupL, FMap.erase, Res.ok_bind, pure, Except.pure]
  · simp [Store.getValueOption, FMap.get, FMap.lookupL]
  · simp [Store.getValueOption, FMap.get, FMap.lookupL]
  · rfl
  · exact ⟨"assertion failed: replaced == None", by
      simp [Store.writeNodeBatch, oneNode, NodeBatch.insertNode, NodeBatch.empty, Store.writeNodes, FMap.empty, FMap.set, FMap.get,
        FMap.lookupL, FMap.erase, assert, Res.error_bind]⟩
  · refine ⟨⟨⟨[(nk, n')]⟩, .empty, .empty, false⟩, ?_, by simp [FMap.get, FMap.lookupL]⟩
    simp [NodeBatch.merge, NodeBatch.extend, OMap.extend, FMap.extend, Store.writeNodeBatch, oneNode, NodeBatch.insertNode, NodeBatch.empty,
      Store.writeNodes, Store.writeValues, Store.empty, FMap.empty, OMap.empty, FMap.set, FMap.get, FMap.lookupL, FMap.erase, assert, Res.ok_bind, pure, Except.pure]

/-- Two updates of different keys collected and written at once, on a store with three versions behind it. -/
example : ∃ s t b s', Reached termHasher 0 exOps s 3 ∧
    Reached termHasher 0 (exOps ++ [.update true [[(key 5 5, some [1])], []], .batch true [[(key 1 2, [9])]]]) t 6 ∧
    collect termHasher s (fun _ _ => none) [.update true [[(key 5 5, some [1])], []], .batch true [[(key 1 2, [9])]]] (⟨.empty, .empty, []⟩, 3) =
      .ok (b, 6) ∧ s.writeTreeUpdateBatch b = .ok s' ∧ s'.reader = t.reader := by
  obtain ⟨s, hs⟩ := exOps_reached
  obtain ⟨t, ht⟩ := Reached.exists termHasher (v0 := 0) (ops := exOps ++ [.update true [[(key 5 5, some [1])], []], .batch true [[(key 1 2, [9])]]])
    ⟨.inl rfl, by simp [exOps, commitsOf, Op.commits]⟩
  obtain ⟨b, s', e1, e2, _, e3⟩ := C89_collected termHasher 0 3 6 exOps _ s t hs ht (by simp) (fun _ _ => none)
  exact ⟨s, t, b, s', hs, ht, e1, e2, e3⟩

/-- Two batches with a node and values each, the second one replacing a value of the first one's version. -/
example : ∃ s1 s2 s' : Store Term, let b := (oneNode ⟨1, []⟩ .null).merge (oneValue 1 (key 1 1) [1])
    let c := (oneNode ⟨2, []⟩ .null).merge ((oneValue 1 (key 1 1) [2]).merge (oneValue 2 (key 1 1) [3]))
    Store.empty.writeNodeBatch b = .ok s1 ∧ s1.writeNodeBatch c = .ok s2 ∧ Store.empty.writeNodeBatch (b.merge c) = .ok s' ∧ s'.Agrees s2 ∧
      s2.getValueOption 1 (key 1 1) = some [2] ∧ s2.nodes.get ⟨2, []⟩ = some .null := by
  let b : NodeBatch Term := (oneNode ⟨1, []⟩ .null).merge (oneValue 1 (key 1 1) [1])
  let c : NodeBatch Term := (oneNode ⟨2, []⟩ .null).merge ((oneValue 1 (key 1 1) [2]).merge (oneValue 2 (key 1 1) [3]))
  have hb : MadeBatch b := .merge (.node _ _ .empty) (.value _ _ _ .empty)
  have hc : MadeBatch c := .merge (.node _ _ .empty) (.merge (.value _ _ _ .empty) (.value _ _ _ .empty))
  have e1 : (Store.empty : Store Term).writeNodeBatch b = .ok ⟨⟨[(⟨1, []⟩, .null)]⟩, .empty, ⟨[(key 1 1, [(1, some [1])])]⟩, false⟩ := by rfl
  have e2 : (⟨⟨[(⟨1, []⟩, .null)]⟩, .empty, ⟨[(key 1 1, [(1, some [1])])]⟩, false⟩ : Store Term).writeNodeBatch c =
      .ok ⟨⟨[(⟨2, []⟩, .null), (⟨1, []⟩, .null)]⟩, .empty, ⟨[(key 1 1, [(1, some [2]), (2, some [3])])]⟩, false⟩ := by rfl
  obtain ⟨s', e3, e4⟩ := C89_write_partial _ _ _ b c hb hc e1 e2
  exact ⟨_, _, s', e1, e2, e3, e4, by decide +kernel, by rfl⟩

/-! `put_leaf` -/

/-- **C90.** `put_leaf` succeeds if and only if no node has this key and the newest value of the leaf's key is not of a later version. -/
theorem C90_when (s : Store D) (nk : NodeKey) (leaf : LeafNode D) (x : Value) :
    (s.putLeaf nk leaf x).2 = .ok () ↔
      s.nodes.get nk = none ∧ ∀ e, ((s.valueHistory.get leaf.keyHash).bind List.getLast?) = some e → e.1 ≤ nk.version := by
  cases hn : s.nodes.get nk with
  | some n => simp [Store.putLeaf, hn]
  | none =>
    cases hh : s.valueHistory.get leaf.keyHash with
    | none => simp [Store.putLeaf, hn, Store.putValueHistory, hh]
    | some l =>
      cases hl : l.getLast? with
      | none => simp [Store.putLeaf, hn, Store.putValueHistory, hh, hl]
      | some e =>
        obtain ⟨v, y⟩ := e
        simp only [Store.putLeaf, hn, Store.putValueHistory, hh, hl, Option.bind_some, Option.some.injEq, forall_eq', true_and]
        by_cases h1 : nk.version < v
        · simp only [if_pos h1, reduceCtorEq, false_iff]; omega
        · simp only [if_neg h1]
          by_cases h2 : nk.version = v
          · simp only [if_pos h2, true_iff]; omega
          · simp only [if_neg h2, true_iff]; omega

/-- **C90.** What `put_leaf` stores: the leaf under its node key, and the value for the leaf's key from the version of the node key on;
nothing else changes. -/
theorem C90_stored (s : Store D) (nk : NodeKey) (leaf : LeafNode D) (x : Value) (h : (s.putLeaf nk leaf x).2 = .ok ()) :
    (∀ nk', (s.putLeaf nk leaf x).1.reader.getNodeOption nk' = if nk' = nk then some (.leaf leaf) else s.reader.getNodeOption nk') ∧
    (∀ w k, (s.putLeaf nk leaf x).1.reader.getValueOption w k =
      if k = leaf.keyHash ∧ nk.version ≤ w then some x else s.reader.getValueOption w k) ∧
    (s.putLeaf nk leaf x).1.staleNodes = s.staleNodes ∧ (s.putLeaf nk leaf x).1.allowOverwrite = s.allowOverwrite := by
  unfold Store.putLeaf at h ⊢
  cases hn : s.nodes.get nk with
  | some n => rw [hn] at h; cases h
  | none =>
    rw [hn] at h
    simp only at h ⊢
    have hp := putValueHistory_push s.valueHistory nk.version leaf.keyHash (some x)
    cases hq : push (vhGet s.valueHistory leaf.keyHash) (nk.version, some x) with
    | none => rw [hq] at hp; simp only at hp; rw [hp] at h; cases h
    | some g =>
      rw [hq] at hp
      obtain ⟨vh, e1, e2, e3⟩ := hp
      rw [e1]
      refine ⟨fun nk' => FMap.get_set _ _ _ _, ?_, rfl, rfl⟩
      intro w k
      show Store.getValueOption _ w k = if _ then _ else Store.getValueOption _ w k
      rw [getValueOption_eq, getValueOption_eq]
      show ((vhGet vh k).reverse.find? _).bind _ = _
      by_cases hk : k = leaf.keyHash
      · subst hk
        rw [e2]
        -- the history without a last entry of this version
        have hg : ∃ a, g = a ++ [(nk.version, some x)] ∧ (a = vhGet s.valueHistory leaf.keyHash ∨
            ∃ y, a ++ [(nk.version, y)] = vhGet s.valueHistory leaf.keyHash) := by
          unfold push at hq
          split at hq
          · rename_i l hl
            split at hq
            · cases hq
            · split at hq
              · rename_i hv
                cases hq
                refine ⟨_, rfl, .inr ⟨l.2, ?_⟩⟩
                simp only at hv
                rw [hv]
                obtain ⟨ys, hys⟩ := List.getLast?_eq_some_iff.1 hl
                rw [hys, List.dropLast_concat]
              · cases hq; exact ⟨_, rfl, .inl rfl⟩
          · cases hq; exact ⟨_, rfl, .inl rfl⟩
        obtain ⟨a, rfl, ha⟩ := hg
        rw [List.reverse_append]
        by_cases hw : nk.version ≤ w
        · simp [hw]
        · simp only [hw, and_false, if_false, List.reverse_singleton, List.singleton_append]
          rw [List.find?_cons_of_neg (by simpa using hw)]
          rcases ha with rfl | ⟨y, hy⟩
          · rfl
          · rw [← hy, List.reverse_append]
            simp only [List.reverse_singleton, List.singleton_append]
            rw [List.find?_cons_of_neg (by simpa using hw)]
      · simp only [hk, false_and, if_false]
        rw [e3 k hk]

/-- **C90.** A leaf put at the root of a version is the tree of that version: the root hash is the one of the map with this key only, and
every key is answered with a proof that verifies. -/
theorem C90_root [DecidableEq D] (H : Hasher D) (s : Store D) (v : Version) (k : Key) (x : Value)
    (h : (s.putLeaf ⟨v, []⟩ ⟨k, H.value x⟩ x).2 = .ok ()) (k' : Key) :
    Tree.getRootHash H (s.putLeaf ⟨v, []⟩ ⟨k, H.value x⟩ x).1.reader v = .ok (smtRoot H [(k, H.value x)]) ∧
    ∃ p, Tree.getWithProof H (s.putLeaf ⟨v, []⟩ ⟨k, H.value x⟩ x).1.reader k' v = .ok (if k' = k then some x else none, p) ∧
      p.verify H (smtRoot H [(k, H.value x)]) k' (if k' = k then some x else none) = .ok () := by
  obtain ⟨h1, h2, _⟩ := C90_stored s ⟨v, []⟩ ⟨k, H.value x⟩ x h
  generalize (s.putLeaf ⟨v, []⟩ ⟨k, H.value x⟩ x).1.reader = r at h1 h2 ⊢
  have hn : r.getNodeOption (.newEmptyPath v) = some (.leaf ⟨k, H.value x⟩) := by rw [h1]; exact if_pos rfl
  have hr : smtRoot H [(k, H.value x)] = H.leaf k (H.value x) := by simp [smtRoot, smt]
  rw [hr]
  refine ⟨?_, ?_⟩
  · unfold Tree.getRootHash Tree.getRootNode
    rw [hn]; rfl
  · unfold Tree.getWithProof Tree.getWithProofLoop
    rw [hn]
    simp only
    by_cases hk : k' = k
    · subst hk
      rw [if_pos rfl, h2, if_pos ⟨rfl, Nat.le_refl _⟩]
      simp only [if_true]
      refine ⟨_, rfl, ?_⟩
      simp [SparseMerkleProof.verify, SparseMerkleProof.checkLeaf, SparseMerkleProof.foldUp, SparseMerkleProof.startHash, LeafNode.hash]
    · rw [if_neg (Ne.symm hk), if_neg hk]
      refine ⟨_, rfl, ?_⟩
      simp [SparseMerkleProof.verify, SparseMerkleProof.checkLeaf, SparseMerkleProof.foldUp, SparseMerkleProof.startHash, LeafNode.hash, hk]

/-- **C90.** A `put_leaf` refused because of the node key changes nothing. -/
theorem C90_refused_partial (s : Store D) (nk : NodeKey) (leaf : LeafNode D) (x : Value) (h : (s.nodes.get nk).isSome = true) :
    (s.putLeaf nk leaf x).1 = s ∧ ∃ e, (s.putLeaf nk leaf x).2 = .error (.err e) := by
  unfold Store.putLeaf
  cases hn : s.nodes.get nk with
  | none => rw [hn] at h; cases h
  | some n => exact ⟨rfl, _, rfl⟩

/-- **C90** is false of a `put_leaf` refused because of the value: the leaf is stored, without its value. So the error cannot be
overcome by trying again, and at a root the version is there afterwards, with a root hash, while reading its only key gives the
error "Missing value". -/
theorem C90_refused_false (H : Hasher D) (k : Key) (x y : Value) :
    ∃ s s' : Store D, (Store.empty.putLeaf ⟨5, []⟩ ⟨k, H.value x⟩ x) = (s, .ok ()) ∧
      s.putLeaf ⟨3, []⟩ ⟨k, H.value y⟩ y = (s', .error (.err "values must be pushed in order")) ∧
      Tree.getRootHash H s.reader 3 = .error (.err "Root node not found for version") ∧
      Tree.getRootHash H s'.reader 3 = .ok (H.leaf k (H.value y)) ∧
      Tree.getWithProof H s'.reader k 3 = .error (.err "Missing value") ∧
      ∀ z, s'.putLeaf ⟨3, []⟩ ⟨k, H.value z⟩ z = (s', .error (.err "Key exists.")) := by
  refine ⟨⟨⟨[(⟨5, []⟩, .leaf ⟨k, H.value x⟩)]⟩, .empty, ⟨[(k, [(5, some x)])]⟩, false⟩,
    ⟨⟨[(⟨3, []⟩, .leaf ⟨k, H.value y⟩), (⟨5, []⟩, .leaf ⟨k, H.value x⟩)]⟩, .empty, ⟨[(k, [(5, some x)])]⟩, false⟩, ?_, ?_, ?_, ?_, ?_, ?_⟩
  · rfl
  · simp [Store.putLeaf, FMap.get, FMap.lookupL, FMap.set, FMap.erase, Store.putValueHistory]
  · rfl
  · rfl
  · simp [Tree.getWithProof, Tree.getWithProofLoop, Store.reader, FMap.get, FMap.lookupL, NodeKey.newEmptyPath, Store.getValueOption]
  · intro z
    simp [Store.putLeaf, FMap.get, FMap.lookupL]

/-! preimages -/

/-- The preimages after recording a list, in this order, each with the hash function it is recorded with. -/
def recorded (l : List ((Bytes → Key) × Bytes)) : Preimages := l.foldl (fun m e => m.put e.1 e.2) .empty

/-- **C91.** The preimage found for a key hash is the last one recorded with this hash; nothing is found when there is none. -/
theorem C91_preimage (l : List ((Bytes → Key) × Bytes)) (k : Key) :
    (recorded l).preimage k = (l.reverse.find? (fun e => decide (e.1 e.2 = k))).map Prod.snd := by
  unfold recorded
  rw [← List.foldr_reverse]
  generalize l.reverse = l
  induction l with
  | nil => rfl
  | cons e l ih =>
    simp only [List.foldr_cons, Preimages.put, Preimages.preimage, FMap.get_set]
    simp only [Preimages.preimage, Preimages.put] at ih
    by_cases h : e.1 e.2 = k
    · rw [if_pos h.symm, List.find?_cons_of_pos (by simpa using h)]; rfl
    · rw [if_neg (Ne.symm h), List.find?_cons_of_neg (by simpa using h), ih]

/-- **C91.** With one hash function: what is found has the hash asked for and was recorded; and for whatever was recorded something
with the same hash is found, itself if the hash function has no collision there. -/
theorem C91_sound (sha : Bytes → Key) (ps : List Bytes) :
    (∀ k p, (recorded (ps.map (fun p => (sha, p)))).preimage k = some p → sha p = k ∧ p ∈ ps) ∧
    (∀ p ∈ ps, ∃ q ∈ ps, sha q = sha p ∧ (recorded (ps.map (fun p => (sha, p)))).preimage (sha p) = some q) := by
  constructor
  · intro k p h
    rw [C91_preimage] at h
    obtain ⟨e, he, rfl⟩ := Option.map_eq_some_iff.1 h
    have h1 := List.find?_some he
    have h2 := List.mem_of_find?_eq_some he
    simp only [decide_eq_true_eq] at h1
    simp only [List.mem_reverse, List.mem_map] at h2
    obtain ⟨q, hq, rfl⟩ := h2
    exact ⟨h1, hq⟩
  · intro p hp
    have hs : ((ps.map (fun p => (sha, p))).reverse.find? (fun e => decide (e.1 e.2 = sha p))).isSome = true := by
      rw [List.find?_isSome]
      exact ⟨(sha, p), by simpa using hp, by simp⟩
    obtain ⟨e, he⟩ := Option.isSome_iff_exists.1 hs
    have h1 := List.find?_some he
    have h2 := List.mem_of_find?_eq_some he
    simp only [decide_eq_true_eq] at h1
    simp only [List.mem_reverse, List.mem_map] at h2
    obtain ⟨q, hq, rfl⟩ := h2
    exact ⟨q, hq, h1, by rw [C91_preimage, he]; rfl⟩

/-- **C91.** If the preimage of every present key was recorded with `put_key_preimage`, and none of them is empty, then the nearest keys of
an absent key have what `get_with_ics23_proof` asks for: it returns a non-existence proof, and the proof passes verification. The
conditions on values, on the first 64 bits and on the commit that wrote the nearest keys are those of C55, without which C55 is false. -/
theorem C91_nonexistence {sha : Bytes → Key} {host : Host} (hh : ShaHost sha host) (v0 next : Version) (ops : List Op) (s : Store Key)
    (h : Reached (Tree.shaHasher sha) v0 ops s next) (v : Version) (hv : Readable v0 ops v) (ps : List Bytes)
    (hps : ∀ a, (contentsAt v0 ops v a).isSome = true → ∃ p ∈ ps, sha p = a) (hnil : [] ∉ ps) (key : Bytes)
    (hk : contentsAt v0 ops v (sha key) = none) (hne : ∃ a, (contentsAt v0 ops v a).isSome = true)
    (hnew : v = v0 ∨ ∃ c, (commitsOf ops)[v - v0]? = some c ∧
      ∀ a, GreatestBelow (contentsAt v0 ops v) (sha key) a ∨ LeastAbove (contentsAt v0 ops v) (sha key) a → ∃ x, (a, x) ∈ c.updates)
    (hgood : ∀ a, GreatestBelow (contentsAt v0 ops v) (sha key) a ∨ LeastAbove (contentsAt v0 ops v) (sha key) a →
      contentsAt v0 ops v a ≠ some [] ∧ Alone64 (contentsAt v0 ops v) a) :
    ∃ p root, Tree.getWithIcs23Proof sha s.reader (recorded (ps.map (fun p => (sha, p)))).preimage key v = .ok (none, .nonexist p) ∧
      Tree.getRootHash (Tree.shaHasher sha) s.reader v = .ok root ∧ verifyNonExistence host p Tree.ics23Spec root.bytes key = .ok () := by
  obtain ⟨h1, h2⟩ := C91_sound sha ps
  have hfound : ∀ a, (contentsAt v0 ops v a).isSome = true →
      ∃ b, (recorded (ps.map (fun p => (sha, p)))).preimage a = some b ∧ sha b = a := by
    intro a ha
    obtain ⟨p, hp, rfl⟩ := hps a ha
    obtain ⟨q, _, hq, he⟩ := h2 p hp
    exact ⟨q, he, hq⟩
  obtain ⟨p, hp⟩ := C55_nonexistence_exists_partial v0 next ops s h v hv _ key hk hne hnew (by
    rintro a (ha | ha) <;> exact hfound a ha.present)
  obtain ⟨_, _, _, root, e1, e2⟩ := C55_nonexistence_verifies_partial hh v0 next ops s h v hv _ (fun a b hab => (h1 a b hab).1) key none p hp (by
    intro a ha
    refine ⟨?_, hgood a ha⟩
    intro he
    exact hnil (h1 a [] he).2)
  exact ⟨p, root, hp, e1, e2⟩

/-- The four keys of `exIcs`, one of them recorded twice, and a key that is not in the tree. -/
example : ∃ s p root, Reached (Tree.shaHasher padSha) 0 exIcs s 1 ∧
    Tree.getWithIcs23Proof padSha s.reader
      (recorded ([[0x10], [0x12], [0x77], [0x70], [0x90, 1], [0x10]].map (fun p => (padSha, p)))).preimage [0x15] 0 = .ok (none, .nonexist p) ∧
    Tree.getRootHash (Tree.shaHasher padSha) s.reader 0 = .ok root ∧ verifyNonExistence padHost p Tree.ics23Spec root.bytes [0x15] = .ok () := by
  obtain ⟨s, hs⟩ := exIcs_reached
  obtain ⟨p, root, h1, h2, h3⟩ := C91_nonexistence padHost_ok 0 1 exIcs s hs 0 exIcs_readable [[0x10], [0x12], [0x77], [0x70], [0x90, 1], [0x10]]
    (by
      intro a ha
      have := exIcs_keys a ha
      simp only [List.mem_cons, List.not_mem_nil, or_false] at this
      rcases this with rfl | rfl | rfl | rfl
      · exact ⟨[0x10], by simp, rfl⟩
      · exact ⟨[0x12], by simp, rfl⟩
      · exact ⟨[0x70], by simp, rfl⟩
      · exact ⟨[0x90, 1], by simp, rfl⟩)
    (by simp) [0x15] (by decide +kernel) ⟨padSha [0x10], by decide +kernel⟩ (.inl rfl) (by
      intro a ha
      have hm : a ∈ [padSha [0x10], padSha [0x12], padSha [0x70], padSha [0x90, 1]] := by
        rcases ha with ha | ha <;> exact exIcs_keys a ha.present
      have h : ∀ a ∈ [padSha [0x10], padSha [0x12], padSha [0x70], padSha [0x90, 1]], contentsAt 0 exIcs 0 a ≠ some [] := by decide +kernel
      exact ⟨h a hm, exIcs_alone a hm⟩)
  exact ⟨s, p, root, hs, h1, h2, h3⟩

/-- Two preimages with the same hash: the last one recorded is found. -/
example : (recorded [(fun _ => key 1 1, [1]), (fun _ => key 1 2, [3]), (fun _ => key 1 1, [2])]).preimage (key 1 1) = some [2] := by decide +kernel

/-- A leaf put at the root of version 3 of a store that has an older value of the same key. -/
example : let s : Store Term := ⟨.empty, .empty, ⟨[(key 1 1, [(2, some [9])])]⟩, false⟩
    (s.putLeaf ⟨3, []⟩ ⟨key 1 1, termHasher.value [4]⟩ [4]).2 = .ok () ∧
      (s.putLeaf ⟨3, []⟩ ⟨key 1 1, termHasher.value [4]⟩ [4]).1.reader.getValueOption 2 (key 1 1) = some [9] ∧
      (s.putLeaf ⟨3, []⟩ ⟨key 1 1, termHasher.value [4]⟩ [4]).1.reader.getValueOption 7 (key 1 1) = some [4] := by
  intro s
  have h : (s.putLeaf ⟨3, []⟩ ⟨key 1 1, termHasher.value [4]⟩ [4]).2 = .ok () :=
    (C90_when s _ _ _).2 ⟨rfl, by intro e he; cases he; decide⟩
  obtain ⟨_, h2, _⟩ := C90_stored s _ _ _ h
  refine ⟨h, ?_, ?_⟩
  · rw [h2, if_neg (by decide)]; decide +kernel
  · rw [h2, if_pos ⟨rfl, by decide⟩]

end Verif.Props
