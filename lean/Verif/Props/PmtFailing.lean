import Verif.Proofs.PmtAgain
import Verif.Props.PmtIter
import Verif.Props.PmtFailedCommit
/-! Property C97: a Patricia trie over a database whose lookups fail. -/

set_option autoImplicit false

namespace Verif.Props
open Verif Verif.Pmt PmtEx
variable {K : Keccak}

/-- **C97**, single calls, on every trie and database, whichever lookups fail. A call does what it does when none of them fails, or it returns the database
error. In the second case `get`, `contains` and `get_proof` change nothing, `insert` and `remove` change nothing but the set of hash nodes passed, and `commit`
has written and removed what it would have written and removed: the trie is as after the commit, except that its root is still the node in memory. -/
theorem C97_calls (t : Trie) (db : Db) (bad : H256 → Bool) :
    (∀ k, t.getF db bad k = t.get db k ∨ t.getF db bad k = .error (.err "database error")) ∧
    (∀ k, t.containsF db bad k = t.contains db k ∨ t.containsF db bad k = .error (.err "database error")) ∧
    (∀ k, t.getProofF K db bad k = t.getProof K db k ∨ t.getProofF K db bad k = .ok (t, .error "database error")) ∧
    (∀ k v, t.insertF db bad k v = t.insert db k v ∨
      ∃ ps, t.insertF db bad k v = .ok ({ t with passingKeys := ps ++ t.passingKeys }, some "database error")) ∧
    (∀ k, t.removeF db bad k = t.remove db k ∨
      ∃ ps, t.removeF db bad k = .ok ({ t with passingKeys := ps ++ t.passingKeys }, .error "database error")) ∧
    (t.commitF K db bad = t.commit K db ∨ ∃ t' db', t.commitF K db bad = .ok (t', db', .error "database error") ∧ t'.root = t.root ∧
      ∀ t2 db2 r, t.commit K db = .ok (t2, db2, r) → db' = db2 ∧ { t' with root := t2.root } = t2) := by
  refine ⟨fun k => ?_, fun k => ?_, fun k => t.getProofF_or k, fun k v => ?_, fun k => ?_, ?_⟩
  · exact getAtF_or _ _ _
  · unfold Trie.containsF Trie.contains
    rcases getAtF_or (db := db) (bad := bad) (hops db (Trie.path k)) t.root (Trie.path k) with e | e <;> rw [e]
    · exact .inl rfl
    · exact .inr rfl
  · exact (t.insertF_or k v).imp id (fun ⟨ps, e, _⟩ => ⟨ps, e⟩)
  · exact (t.removeF_or k).imp id (fun ⟨ps, e, _⟩ => ⟨ps, e⟩)
  · rcases t.commitF_or (K := K) (db := db) (bad := bad) with e | ⟨t1, h, hw, e⟩
    · exact .inl e
    · refine .inr ⟨_, _, e, (Trie.writeRoot_root hw).1, fun t2 db2 r h2 => ?_⟩
      unfold Trie.commit at h2
      rw [hw] at h2
      simp only [Res.ok_bind] at h2
      split at h2 <;> cases h2 <;> exact ⟨rfl, rfl⟩

/-- **C97**, if no lookup fails: every call is the call on a database without failures. -/
theorem C97_no_failures {bad : H256 → Bool} (hb : ∀ h, bad h = false) (s : Sys) (op : Op) (t : Trie) (k : Bytes) (fuel : Nat) (it : Iter) :
    s.stepR K (.call op bad) = s.step K op ∧ t.getF s.db bad k = t.get s.db k ∧ t.containsF s.db bad k = t.contains s.db k ∧
      Iter.nextF s.db bad fuel it = Iter.next s.db fuel it := by
  refine ⟨Sys.stepR_none hb s op, ?_, ?_, Iter.nextF_none hb fuel it⟩
  · unfold Trie.getF Trie.get; rw [getAtF_none hb]
  · unfold Trie.containsF Trie.contains; rw [getAtF_none hb]

/-- **C97 (partial)**, failed calls that are not made again, on an archive database. A program in which lookups fail during any of the calls, and commits fail
while nodes are written, returns for the other calls what a program of those alone returns; the same root hashes can be opened, and whatever lookups then fail, `get` on
every trie gives the value of the map it stands for without the failed calls, or the database error. If a call panics, it is `get_proof` (C42), and it also
panics after the calls before it that worked, without any failure. Otherwise, after some of the calls, two different byte strings stored with or without the failed calls have the same hash.
Missing: the pruning database, on which this is false (`C97_pruning_false`). -/
theorem C97_failed_calls_partial {ops : List ROp} (hfit : ∀ op ∈ Spec.attempted ops, Spec.Fits op) :
    (∃ s rs s0, (Sys.new false).runR K ops = .ok (s, rs) ∧
      (Sys.new false).run K ((Spec.worked ops rs).map Prod.fst) = .ok (s0, (Spec.worked ops rs).map Prod.snd) ∧ s.roots = s0.roots ∧
      s.tries.length = (Spec.run ((Spec.worked ops rs).map Prod.fst)).maps.length ∧
      ∀ (i : Nat) (tr : Trie) (m : Spec.Map), s.tries[i]? = some tr → (Spec.run ((Spec.worked ops rs).map Prod.fst)).maps[i]? = some m →
        ∀ k, tr.get s.db k = .ok (m k) ∧ ∀ bad, tr.getF s.db bad k = .ok (m k) ∨ tr.getF s.db bad k = .error (.err "database error")) ∨
    (∃ pre op bad s1 s2 rs e, pre ++ [.call op bad] <+: ops ∧ (Sys.new false).runR K pre = .ok (s1, rs) ∧
      (Sys.new false).run K ((Spec.worked pre rs).map Prod.fst) = .ok (s2, (Spec.worked pre rs).map Prod.snd) ∧ s2.step K op = .error e ∧
      ∃ i k, op = .proof i k) ∨
    ∃ pre s1 s2 rs, pre <+: ops ∧ (Sys.new false).runR K pre = .ok (s1, rs) ∧
      (Sys.new false).run K ((Spec.worked pre rs).map Prod.fst) = .ok (s2, (Spec.worked pre rs).map Prod.snd) ∧ Spec.Collision K (s1.db.log ++ s2.db.log) := by
  rcases (Alikes.new (K := K)).totalR hfit (fun a ha => by cases ha) with ⟨s, rs, s0, h1, h2, h3⟩ | h | ⟨pre, s1, s2, rs, h1, h2, h3, h4⟩
  · rcases collision_or K (s.db.log ++ s0.db.log) with hc | hc
    · exact .inr (.inr ⟨ops, s, s0, rs, List.prefix_refl _, h1, h2, hc⟩)
    · refine .inl ⟨s, rs, s0, h1, h2, h3.roots, h3.inv.tries.1, fun i tr m ht hm k => ?_⟩
      have hg := Trie.get_ok (h3.inv.db.reads hc.left) (h3.inv.tries.2 i tr m ht hm) k
      refine ⟨hg, fun bad => ?_⟩
      rw [← hg]
      exact getAtF_or _ _ _
  · exact .inr (.inl h)
  · exact .inr (.inr ⟨pre, s1, s2, rs, h1, h2, h3, not_noClash h4⟩)

/-- **C97**, failed calls that are made again until they succeed, on either kind of database: if a program succeeds without failures, then with them its calls
return the same in the end, and the state they leave cannot be told apart from the state without failures: every lookup in the database, its size, the roots
that can be opened, and for every trie the values, the listing and the proofs. -/
theorem C97_made_again {light : Bool} {ops : List (Op × List (H256 → Bool))} {s0 : Sys} {rs : List Ret}
    (hrun : (Sys.new light).run K (ops.map Prod.fst) = .ok (s0, rs)) :
    ∃ s, (Sys.new light).runAgain K ops = .ok (s, rs) ∧ (∀ h, s.db.get h = s0.db.get h) ∧ s.db.len = s0.db.len ∧ s.roots = s0.roots ∧
      s.tries.length = s0.tries.length ∧
      ∀ (i : Nat) (tr tr0 : Trie), s.tries[i]? = some tr → s0.tries[i]? = some tr0 →
        tr.rootHash = tr0.rootHash ∧ (∀ k, tr.get s.db k = tr0.get s0.db k) ∧ (∀ fuel, tr.values fuel s.db = tr0.values fuel s0.db) ∧
        ∀ k, (tr.getProof K s.db k).map Prod.snd = (tr0.getProof K s0.db k).map Prod.snd := by
  have hnew : (Sys.new light).Like (Sys.new light) := .self FMap.nodupKeys_empty
  obtain ⟨s, e, h⟩ := Sys.runAgain_like hnew hrun
  refine ⟨s, e, h.db.get, h.db.len, h.roots, h.tries.1, fun i tr tr0 ht ht0 => ?_⟩
  have hl := h.tries.2 i tr tr0 ht ht0
  refine ⟨hl.rootHash, fun k => ?_, fun fuel => ?_, fun k => ?_⟩
  · rw [h.db.trieGet]
    unfold Trie.get
    rw [hl.root]
  · unfold Trie.values Iter.new
    rw [h.db.collect, hl.root]
  · rw [h.db.trieProof]
    rcases hl.getProof (K := K) s0.db k with ⟨e, e1, e2⟩ | ⟨t1, u1, r, e1, e2, -⟩ <;> rw [e1, e2]
    rfl

/-- **C97 (partial)**, listings. Whatever lookups fail during any of the calls of `next`, `values` on a trie after a program on an archive database returns a
beginning of the listing of its map in increasing order of the keys; or two stored byte strings have the same hash. Missing: that it reports the error, which it does not
(`C97_values_false`), and the empty key together with others (`C45_empty_key_panics`). -/
theorem C97_values_partial {ops : List Op} (hfit : ∀ op ∈ ops, Spec.Fits op) {s : Sys} {rs : List Ret}
    (hrun : (Sys.new false).run K ops = .ok (s, rs)) {i : Nat} {tr : Trie} {m : Spec.Map} (htr : s.tries[i]? = some tr)
    (hm : (Spec.run ops).maps[i]? = some m) (he : m [] = none ∨ (Spec.Plain ops ∧ ∀ k, k ≠ [] → m k = none)) (bad : Nat → H256 → Bool) :
    Spec.Collision K s.db.log ∨ ∃ l : List (Bytes × Bytes), l.Pairwise (fun a b => a.1 < b.1) ∧ (∀ k v, (k, v) ∈ l ↔ m k = some v) ∧
      ∃ N, ∀ fuel, N ≤ fuel → ∃ l', tr.valuesF fuel s.db bad = .ok l' ∧ l' <+: l := by
  rcases C45_iterate_partial hfit hrun htr hm he with h | ⟨l, ⟨N, hN⟩, h2, h3⟩
  · exact .inl h
  · exact .inr ⟨l, h2, h3, N, fun fuel hf => Iter.collectF_prefix fuel fuel bad (Iter.new tr) (hN fuel hf)⟩

/-! ### Examples and counterexamples -/

/-- The calls without failures. -/
def flawless (ops : List Op) : List ROp := ops.map (fun op => .call op (fun _ => false))

/-- The state after a program with failures. -/
def resultR (light : Bool) (ops : List ROp) : Sys × List Ret := ((Sys.new light).runR exK ops).toOption.getD (Sys.new light, [])

/-- Four keys; the leaf of the first cannot be read while the key is changed and removed, and the root cannot be read back in a commit. -/
def unreadOps : List ROp :=
  flawless faultOps ++ [.call (.insert 0 [0x12, 0x34] [5]) (fun h => h = lost), .call (.remove 0 [0x12, 0x34]) (fun h => h = lost),
    .call (.proof 0 [0x12, 0x34]) (fun h => h = lost), .call (.commit 0) (fun _ => true), .fail 0 (.inserting (fun _ => false)), .call (.commit 0) (fun _ => false)]

/-- What the calls returned that failed. -/
def errors (rs : List Ret) : List String := rs.filterMap (fun r => match r with | .failed m => some m | _ => none)

/-- Four calls and a commit fail; the calls that worked are those of `faultOps` and the last commit, and the last commit returns the root hash it returns without
the others. -/
example : (∀ op ∈ Spec.attempted unreadOps, Spec.Fits op) ∧
    errors (resultR false unreadOps).2 = ["database error", "database error", "database error", "database error", "database error"] ∧
    ((Spec.worked unreadOps (resultR false unreadOps).2).map Prod.fst).length = faultOps.length + 1 ∧
    (resultR false unreadOps).1.roots = (result false (faultOps ++ [.commit 0])).1.roots ∧
    ((resultR false unreadOps).1.tries.map (fun t => (t.get (resultR false unreadOps).1.db [0x12, 0x34]).toOption)) = [some (some (long 1))] := by
  refine ⟨?_, by decide +kernel, by decide +kernel, by decide +kernel, by decide +kernel⟩
  intro op hop
  simp only [unreadOps, flawless, faultOps, List.map_cons, List.map_nil, List.cons_append, List.nil_append, Spec.attempted, List.mem_cons, List.not_mem_nil,
    or_false] at hop
  rcases hop with rfl | rfl | rfl | rfl | rfl | rfl | rfl | rfl | rfl | rfl | rfl <;> simp [Spec.Fits, long]

/-- The same calls on a pruning database, made again. -/
def againOps : List (Op × List (H256 → Bool)) :=
  (faultOps.map (fun op => (op, [])) : List (Op × List (H256 → Bool))) ++ [(Op.insert 0 [0x12, 0x34] [5], [fun h => decide (h = lost), fun _ => true]), (Op.commit 0, [fun _ => true, fun _ => true]),
    (Op.remove 0 [0x12, 0x44], [fun _ => true]), (Op.commit 0, [])]

example : ((Sys.new true).run exK (againOps.map Prod.fst)).toOption.isSome = true ∧
    (((Sys.new true).runAgain exK againOps).toOption.map (fun x => (x.1.db.len, x.1.roots))) =
      (((Sys.new true).run exK (againOps.map Prod.fst)).toOption.map (fun x => (x.1.db.len, x.1.roots))) ∧
    (((Sys.new true).runAgain exK againOps).toOption.map (fun x => x.1.tries.map (fun t => (t.get x.1.db [0x12, 0x34]).toOption)))
      = some [some (some [5])] := ⟨by decide +kernel, by decide +kernel, by decide +kernel⟩

/-- An insertion fails because a leaf cannot be read for the moment, and the trie is committed without it. -/
def prunedOps : List ROp := flawless faultOps ++ [.call (.insert 0 [0x12, 0x34] [5]) (fun h => h = lost), .call (.commit 0) (fun _ => false)]

/-- **C97 is false** on a pruning database for failed calls that are not made again: every node is in the database, an insertion fails because a leaf cannot be
read for the moment, and the next commit, which succeeds, deletes nodes of the trie: the key, and another one below the same node, can be read no more. -/
theorem C97_pruning_false : errors (resultR true prunedOps).2 = ["database error"] ∧
    (resultR true prunedOps).1.tries.map (fun t => isMissing (t.get (resultR true prunedOps).1.db [0x12, 0x44])) = [true] ∧
    (result true (faultOps ++ [.commit 0])).1.tries.map (fun t => (t.get (result true (faultOps ++ [.commit 0])).1.db [0x12, 0x44]).toOption)
      = [some (some (long 2))] := ⟨by decide +kernel, by decide +kernel, by decide +kernel⟩

/-- **C97 is false** for listings: a lookup fails, and `values` returns `Ok` with part of the pairs, here none, as if they were all. -/
theorem C97_values_false : ((handle false faultOps 0).valuesF 100 (result false faultOps).1.db (fun _ h => h = lost)).toOption = some [] ∧
    ((handle false faultOps 0).values 100 (result false faultOps).1.db).toOption.map (fun l => l.length) = some 4 :=
  ⟨by decide +kernel, by decide +kernel⟩

/-- **C97 is false** for iterators: after the `None` that stands for a failed lookup the next call goes on behind the subtree that could not be read. -/
theorem C97_skips_false :
    ((Iter.nextF (result false faultOps).1.db (fun h => h = lost) 100 (Iter.new (handle false faultOps 0))).toOption.map Prod.snd) = some none ∧
    ((Iter.nextF (result false faultOps).1.db (fun h => h = lost) 100 (Iter.new (handle false faultOps 0))).toOption.bind
      (fun x => (Iter.next (result false faultOps).1.db 100 x.1).toOption.map Prod.snd)) = some (some ([0x12, 0x44], long 2)) :=
  ⟨by decide +kernel, by decide +kernel⟩

/-- **C97 is false** for `len` and `is_empty`: if the database cannot tell its size, a trie with entries is said to be empty. -/
theorem C97_len_false : Trie.lenF (result false faultOps).1.db true = 0 ∧ 0 < Trie.lenF (result false faultOps).1.db false :=
  ⟨rfl, by decide +kernel⟩

/-- The hypotheses of `C97_values_partial` are met. -/
example : (mapOf faultOps 0) [] = none ∧ (mapOf faultOps 0) [0x12, 0x44] = some (long 2) := ⟨by decide +kernel, by decide +kernel⟩

end Verif.Props
