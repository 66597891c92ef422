import Verif.Proofs.GenesisStore
import Verif.Proofs.GenesisLost
import Verif.Props.JmtRestoreContinue
/-! Property C101: a new genesis on top of a state restored as the version before the first. -/

set_option autoImplicit false

namespace Verif.Props
open Verif Verif.Jmt Verif.Spec
variable {D : Type}

/-- What a finished restore leaves in an empty store. -/
theorem restored_one (H : Hasher D) [DecidableEq D] {dst : Store D}
    (hdst : dst.nodes.entries = [] ∧ dst.valueHistory.entries = [] ∧ dst.staleNodes.elems = [])
    {w : Version} {root : D} {m : Bool} {calls : List (List (Key × Value) × SparseMerkleRangeProof D)} {chunk : List (Key × Value)}
    {proof : SparseMerkleRangeProof D} {r0 r : Restore D} {outs : List (Option String)} (hnew : Restore.new H dst w root m = .ok r0)
    (hrun : r0.addChunks H (calls ++ [(chunk, proof)]) = .ok (r, outs ++ [none])) {s' : Store D} (hfin : r.finish H = .ok s') :
    received (calls.map Prod.fst ++ [chunk]) ≠ [] ∧ StoreInv H w [.batch m (received (calls.map Prod.fst ++ [chunk]))] w s' := by
  have hclean : r0.Clean := Restore.Clean.new (Store.Clean.fresh hdst.2.1 hdst.2.2) hnew
  have hclean : r.Clean := hclean.addChunks _ hrun
  rw [new_fresh H hdst.1] at hnew
  obtain rfl := Except.ok.inj hnew
  obtain ⟨r1, outs1, a1, a2, a3, a4⟩ := (Live.fresh H hdst.1 hdst.2.1 w root m).addChunks calls
  obtain ⟨r2, out, b1, b2, b3, b4, b5⟩ := a2.addChunk chunk proof
  rw [addChunks_append, a1] at hrun
  have hrun : (Restore.addChunks H r1 [(chunk, proof)]).bind (fun y => .ok (y.1, outs1 ++ y.2)) = .ok (r, outs ++ [none]) := hrun
  unfold Restore.addChunks at hrun
  simp only [b1, Res.ok_bind] at hrun
  have hrun : (Except.ok (r2, outs1 ++ [out]) : Res _) = .ok (r, outs ++ [none]) := hrun
  simp only [Except.ok.injEq, Prod.mk.injEq] at hrun
  obtain ⟨rfl, h2⟩ := hrun
  have hout : out = none := by
    have := congrArg List.getLast? h2
    simpa using this
  have hP : received (calls.map Prod.fst ++ [chunk]) = receive ((calls.map Prod.fst).foldl receive []) chunk := by
    show (calls.map Prod.fst ++ [chunk]).foldl receive [] = _
    rw [List.foldl_append]; rfl
  rw [← hP] at b2 b4
  obtain ⟨c1, c2, _⟩ := b4.1 hout
  have hPne : received (calls.map Prod.fst ++ [chunk]) ≠ [] := by rw [hP, receive, c2]; simp [c1]
  exact ⟨hPne, b2.storeInv hclean hPne (b5 hout) hfin⟩

/-- A store that got the pairs as its version 0. -/
theorem batch_zero (H : Hasher D) (m : Bool) {P : List (Key × Value)} (hP : P ≠ []) : ∃ s, StoreInv H 0 [.batch m P] 0 s := by
  have hb : ∀ a b, Commit.batch a b ∈ commitsOf [Op.batch m [P]] → b ≠ [] := by
    intro a b hab
    simp only [commitsOf, List.flatMap_cons, List.flatMap_nil, Op.commits, List.map_cons, List.map_nil, List.append_nil, List.mem_singleton,
      Commit.batch.injEq] at hab
    rw [hab.2]; exact hP
  obtain ⟨s, _, h⟩ := runOps_resume [.batch m [P]] (StoreInv.init H 0) ⟨fun _ => ⟨.inl rfl, hb⟩, hb⟩
  exact ⟨s, h⟩

theorem withBatch_of_sets (P : List (Key × Value)) (sets : List Tree.ValueSet) {k : Key} {x : Value} (h : contents sets k = some x) :
    withBatch P sets k = some x := by
  have : ∀ (l : List Tree.ValueSet) (f g : Key → Option Value), (∀ k x, f k = some x → g k = some x) →
      ∀ k x, l.foldl applyUpdates f k = some x → l.foldl applyUpdates g k = some x := by
    intro l
    induction l with
    | nil => exact fun f g h => h
    | cons s l ih =>
      intro f g hfg
      refine ih _ _ ?_
      intro k x hx
      rw [applyUpdates_lastOf] at hx ⊢
      cases hl : lastOf s k with
      | none => rw [hl] at hx; exact hfg k x hx
      | some o => rw [hl] at hx; exact hx
  exact this sets (fun _ => none) _ (by intro k x h; cases h) k x h

/-- **C101** (partial). Pairs `P` have been restored as version `u64::MAX`, the one before genesis. `put_value_sets`, or
`batch_put_value_sets` with no empty set, at version 0 succeeds and gives the root hashes of `P` with the sets applied one after the other. Unless the first call consists of one set that only deletes keys not
in `P`, all further calls go on from there, on a database keeping all batches; and every version written (except a version 0 that only
deletes keys not in `P`) has the right root hash and number of keys. `get_with_proof` proves absent keys absent, finds every value written by
the sets with a proof that verifies, and fails with "Missing value" exactly for the keys still holding their value from before genesis.
Full claim, false because of these exceptions: all versions can be read, all keys of `P` included. -/
theorem C101_new_genesis_partial (H : Hasher D) [DecidableEq D] (dst : Store D)
    (hdst : dst.nodes.entries = [] ∧ dst.valueHistory.entries = [] ∧ dst.staleNodes.elems = [])
    (root : D) (m : Bool) (calls : List (List (Key × Value) × SparseMerkleRangeProof D)) (chunk : List (Key × Value))
    (proof : SparseMerkleRangeProof D) (r0 r : Restore D) (outs : List (Option String)) (hnew : Restore.new H dst (2 ^ 64 - 1) root m = .ok r0)
    (hrun : r0.addChunks H (calls ++ [(chunk, proof)]) = .ok (r, outs ++ [none])) (s' : Store D) (hfin : r.finish H = .ok s')
    (first : UpdateCall) (hne : first.sets ≠ []) (more : List UpdateCall) (hfill : ∀ m l, .batch m l ∈ first :: more → [] ∉ l)
    (hlen : (first.sets ++ (more.map UpdateCall.sets).flatten).length < 2 ^ 64 - 1) :
    let P := received (calls.map Prod.fst ++ [chunk])
    let all := first.sets ++ (more.map UpdateCall.sets).flatten
    ∃ roots b, first.run H s'.reader 0 = .ok (roots, b) ∧ roots.length = first.sets.length ∧
      (∀ i, i < first.sets.length → ∀ L, Lists H (withBatch P (all.take (i + 1))) L → roots[i]? = some (smtRoot H L)) ∧
      ((∀ x, first.sets = [x] → ¬ Idle (withBatch P []) x) →
        ∃ roots' r', Tree.putCalls H more (s'.reader.plus b) first.sets.length = .ok (roots', r') ∧ first.sets.length + roots'.length = all.length ∧
          (∀ i, first.sets.length + i < all.length → ∀ L, Lists H (withBatch P (all.take (first.sets.length + i + 1))) L → roots'[i]? = some (smtRoot H L)) ∧
          ∀ u, u < all.length → (u = 0 → ∀ x, first.sets.head? = some x → ¬ Idle (withBatch P []) x) → ∀ L, Lists H (withBatch P (all.take (u + 1))) L →
            Tree.getRootHash H r' u = .ok (smtRoot H L) ∧ Tree.getLeafCount true r' u = .ok (some L.length) ∧
            ∀ k, ∃ p, p.verify H (smtRoot H L) k (withBatch P (all.take (u + 1)) k) = .ok () ∧
              (withBatch P (all.take (u + 1)) k = none → Tree.getWithProof H r' k u = .ok (none, p)) ∧
              (∀ x, contents (all.take (u + 1)) k = some x → Tree.getWithProof H r' k u = .ok (some x, p) ∧ withBatch P (all.take (u + 1)) k = some x) ∧
              (withBatch P (all.take (u + 1)) k ≠ none → contents (all.take (u + 1)) k = none →
                Tree.getWithProof H r' k u = .error (.err "Missing value"))) := by
  intro P all
  obtain ⟨hP, hA⟩ := restored_one H hdst hnew hrun hfin
  obtain ⟨sB, hB⟩ := batch_zero H m hP
  have hlen' : first.sets.length + (more.map UpdateCall.sets).flatten.length < 2 ^ 64 - 1 := by rw [← List.length_append]; exact hlen
  have hfill : ∀ c ∈ first :: more, c.Filled := fun c hc m l hcl => hfill m l (hcl ▸ hc)
  obtain ⟨a, l, hal⟩ := List.exists_cons_of_ne_nil hne
  obtain ⟨roots, b, e1, e2⟩ := genesis_batch hA hB hP first (hfill _ List.mem_cons_self) hal (by
    show _ < 2 ^ 64 - 1
    rw [hal, List.length_cons] at hlen'; omega)
  rw [← hal] at e2
  refine ⟨roots, b, e1, e2.len, ?_, ?_⟩
  · intro i hi L hL
    refine e2.roots i hi L ?_
    have : all.take (i + 1) = first.sets.take (i + 1) := List.take_append_of_le_length (by omega)
    rw [this] at hL
    exact hL
  intro hone
  obtain ⟨ρ, hist, s, hg⟩ := e2.start hA hne (show _ < 2 ^ 64 - 1 by omega) hone
  obtain ⟨roots', r', hist', s2, f1, f2, f3, f4⟩ := hg.calls more (fun c hc => hfill c (List.mem_cons_of_mem _ hc)) hlen'
  refine ⟨roots', r', f1, by rw [f3, ← List.length_append], ?_, ?_⟩
  · intro i hi L hL
    refine f4 i ?_ L hL
    have : all.length = _ := List.length_append
    omega
  intro u hu hidle L hL
  obtain ⟨g1, g2⟩ := f2.cont u hu (fun x hx hi hu0 => hidle hu0 x (by rw [hal] at hx ⊢; exact hx) hi)
  have hf := f2.ren.store.facts (v := ρ u) (Nat.zero_le _) (by omega)
  rw [Nat.sub_zero, g2] at hf
  have hn : ∀ nk : NodeKey, s2.reader.getNodeOption (nk.ren ρ) = (r'.getNodeOption nk).map (Node.ren ρ) := f2.ren.nodes
  refine ⟨by rw [getRootHash_ren H hn, hf.getRootHash, hf.hash hL], by rw [getLeafCount_ren hn]; exact hf.getLeafCount hL, ?_⟩
  intro k
  have hw := getWithProof_ren H hn k u _ _ (hf.getWithProof k)
  rw [f2.vals u (show u < 2 ^ 64 - 1 by have : all.length < 2 ^ 64 - 1 := hlen; omega)] at hw
  refine ⟨_, by rw [← hf.hash hL]; exact proofOf_verify H hf.hold k, ?_, ?_, ?_⟩
  · intro h0
    rw [hw, h0]; rfl
  · intro x hx
    have hx' := withBatch_of_sets P _ hx
    refine ⟨?_, hx'⟩
    have hx : contents (List.take (u + 1) (first.sets ++ (more.map UpdateCall.sets).flatten)) k = some x := hx
    rw [hw, hx', hx]; rfl
  · intro h0 h1
    obtain ⟨x, hx⟩ := Option.ne_none_iff_exists'.1 h0
    have h1 : contents (List.take (u + 1) (first.sets ++ (more.map UpdateCall.sets).flatten)) k = none := h1
    rw [hw, hx, h1]; rfl

/-- **C101**, a first version without effect. When the first set only deletes keys that were not there, the batch has no root for
version 0: its root hash can not be asked for, although `put_value_sets` returned it. -/
theorem C101_idle_first_version (H : Hasher D) [DecidableEq D] (dst : Store D)
    (hdst : dst.nodes.entries = [] ∧ dst.valueHistory.entries = [] ∧ dst.staleNodes.elems = [])
    (root : D) (m : Bool) (calls : List (List (Key × Value) × SparseMerkleRangeProof D)) (chunk : List (Key × Value))
    (proof : SparseMerkleRangeProof D) (r0 r : Restore D) (outs : List (Option String)) (hnew : Restore.new H dst (2 ^ 64 - 1) root m = .ok r0)
    (hrun : r0.addChunks H (calls ++ [(chunk, proof)]) = .ok (r, outs ++ [none])) (s' : Store D) (hfin : r.finish H = .ok s')
    (m' : Bool) (x : Tree.ValueSet) (rest : List Tree.ValueSet) (hlen : rest.length + 1 < 2 ^ 64 - 1)
    (hx : Idle (withBatch (received (calls.map Prod.fst ++ [chunk])) []) x) :
    ∃ roots b, Tree.putValueSets H m' s'.reader (x :: rest) 0 = .ok (roots, b) ∧ (s'.reader.plus b).getNodeOption ⟨0, []⟩ = none ∧
      ∃ e, Tree.getRootHash H (s'.reader.plus b) 0 = .error e := by
  obtain ⟨hP, hA⟩ := restored_one H hdst hnew hrun hfin
  obtain ⟨sB, hB⟩ := batch_zero H m hP
  obtain ⟨roots, b, e1, e2⟩ := genesis_batch hA hB hP (.put m' (x :: rest)) (by intro m l h; cases h) rfl hlen
  have hnone : (s'.reader.plus b).getNodeOption ⟨0, []⟩ = none := by
    show (b.nodeBatch.nodes.get _).or (s'.nodes.get _) = none
    rw [e2.noRoot x rfl hx]
    cases hh : s'.nodes.get ⟨0, []⟩ with
    | none => rfl
    | some n =>
      have := hA.inv.dom _ _ _ hh
      have h2 : preGenesisVersion = 2 ^ 64 - 1 := rfl
      omega
  refine ⟨roots, b, e1, hnone, ?_⟩
  unfold Tree.getRootHash Tree.getRootNode
  have hnone : (s'.reader.plus b).getNodeOption (.newEmptyPath 0) = none := hnone
  rw [hnone]
  exact ⟨_, rfl⟩

/-- **C101**, the state lost. After a first call with one set that only deletes keys that were not there, the next call (beginning with a set that
leaves something) succeeds with the root hashes of its own sets alone: none of the pairs restored is in the tree any more. -/
theorem C101_state_lost (H : Hasher D) [DecidableEq D] (dst : Store D)
    (hdst : dst.nodes.entries = [] ∧ dst.valueHistory.entries = [] ∧ dst.staleNodes.elems = [])
    (root : D) (m : Bool) (calls : List (List (Key × Value) × SparseMerkleRangeProof D)) (chunk : List (Key × Value))
    (proof : SparseMerkleRangeProof D) (r0 r : Restore D) (outs : List (Option String)) (hnew : Restore.new H dst (2 ^ 64 - 1) root m = .ok r0)
    (hrun : r0.addChunks H (calls ++ [(chunk, proof)]) = .ok (r, outs ++ [none])) (s' : Store D) (hfin : r.finish H = .ok s')
    (m' : Bool) (x : Tree.ValueSet) (hx : Idle (withBatch (received (calls.map Prod.fst ++ [chunk])) []) x)
    (m2 : Bool) (sets : List Tree.ValueSet) (hlen : sets.length + 1 < 2 ^ 64 - 1)
    (hs : ∀ s, sets.head? = some s → ∃ k v, contents [s] k = some v) :
    ∃ roots b roots' b', Tree.putValueSets H m' s'.reader [x] 0 = .ok (roots, b) ∧
      Tree.putValueSets H m2 (s'.reader.plus b) sets 1 = .ok (roots', b') ∧ roots'.length = sets.length ∧
      ∀ i, i < sets.length → ∀ L, Lists H (contents (sets.take (i + 1))) L → roots'[i]? = some (smtRoot H L) := by
  obtain ⟨hP, hA⟩ := restored_one H hdst hnew hrun hfin
  obtain ⟨sB, hB⟩ := batch_zero H m hP
  obtain ⟨roots, b, e1, e2⟩ := genesis_batch hA hB hP (.put m' [x]) (by intro m l h; cases h) rfl (by decide)
  obtain ⟨roots', b', f1, f2, f3⟩ := e2.lost hA hB hx m2 sets hlen hs
  exact ⟨roots, b, roots', b', e1, f1, f2, f3⟩

/-- **C101**, `batch_put_value_sets` after such a call: it does not find the root of version 0 and fails. -/
theorem C101_batch_fails (H : Hasher D) [DecidableEq D] (dst : Store D)
    (hdst : dst.nodes.entries = [] ∧ dst.valueHistory.entries = [] ∧ dst.staleNodes.elems = [])
    (root : D) (m : Bool) (calls : List (List (Key × Value) × SparseMerkleRangeProof D)) (chunk : List (Key × Value))
    (proof : SparseMerkleRangeProof D) (r0 r : Restore D) (outs : List (Option String)) (hnew : Restore.new H dst (2 ^ 64 - 1) root m = .ok r0)
    (hrun : r0.addChunks H (calls ++ [(chunk, proof)]) = .ok (r, outs ++ [none])) (s' : Store D) (hfin : r.finish H = .ok s')
    (m' : Bool) (x : Tree.ValueSet) (hx : Idle (withBatch (received (calls.map Prod.fst ++ [chunk])) []) x)
    (m2 : Bool) (s : List (Key × Value)) (hs : s ≠ []) (sets : List (List (Key × Value))) :
    ∃ roots b, Tree.putValueSets H m' s'.reader [x] 0 = .ok (roots, b) ∧
      Tree.batchPutValueSets H m2 (s'.reader.plus b) (s :: sets) none 1 = .error (.err "Missing node") := by
  obtain ⟨roots, b, e1, e2, _⟩ := C101_idle_first_version H dst hdst root m calls chunk proof r0 r outs hnew hrun s' hfin m' x [] (by decide) hx
  exact ⟨roots, b, e1, batch_missing H m2 e2 hs sets⟩

/-- **C101**, the store of the library. The mock store takes the batch of the new genesis, and then is the database of the theorem above, if no
set mentions a key of `P`; otherwise it refuses the batch. -/
theorem C101_mock_store (H : Hasher D) [DecidableEq D] (dst : Store D)
    (hdst : dst.nodes.entries = [] ∧ dst.valueHistory.entries = [] ∧ dst.staleNodes.elems = [])
    (root : D) (m : Bool) (calls : List (List (Key × Value) × SparseMerkleRangeProof D)) (chunk : List (Key × Value))
    (proof : SparseMerkleRangeProof D) (r0 r : Restore D) (outs : List (Option String)) (hnew : Restore.new H dst (2 ^ 64 - 1) root m = .ok r0)
    (hrun : r0.addChunks H (calls ++ [(chunk, proof)]) = .ok (r, outs ++ [none])) (s' : Store D) (hfin : r.finish H = .ok s')
    (first : UpdateCall) (hne : first.sets ≠ []) (hfill : ∀ m l, first = .batch m l → [] ∉ l) (hlen : first.sets.length < 2 ^ 64 - 1) :
    let P := received (calls.map Prod.fst ++ [chunk])
    ∃ roots b, first.run H s'.reader 0 = .ok (roots, b) ∧
      ((∀ x ∈ first.sets, ∀ e ∈ x, withBatch P [] e.1 = none) → ∃ s2, s'.writeTreeUpdateBatch b = .ok s2 ∧ s2.reader = s'.reader.plus b) ∧
      ((∃ x ∈ first.sets, ∃ e ∈ x, withBatch P [] e.1 ≠ none) → s'.writeTreeUpdateBatch b = .error (.err "values must be pushed in order")) := by
  intro P
  obtain ⟨hP, hA⟩ := restored_one H hdst hnew hrun hfin
  obtain ⟨sB, hB⟩ := batch_zero H m hP
  obtain ⟨a, l, hal⟩ := List.exists_cons_of_ne_nil hne
  obtain ⟨roots, b, e1, e2⟩ := genesis_batch hA hB hP first hfill hal (by rw [hal] at hlen; exact hlen)
  rw [← hal] at e2
  exact ⟨roots, b, e1, hA.reader_plus e2 hlen⟩

/-! ### witnesses -/

/-- Three pairs restored as the version before genesis. -/
def exGenesisStore : Res (Store Term) := do
  let r0 ← Restore.new termHasher Store.empty (2 ^ 64 - 1) (smtRoot termHasher (hashed termHasher exPairs)) false
  let (r, _) ← r0.addChunks termHasher [(exPairs, ⟨[]⟩)]
  r.finish termHasher

/-- Calls from version 0 on, on top of these pairs. -/
def exGenesisRun (calls : List UpdateCall) : Res (List Term × Reader Term) := do
  let s ← exGenesisStore
  Tree.putCalls termHasher calls s.reader 0

/-- The error a call ended with. -/
def errOf {A : Type} : Res A → Option Err
  | .ok _ => none
  | .error e => some e

/-- One new key on top of the three pairs: the root hash is the one of four pairs, but a key that was there before can not be read. -/
theorem C101_old_keys_false :
    ((exGenesisRun [.put false [[(key 2 0, some [1])]]]).map Prod.fst).toOption =
      some [smtRoot termHasher (hashed termHasher [(key 1 2, [7]), (key 2 0, [1]), (key 0x80 0, [5]), (key 0xF0 0, [3])])] ∧
    errOf (do let (_, r) ← exGenesisRun [.put false [[(key 2 0, some [1])]]]; Tree.getWithProof termHasher r (key 1 2) 0) =
      some (.err "Missing value") := by decide +kernel

/-- After a first call that only deletes a key that was not there, the next call starts from the empty tree: the three pairs are gone. -/
theorem C101_state_lost_false :
    ((exGenesisRun [.put false [[(key 2 0, none)]], .put false [[(key 3 0, some [4])]]]).map Prod.fst).toOption =
      some [smtRoot termHasher (hashed termHasher exPairs), smtRoot termHasher (hashed termHasher [(key 3 0, [4])])] := by decide +kernel

-- C101: the same with `batch_put_value_sets` in the first call, and in the second call after one without effect
example :
    ((exGenesisRun [.batch false [[(key 2 0, [1])]]]).map Prod.fst).toOption =
      some [smtRoot termHasher (hashed termHasher [(key 1 2, [7]), (key 2 0, [1]), (key 0x80 0, [5]), (key 0xF0 0, [3])])] ∧
    errOf (exGenesisRun [.put false [[(key 2 0, none)]], .batch false [[(key 3 0, [4])]]]) = some (.err "Missing node") := by decide +kernel

/-- The sets of the examples: a new key, an overwrite of an old one and a deletion of another, in two calls. -/
def exGenesisFirst : List Tree.ValueSet := [[(key 2 0, some [1])], [(key 1 2, some [8]), (key 0x80 0, none)]]

/-- The pairs have been restored as the version before genesis. -/
theorem exGenesis : ∃ r0 r s', Restore.new termHasher Store.empty (2 ^ 64 - 1) (smtRoot termHasher (hashed termHasher exPairs)) false = .ok r0 ∧
    r0.addChunks termHasher ([] ++ [(exPairs, ⟨[]⟩)]) = .ok (r, [] ++ [none]) ∧ r.finish termHasher = .ok s' := by
  obtain ⟨r, hr⟩ := of_outcomes (x := (Restore.newOverwrite Store.empty (2 ^ 64 - 1) (smtRoot termHasher (hashed termHasher exPairs)) false).addChunks
      termHasher ([] ++ [(exPairs, ⟨[]⟩)])) (o := [] ++ [none]) (by decide +kernel)
  have hn := new_fresh termHasher (s := Store.empty) rfl (2 ^ 64 - 1) (smtRoot termHasher (hashed termHasher exPairs)) false
  obtain ⟨s', _, hs, _⟩ := C23_finished_root_partial termHasher Store.empty ⟨rfl, rfl⟩ (2 ^ 64 - 1) _ false _ _ _ _ _ _ hn hr
  exact ⟨_, r, s', hn, hr, hs⟩

-- C101: two sets in the first call and one in each of two more, on top of the three pairs; all versions can be read
example : ∃ (s' : Store Term) (roots : _) (b : _) (roots' : _) (r' : _), Tree.putValueSets termHasher true s'.reader exGenesisFirst 0 = .ok (roots, b) ∧
    Tree.putCalls termHasher [.put false [[(key 2 0, none)]], .batch true [[(key 3 0, [4])]]] (s'.reader.plus b) 2 = .ok (roots', r') ∧
    ∃ p, Tree.getWithProof termHasher r' (key 1 2) 3 = .ok (some [8], p) ∧
      Tree.getWithProof termHasher r' (key 0xF0 0) 3 = .error (.err "Missing value") := by
  obtain ⟨r0, r, s', h1, h2, h3⟩ := exGenesis
  obtain ⟨roots, b, a1, _, _, a2⟩ := C101_new_genesis_partial termHasher Store.empty ⟨rfl, rfl, rfl⟩ _ false [] exPairs _ _ _ _ h1 h2 s' h3
    (.put true exGenesisFirst) (by simp [UpdateCall.sets, exGenesisFirst]) [.put false [[(key 2 0, none)]], .batch true [[(key 3 0, [4])]]]
    (by intro m l h; simp at h; simp [h.2]) (by decide)
  obtain ⟨roots', r', b1, _, _, b2⟩ := a2 (by intro x hx; cases hx)
  have hl := (holding_treeAt termHasher 0 (.batch false exPairs :: (exGenesisFirst ++ [[(key 2 0, none)], [(key 3 0, some [4])]]).map (Commit.seq true)) 4).lists
  obtain ⟨_, _, c1⟩ := b2 3 (by decide) (by intro h; cases h) _
    hl
  obtain ⟨p, _, _, d1, _⟩ := c1 (key 1 2)
  obtain ⟨_, _, _, _, d2⟩ := c1 (key 0xF0 0)
  exact ⟨s', roots, b, roots', r', a1, b1, p, (d1 [8] (by decide +kernel)).1, d2 (by decide +kernel) (by decide +kernel)⟩

-- C101: a first version that only deletes a key that was not there, and a second one that leaves something
example : ∀ s, [[(key 2 0, none), (key 3 0, some [4])]].head? = some s → ∃ k v, contents [s] k = some v := by
  intro s hs
  obtain rfl := Option.some.inj hs
  exact ⟨key 3 0, [4], by decide +kernel⟩

example : Idle (withBatch (received [exPairs]) []) [(key 2 0, none)] := by
  intro e he
  obtain rfl := List.mem_singleton.1 he
  exact ⟨rfl, by decide +kernel⟩

-- C101: the mock store takes new keys and refuses a set that overwrites a key of the pairs
example : (∀ x ∈ [[(key 2 0, some [1])]], ∀ e ∈ x, withBatch (received [exPairs]) [] e.1 = none) ∧
    ∃ x ∈ exGenesisFirst, ∃ e ∈ x, withBatch (received [exPairs]) [] e.1 ≠ none := by
  refine ⟨?_, _, List.mem_cons_of_mem _ (List.mem_singleton.2 rfl), _, List.mem_cons_self, by decide +kernel⟩
  intro x hx e he
  obtain rfl := List.mem_singleton.1 hx
  obtain rfl := List.mem_singleton.1 he
  decide +kernel

end Verif.Props
