import Verif.Proofs.RestoreContinue
import Verif.Props.JmtResume
/-! Property C82: going on from a restored version. -/

set_option autoImplicit false

namespace Verif.Props
open Verif Verif.Jmt Verif.Spec
variable {D : Type}

/-- No list of pairs given to `batch_put_value_sets` is empty (asserted by the library). -/
def BatchesFilled (ops : List Op) : Prop := ∀ m s, Commit.batch m s ∈ commitsOf ops → s ≠ []

/-- The facts about all versions that can be read after going on from a store with one batch. -/
theorem continue_facts {H : Hasher D} {w : Version} {m : Bool} {P : List (Key × Value)} {s' : Store D} (h : StoreInv H w [.batch m P] w s')
    {ops : List Op} (hb : BatchesFilled ops) :
    ∃ s2, runOps H ops (s', w + 1) = .ok (s2, w + 1 + (commitsOf ops).length) ∧
      StoreInv H w (commitsOf (.batch m [P] :: ops)) (floorOf ops w (w + 1)) s2 ∧
      ∀ u, Readable w (.batch m [P] :: ops) u → VersionFacts H s2 u (contentsAt w (.batch m [P] :: ops) u)
        (treeAt H w (commitsOf (.batch m [P] :: ops)) u) := by
  obtain ⟨s2, e1, e2⟩ := runOps_resume ops h ⟨by simp, hb⟩
  have hco : [Commit.batch m P] ++ commitsOf ops = commitsOf (.batch m [P] :: ops) := rfl
  rw [hco] at e2
  refine ⟨s2, ?_, e2, ?_⟩
  · refine e1.trans ?_
    simp only [List.length_append, List.length_singleton]
    rw [Nat.add_assoc]
  · intro u hu
    have hf : floorOf ops w (w + 1) ≤ u := by
      rcases hu.kept with hk | hk
      · exact floorOf_le ops w (w + 1) u hu.ge (fun m hm => hk m (List.mem_cons_of_mem _ hm))
      · have h1 : floorOf ops w (w + 1) < _ ∨ floorOf ops w (w + 1) = w := e2.inv.loLt
        have := hu.ge
        omega
    have := e2.facts hf hu.lt
    rw [contentsAt, ← List.map_take]
    exact this

/-- **C82.** A restore on an empty store whose last `add_chunk` returned `Ok` (earlier ones may have failed, and all chunks and proofs
are arbitrary) has been finished. Then every sequence of updates and prunings can follow, beginning with version `w + 1`: none of them
fails, and every version not pruned holds what the restored pairs `P` and the later updates make up, with the sparse Merkle root of it,
its number of keys, and proofs that verify. -/
theorem C82_continue (H : Hasher D) [DecidableEq D] (dst : Store D)
    (hdst : dst.nodes.entries = [] ∧ dst.valueHistory.entries = [] ∧ dst.staleNodes.elems = [])
    (w : Version) (root : D) (m : Bool) (calls : List (List (Key × Value) × SparseMerkleRangeProof D)) (chunk : List (Key × Value))
    (proof : SparseMerkleRangeProof D) (r0 r : Restore D) (outs : List (Option String)) (hnew : Restore.new H dst w root m = .ok r0)
    (hrun : r0.addChunks H (calls ++ [(chunk, proof)]) = .ok (r, outs ++ [none])) (s' : Store D) (hfin : r.finish H = .ok s')
    (ops : List Op) (hops : BatchesFilled ops) :
    let P := received (calls.map Prod.fst ++ [chunk])
    ∃ s2, runOps H ops (s', w + 1) = .ok (s2, w + 1 + (commitsOf ops).length) ∧
      ∀ u, Readable w (.batch m [P] :: ops) u → ∀ L, Lists H (contentsAt w (.batch m [P] :: ops) u) L →
        Tree.getRootHash H s2.reader u = .ok (smtRoot H L) ∧ Tree.getLeafCount true s2.reader u = .ok (some L.length) ∧
        ∀ k, ∃ p, Tree.getWithProof H s2.reader k u = .ok (contentsAt w (.batch m [P] :: ops) u k, p) ∧
          p.verify H (smtRoot H L) k (contentsAt w (.batch m [P] :: ops) u k) = .ok () := by
  intro P
  have hclean : r0.Clean := Restore.Clean.new (Store.Clean.fresh hdst.2.1 hdst.2.2) hnew
  have hclean : r.Clean := hclean.addChunks _ hrun
  rw [new_fresh H hdst.1] at hnew
  obtain rfl := Except.ok.inj hnew
  obtain ⟨r1, outs1, a1, a2, a3, a4⟩ := (Live.fresh H hdst.1 hdst.2.1 w root m).addChunks calls
  obtain ⟨r2, out, b1, b2, b3, b4, b5⟩ := a2.addChunk chunk proof
  rw [addChunks_append, a1] at hrun
  have hrun : (Restore.addChunks H r1 [(chunk, proof)]).bind (fun y => .ok (y.1, outs1 ++ y.2)) = .ok (r, outs ++ [none]) := hrun
  unfold Restore.addChunks at hrun
  simp only [b1, Res.ok_bind] at hrun
  have hrun : (Except.ok (r2, outs1 ++ [out]) : Res _) = .ok (r, outs ++ [none]) := hrun
  simp only [Except.ok.injEq, Prod.mk.injEq] at hrun
  obtain ⟨rfl, h2⟩ := hrun
  have hout : out = none := by
    have := congrArg List.getLast? h2
    simpa using this
  have hP : P = receive ((calls.map Prod.fst).foldl receive []) chunk := by
    show (calls.map Prod.fst ++ [chunk]).foldl receive [] = _
    rw [List.foldl_append]; rfl
  rw [← hP] at b2 b4
  obtain ⟨c1, c2, _⟩ := b4.1 hout
  have hPne : P ≠ [] := by rw [hP, receive, c2]; simp [c1]
  obtain ⟨s2, d1, d2, d3⟩ := continue_facts (b2.storeInv hclean hPne (b5 hout) hfin) hops
  refine ⟨s2, d1, ?_⟩
  intro u hu L hL
  have hf := d3 u hu
  refine ⟨by rw [hf.getRootHash, hf.hash hL], hf.getLeafCount hL, ?_⟩
  intro k
  refine ⟨_, hf.getWithProof k, ?_⟩
  rw [← hf.hash hL]
  exact proofOf_verify H hf.hold k

/-- The contents of the newest version followed by more updates. -/
theorem contentsAt_more {v0 v : Version} {ops more : List Op} (hlast : v + 1 = v0 + (commitsOf ops).length) {m : Bool} {P : List (Key × Value)}
    (hsorted : P.Pairwise (fun a b => a.1 < b.1)) (hP : ∀ k x, (k, x) ∈ P ↔ contentsAt v0 ops v k = some x) {u : Version} (hu : v ≤ u) :
    contentsAt v0 (ops ++ more) u = contentsAt v (.batch m [P] :: more) u := by
  have hbase : contents ((commitsOf ops).map Commit.updates) = applyUpdates (fun _ => none) (P.map (fun e => (e.1, some e.2))) := by
    funext k
    have h1 : contents ((commitsOf ops).map Commit.updates) k = contentsAt v0 ops v k := by
      unfold contentsAt
      rw [List.take_of_length_le (by simp; omega)]
    rw [h1, applyUpdates_lastOf, lastOf_map_some]
    apply Option.ext
    intro x
    rw [← hP, ← lastOf_sorted hsorted]
    cases lastOf P k <;> simp
  have h1 : ((commitsOf (ops ++ more)).map Commit.updates).take (u + 1 - v0) =
      (commitsOf ops).map Commit.updates ++ ((commitsOf more).map Commit.updates).take (u - v) := by
    have hco : commitsOf (ops ++ more) = commitsOf ops ++ commitsOf more := by simp [commitsOf]
    have hl : ((commitsOf ops).map Commit.updates).length = v + 1 - v0 := by rw [List.length_map]; omega
    rw [hco, List.map_append, List.take_append, List.take_of_length_le (by rw [hl]; omega), hl]
    congr 2
    have := hl
    rw [List.length_map] at this
    omega
  have h2 : ((commitsOf (.batch m [P] :: more)).map Commit.updates).take (u + 1 - v) =
      P.map (fun e => (e.1, some e.2)) :: ((commitsOf more).map Commit.updates).take (u - v) := by
    rw [show u + 1 - v = (u - v) + 1 by omega]
    rfl
  unfold contentsAt
  rw [h1, h2, contents, List.foldl_append]
  show List.foldl applyUpdates (contents ((commitsOf ops).map Commit.updates)) _ = _
  rw [hbase]
  rfl

/-- **C82**, beside the source. The newest version `v` of a store is restored from genuine chunks into an empty store, under the same
number. Whatever is done on the source after that can be done on the copy as well, with the same root hashes, answers and proofs for all
versions from `v` on that can still be read. -/
theorem C82_same_as_source (H : Hasher D) [DecidableEq D] (v0 v : Version) (ops : List Op) (s : Store D)
    (h : Reached H v0 ops s (v + 1)) (hv : Readable v0 ops v) (root : D) (hroot : Tree.getRootHash H s.reader v = .ok root)
    (P : List (Key × Value)) (hsorted : P.Pairwise (fun a b => a.1 < b.1)) (hP : ∀ k x, (k, x) ∈ P ↔ contentsAt v0 ops v k = some x)
    (hne : P ≠ []) (hc : ∀ x ∈ smtInputs H 256 (hashed H P), x.digest H ≠ H.placeholder)
    (calls : List (List (Key × Value) × SparseMerkleRangeProof D)) (hsplit : (calls.map Prod.fst).flatten = P)
    (hcalls : ∀ c ∈ calls, ∃ e, c.1.getLast? = some e ∧ Tree.getRangeProof H s.reader e.1 v = .ok c.2)
    (dst : Store D) (hdst : dst.nodes.entries = [] ∧ dst.valueHistory.entries = [] ∧ dst.staleNodes.elems = []) (m : Bool)
    (more : List Op) (s2 : Store D) (next2 : Version) (h2 : Reached H v0 (ops ++ more) s2 next2) :
    ∃ r0 r s' s3, Restore.new H dst v root m = .ok r0 ∧ r0.addChunks H calls = .ok (r, calls.map (fun _ => none)) ∧ r.finish H = .ok s' ∧
      runOps H more (s', v + 1) = .ok (s3, next2) ∧
      (∀ u, v ≤ u → Readable v0 (ops ++ more) u → Tree.getRootHash H s3.reader u = Tree.getRootHash H s2.reader u ∧
        ∀ k, Tree.getWithProof H s3.reader k u = Tree.getWithProof H s2.reader k u) ∧
      (∀ m' sets, ∃ roots b b', Tree.putValueSets H m' s2.reader sets next2 = .ok (roots, b) ∧
        Tree.putValueSets H m' s3.reader sets next2 = .ok (roots, b')) ∧
      (∀ m' sets, (∀ l ∈ sets, l ≠ []) → ∃ roots b b', Tree.batchPutValueSets H m' s2.reader sets none next2 = .ok (roots, b) ∧
        Tree.batchPutValueSets H m' s3.reader sets none next2 = .ok (roots, b')) := by
  have hf := h.facts hv
  have hL := lists_hashed (H := H) hsorted hP
  have hr : root = smtRoot H (hashed H P) := by
    have := hf.getRootHash
    rw [hroot] at this
    rw [← hf.hash hL]
    exact Except.ok.inj this
  obtain ⟨r, a1, a2, a3⟩ := honest_run hf calls (rest := []) (Live.fresh H hdst.1 hdst.2.1 v root m) (by simpa [hsplit] using hsorted)
    (by simpa [hsplit] using hP) (by simpa [hsplit, NoPlaceholder] using hc) (by simp only [hsplit, List.nil_append, List.append_nil]; exact hr) hcalls
  rw [hsplit, List.nil_append] at a2
  have hcne : calls ≠ [] := by rintro rfl; exact hne hsplit.symm
  obtain ⟨s', t, f, b1, _⟩ := a2.finish hne (a3 (.inl hcne))
  have hclean : r.Clean := (Restore.Clean.new (Store.Clean.fresh hdst.2.1 hdst.2.2) (new_fresh H hdst.1 v root m)).addChunks _ a1
  have hlast : v + 1 = v0 + (commitsOf ops).length := h.inv.1
  have hco : commitsOf (ops ++ more) = commitsOf ops ++ commitsOf more := by simp [commitsOf]
  have hbf : BatchesFilled more := fun m s hm => h2.startable.batches m s (by rw [hco]; exact List.mem_append_right _ hm)
  obtain ⟨s3, d1, d2, d3⟩ := continue_facts (a2.storeInv hclean hne (a3 (.inl hcne)) b1) hbf
  have hnext : next2 = v + 1 + (commitsOf more).length := by
    rw [h2.inv.1, hco, List.length_append, ← Nat.add_assoc, ← hlast]
  have hlen : v + (commitsOf (Op.batch m [P] :: more)).length = next2 := by
    rw [hnext]
    show v + (Commit.batch m P :: commitsOf more).length = _
    rw [List.length_cons]; omega
  have hcont : ∀ u, v ≤ u → contentsAt v0 (ops ++ more) u = contentsAt v (.batch m [P] :: more) u :=
    fun u hu => contentsAt_more hlast hsorted hP hu
  have hne1 : commitsOf (ops ++ more) ≠ [] := by
    intro e
    have := hv.ge
    have h3 : (commitsOf ops).length = 0 := by
      rw [hco] at e
      rw [(List.append_eq_nil_iff.1 e).1]; rfl
    omega
  -- the roots of further versions
  have hroots : ∀ (new : List Commit) (lo lo' : Version) (ra rb : List D) (ba bb : TreeUpdateBatch D),
      BatchSpec H v0 (commitsOf (ops ++ more)) new lo s2 ra ba → BatchSpec H v (commitsOf (.batch m [P] :: more)) new lo' s3 rb bb → ra = rb := by
    intro new lo lo' ra rb ba bb e1 e2
    rw [e1.roots, e2.roots]
    apply List.map_congr_left
    intro i hi
    have g1 := holding_treeAt H v0 (commitsOf (ops ++ more) ++ new) (v0 + (commitsOf (ops ++ more)).length + i)
    have g2 := holding_treeAt H v (commitsOf (.batch m [P] :: more) ++ new) (v + (commitsOf (.batch m [P] :: more)).length + i)
    have hk : ∀ (a l : List Commit) (x : Version), (a ++ l).take (x + a.length + i + 1 - x) = a ++ l.take (i + 1) := by
      intro a l x
      rw [show x + a.length + i + 1 - x = a.length + (i + 1) by omega, List.take_length_add_append]
    rw [hk, List.map_append, contents, List.foldl_append] at g1 g2
    have hsame : contents ((commitsOf (ops ++ more)).map Commit.updates) = contents ((commitsOf (Op.batch m [P] :: more)).map Commit.updates) := by
      have := hcont (next2 + v0) (by omega)
      unfold contentsAt at this
      rwa [List.take_of_length_le (by rw [List.length_map, h2.inv.1]; omega), List.take_of_length_le (by rw [List.length_map]; omega)] at this
    have g1 : Holding H _ (List.foldl applyUpdates (contents ((commitsOf (ops ++ more)).map Commit.updates)) _) := g1
    rw [hsame] at g1
    rw [VTree.hash_eq_smt H g1.1, VTree.hash_eq_smt H g2.1]
    exact smt_perm H 256 (lists_perm g1.lists g2.lists)
  refine ⟨_, r, s', s3, new_fresh H hdst.1 v root m, a1, b1, by rw [d1, hnext], ?_, ?_, ?_⟩
  · intro u hu hru
    have hru' : Readable v (.batch m [P] :: more) u := by
      refine ⟨hu, ?_, ?_⟩
      · rw [hlen, h2.inv.1]; exact hru.lt
      · rcases hru.kept with hk | hk
        · left
          intro x hx
          rcases List.mem_cons.1 hx with hx | hx
          · cases hx
          · exact hk x (List.mem_append_right _ hx)
        · right; rw [hlen, h2.inv.1]; exact hk
    have f1 := h2.facts hru
    have f2 := d3 u hru'
    rw [← hcont u hu] at f2
    have hL2 := f1.hold.lists
    refine ⟨by rw [f1.getRootHash, f2.getRootHash, f1.hash hL2, f2.hash hL2], ?_⟩
    intro k
    rw [f1.getWithProof k, f2.getWithProof k, f2.path hL2]
  · intro m' sets
    obtain ⟨ra, ba, e1, e2⟩ := putValueSets_resume h2.inv.2 m' sets ⟨fun e => absurd e hne1, by simp⟩
    obtain ⟨rb, bb, e3, e4⟩ := putValueSets_resume d2 m' sets ⟨fun e => (nomatch e), by simp⟩
    rw [hlen] at e3
    rw [← h2.inv.1] at e1
    exact ⟨ra, ba, bb, e1, by rw [e3, hroots _ _ _ _ _ _ _ e2 e4]⟩
  · intro m' sets hs
    have hs' : ∀ a b, Commit.batch a b ∈ sets.map (Commit.batch m') → b ≠ [] := by
      intro a b hab
      obtain ⟨l, hl, he⟩ := List.mem_map.1 hab
      cases he
      exact hs _ hl
    obtain ⟨ra, ba, e1, e2, _⟩ := batchPutValueSets_resume h2.inv.2 m' sets ⟨fun e => absurd e hne1, hs'⟩
    obtain ⟨rb, bb, e3, e4, _⟩ := batchPutValueSets_resume d2 m' sets ⟨fun e => (nomatch e), hs'⟩
    rw [hlen] at e3
    rw [← h2.inv.1] at e1
    exact ⟨ra, ba, bb, e1, by rw [e3, hroots _ _ _ _ _ _ _ e2 e4]⟩

/-- **C82**, after an interrupted restore. The restore of C24, given in any number of sessions, has been finished. Then every sequence of
updates and prunings can follow as well, with the outcome of `C82_continue`. -/
theorem C82_resumed (H : Hasher D) [DecidableEq D] (v0 next : Version) (src : List Op) (s : Store D)
    (h : Reached H v0 src s next) (v : Version) (hv : Readable v0 src v) (root : D) (hroot : Tree.getRootHash H s.reader v = .ok root)
    (P : List (Key × Value)) (hsorted : P.Pairwise (fun a b => a.1 < b.1)) (hP : ∀ k x, (k, x) ∈ P ↔ contentsAt v0 src v k = some x)
    (hne : P ≠ []) (hc : ∀ x ∈ smtInputs H 256 (hashed H P), x.digest H ≠ H.placeholder)
    (earlier : List (List (List (Key × Value) × SparseMerkleRangeProof D))) (last : List (List (Key × Value) × SparseMerkleRangeProof D))
    (hfeed : Feeds P (earlier.map (List.map Prod.fst)) (last.map Prod.fst).flatten)
    (hcalls : ∀ cs ∈ earlier ++ [last], ∀ c ∈ cs, ∃ e, c.1.getLast? = some e ∧ Tree.getRangeProof H s.reader e.1 v = .ok c.2)
    (dst : Store D) (hdst : dst.nodes.entries = [] ∧ dst.valueHistory.entries = [] ∧ dst.staleNodes.elems = []) (w : Version) (m : Bool)
    (s1 s' : Store D) (r0 r : Restore D) (outs1 : List (List (Option String))) (outs2 : List (Option String))
    (hses : Restore.sessions H w root m dst earlier = .ok (s1, outs1)) (hnew : Restore.new H s1 w root m = .ok r0)
    (hadd : r0.addChunks H last = .ok (r, outs2)) (hfin : r.finish H = .ok s') (ops : List Op) (hops : BatchesFilled ops) :
    ∃ s2, runOps H ops (s', w + 1) = .ok (s2, w + 1 + (commitsOf ops).length) ∧
      ∀ u, Readable w (.batch m [P] :: ops) u → ∀ L, Lists H (contentsAt w (.batch m [P] :: ops) u) L →
        Tree.getRootHash H s2.reader u = .ok (smtRoot H L) ∧ Tree.getLeafCount true s2.reader u = .ok (some L.length) ∧
        ∀ k, ∃ p, Tree.getWithProof H s2.reader k u = .ok (contentsAt w (.batch m [P] :: ops) u k, p) ∧
          p.verify H (smtRoot H L) k (contentsAt w (.batch m [P] :: ops) u k) = .ok () := by
  have hclean : r.Clean := (Restore.Clean.new (Store.Clean.sessions _ (Store.Clean.fresh hdst.2.1 hdst.2.2) hses) hnew).addChunks _ hadd
  have hf := h.facts hv
  have hL := lists_hashed (H := H) hsorted hP
  obtain rfl : root = smtRoot H (hashed H P) := by
    have := hf.getRootHash
    rw [hroot] at this
    rw [← hf.hash hL]
    exact Except.ok.inj this
  obtain ⟨s1', A, a1, a2, a3, a4⟩ := sessions_run hf hsorted hP hc w m earlier (fun cs h' => hcalls cs (List.mem_append_left _ h'))
    (.fresh hdst.1 hdst.2.1) rfl (by simp) hfeed
  have hlast := hcalls last (by simp)
  generalize hF : (last.map Prod.fst).flatten = F at *
  have happ : A.dropLast ++ F ++ [] = P := by simpa using a3
  obtain ⟨r0', r', b1, b2, _, _, b5⟩ := honest_session hf a2 last hF hlast (rest := []) (by simpa using a4) (by rw [happ]; exact hsorted)
    (by rw [happ]; exact hP) (by rw [happ]; exact hc) (by rw [happ])
  rw [hses] at a1
  obtain ⟨rfl, _⟩ := Prod.mk.inj (Except.ok.inj a1)
  rw [hnew] at b1
  obtain rfl := Except.ok.inj b1
  rw [hadd] at b2
  obtain ⟨rfl, _⟩ := Prod.mk.inj (Except.ok.inj b2)
  have hlne : last ≠ [] := by
    rintro rfl
    obtain rfl : F = [] := hF.symm
    cases hl : A.getLast? with
    | none =>
      obtain rfl := List.getLast?_eq_none_iff.1 hl
      exact hne a3.symm
    | some e => cases a4 e hl
  obtain ⟨c1, c2, _⟩ := b5 hlne
  rw [a3] at c1
  obtain ⟨s2, d1, d2, d3⟩ := continue_facts (c1.storeInv hclean hne c2 hfin) hops
  refine ⟨s2, d1, ?_⟩
  intro u hu L hL
  have hf := d3 u hu
  refine ⟨by rw [hf.getRootHash, hf.hash hL], hf.getLeafCount hL, ?_⟩
  intro k
  refine ⟨_, hf.getWithProof k, ?_⟩
  rw [← hf.hash hL]
  exact proofOf_verify H hf.hold k

/-- What is done after the restores of the examples: a deletion and an overwrite, a batch, then pruning. -/
def exMore : List Op := [.update false [[(key 1 2, none), (key 0xF0 0, some [8])]], .batch true [[(key 0x80 0, [6]), (key 0x80 1, [1])]], .purge 8]

theorem exMore_filled : BatchesFilled exMore := by
  intro m s hm
  simp only [exMore, commitsOf, List.flatMap_cons, List.flatMap_nil, Op.commits, List.map_cons, List.map_nil, List.append_nil, List.cons_append,
    List.nil_append, List.mem_cons, List.not_mem_nil, or_false, reduceCtorEq, false_or, Commit.batch.injEq] at hm
  rw [hm.2]; simp

-- C82: a run with a refused call, a refused proof and a genuine one, and three operations after it
example : ∃ p q r0 r s' s2, Restore.new termHasher Store.empty 7 (smtRoot termHasher (hashed termHasher exPairs)) true = .ok r0 ∧
    r0.addChunks termHasher ([([], p), ([(key 1 2, [7])], q)] ++ [(exPairs.drop 1, p)]) =
      .ok (r, [some "Should not add empty chunks.", some "Root hashes do not match."] ++ [none]) ∧ r.finish termHasher = .ok s' ∧
    runOps termHasher exMore (s', 8) = .ok (s2, 10) ∧ Readable 7 (.batch true [exPairs] :: exMore) 9 ∧ Readable 7 (.batch true [exPairs] :: exMore) 8 := by
  obtain ⟨r, hr⟩ := of_outcomes (x := (Restore.newOverwrite Store.empty 7 (smtRoot termHasher (hashed termHasher exPairs)) true).addChunks
      termHasher ([([], ⟨[]⟩), ([(key 1 2, [7])], ⟨[]⟩)] ++ [(exPairs.drop 1, ⟨[]⟩)]))
    (o := [some "Should not add empty chunks.", some "Root hashes do not match."] ++ [none]) (by decide +kernel)
  have hn := new_fresh termHasher (s := Store.empty) rfl 7 (smtRoot termHasher (hashed termHasher exPairs)) true
  obtain ⟨s', _, hs, _⟩ := C23_finished_root_partial termHasher Store.empty ⟨rfl, rfl⟩ 7 _ true _ _ _ _ _ _ hn hr
  obtain ⟨s2, h2, _⟩ := C82_continue termHasher Store.empty ⟨rfl, rfl, rfl⟩ 7 _ true _ _ _ _ _ _ hn hr s' hs exMore exMore_filled
  exact ⟨⟨[]⟩, ⟨[]⟩, _, r, s', s2, hn, hr, hs, h2, ⟨by decide, by decide, .inr rfl⟩, ⟨by decide, by decide, .inl (by simp [exMore])⟩⟩

example : contentsAt 7 (.batch true [exPairs] :: exMore) 9 (key 0x80 0) = some [6] := by decide +kernel
example : contentsAt 7 (.batch true [exPairs] :: exMore) 9 (key 1 2) = none := by decide +kernel

-- C82: three pairs restored in three sessions, and three operations after that
example : ∃ s root p2 p3 s1 r0 r s' s2, Reached termHasher 0 exOps s 3 ∧ Tree.getRootHash termHasher s.reader 1 = .ok root ∧
    Restore.sessions termHasher 7 root false Store.empty [[(exPairs.take 2, p2)], [(exPairs.drop 1, p3)]] = .ok (s1, [[none], [none]]) ∧
    Restore.new termHasher s1 7 root false = .ok r0 ∧ r0.addChunks termHasher [(exPairs.drop 2, p3)] = .ok (r, [none]) ∧
    r.finish termHasher = .ok s' ∧ runOps termHasher exMore (s', 8) = .ok (s2, 10) := by
  obtain ⟨s, h⟩ := exOps_reached
  have hf := h.facts exOps_readable1
  obtain ⟨p2, h2⟩ := exCalls h (key 0x80 0, [5]) (by simp [exPairs])
  obtain ⟨p3, h3⟩ := exCalls h (key 0xF0 0, [3]) (by simp [exPairs])
  have hc : ∀ cs ∈ [[(exPairs.take 2, p2)], [(exPairs.drop 1, p3)]] ++ [[(exPairs.drop 2, p3)]], ∀ c ∈ cs, ∃ e, c.1.getLast? = some e ∧
      Tree.getRangeProof termHasher s.reader e.1 1 = .ok c.2 := by
    intro cs hcs c hc
    simp only [List.cons_append, List.nil_append, List.mem_cons, List.not_mem_nil, or_false] at hcs
    rcases hcs with rfl | rfl | rfl <;> simp only [List.mem_cons, List.not_mem_nil, or_false] at hc <;> subst hc
    · exact ⟨_, rfl, h2⟩
    · exact ⟨_, rfl, h3⟩
    · exact ⟨_, rfl, h3⟩
  obtain ⟨s1, _, r0, r, s', a1, a2, _, _, a3, a4, _⟩ := C24_restore_resumes termHasher _ _ _ _ h _ exOps_readable1 _ hf.getRootHash exPairs
    exPairs_sorted exPairs_mem (by simp [exPairs]) (termHasher_placeholder _) [[(exPairs.take 2, p2)], [(exPairs.drop 1, p3)]]
    [(exPairs.drop 2, p3)] ⟨⟨_, rfl⟩, ⟨[], rfl⟩, rfl⟩ hc Store.empty ⟨rfl, rfl⟩ 7 false
  obtain ⟨s2, b1, _⟩ := C82_resumed termHasher _ _ _ _ h _ exOps_readable1 _ hf.getRootHash exPairs exPairs_sorted exPairs_mem (by simp [exPairs])
    (termHasher_placeholder _) [[(exPairs.take 2, p2)], [(exPairs.drop 1, p3)]]
    [(exPairs.drop 2, p3)] ⟨⟨_, rfl⟩, ⟨[], rfl⟩, rfl⟩ hc Store.empty ⟨rfl, rfl, rfl⟩ 7 false s1 s' r0 r _ _ a1 a2 a3 a4 exMore exMore_filled
  exact ⟨s, _, p2, p3, s1, r0, r, s', s2, h, hf.getRootHash, a1, a2, a3, a4, b1⟩

theorem exPairs_mem2 (k : Key) (x : Value) : (k, x) ∈ exPairs ↔ contentsAt 0 (exOps.take 1) 1 k = some x := exPairs_mem k x

-- C82: version 1 is copied while it is the newest one, and three operations follow on both sides
example : ∃ s root p1 p2 r0 r s' s2 s3, Reached termHasher 0 (exOps.take 1) s 2 ∧ Restore.new termHasher Store.empty 1 root false = .ok r0 ∧
    r0.addChunks termHasher [(exPairs.take 2, p1), (exPairs.drop 2, p2)] = .ok (r, [none, none]) ∧ r.finish termHasher = .ok s' ∧
    Reached termHasher 0 (exOps.take 1 ++ exMore) s2 4 ∧ runOps termHasher exMore (s', 2) = .ok (s3, 4) ∧
    Tree.getRootHash termHasher s3.reader 3 = Tree.getRootHash termHasher s2.reader 3 := by
  obtain ⟨s, h⟩ := Reached.exists (v0 := 0) (ops := exOps.take 1) termHasher ⟨.inl rfl, by simp [exOps, commitsOf, Op.commits]⟩
  have hv : Readable 0 (exOps.take 1) 1 := ⟨by decide, by decide, .inr rfl⟩
  have hf := h.facts hv
  obtain ⟨p1, _, _, h1, _⟩ := C20_range_proof_verifies termHasher _ _ _ _ h _ hv (key 0x80 0) [5] ((exPairs_mem2 _ _).1 (by simp [exPairs])) _ hf.hold.lists
  obtain ⟨p2, _, _, h2, _⟩ := C20_range_proof_verifies termHasher _ _ _ _ h _ hv (key 0xF0 0) [3] ((exPairs_mem2 _ _).1 (by simp [exPairs])) _ hf.hold.lists
  obtain ⟨s2, hr2⟩ := Reached.exists (v0 := 0) (ops := exOps.take 1 ++ exMore) termHasher
    ⟨.inl rfl, by simp [exOps, exMore, commitsOf, Op.commits]⟩
  obtain ⟨r0, r, s', s3, a1, a2, a3, a4, a5, _⟩ := C82_same_as_source termHasher _ _ _ _ h hv _ hf.getRootHash exPairs exPairs_sorted
    exPairs_mem2 (by simp [exPairs]) (termHasher_placeholder _) [(exPairs.take 2, p1), (exPairs.drop 2, p2)] (by simp)
    (by
      intro c hc
      simp only [List.mem_cons, List.not_mem_nil, or_false] at hc
      rcases hc with rfl | rfl
      · exact ⟨_, rfl, h1⟩
      · exact ⟨_, rfl, h2⟩) Store.empty ⟨rfl, rfl, rfl⟩ false exMore s2 _ hr2
  exact ⟨s, _, p1, p2, r0, r, s', s2, s3, h, a1, a2, a3, hr2, a4, (a5 3 (by decide) ⟨by decide, by decide, .inr rfl⟩).1⟩

end Verif.Props
