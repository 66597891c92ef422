import Verif.Proofs.RestoreBeside
import Verif.Proofs.Snapshot
import Verif.Props.JmtRestoreContinue
/-! Property C84: restoring a version into a store that holds other versions. -/

set_option autoImplicit false

namespace Verif.Props
open Verif Verif.Jmt Verif.Spec
variable {D : Type}

/-- There is room for version `w`: no node of that version, and no value of that version or a later one. -/
structure Room (dst : Store D) (w : Version) : Prop where
  nodes : ∀ nk n, dst.nodes.get nk = some n → nk.version ≠ w
  values : ∀ k h, dst.valueHistory.get k = some h → ∀ e ∈ h, e.1 < w

/-- What could be read of version `u` is read again, with the same answer. -/
structure StillReads (H : Hasher D) (u : Version) (r r' : Reader D) : Prop where
  root : ∀ d, Tree.getRootHash H r u = .ok d → Tree.getRootHash H r' u = .ok d
  proof : ∀ k a, Tree.getWithProof H r k u = .ok a → Tree.getWithProof H r' k u = .ok a
  range : ∀ k p, Tree.getRangeProof H r k u = .ok p → Tree.getRangeProof H r' k u = .ok p
  count : ∀ m c, Tree.getLeafCount m r u = .ok c → Tree.getLeafCount m r' u = .ok c

theorem Below.still {r r' : Reader D} (h : Below r r') (H : Hasher D) (u : Version) : StillReads H u r r' :=
  ⟨fun _ hd => OrErr.ok (h.getRootHash H u) hd, fun k _ ha => OrErr.ok (h.getWithProof H k u) ha,
    fun k _ hp => OrErr.ok (h.getRangeProof H k u) hp, fun m _ hc => OrErr.ok (h.getLeafCount m u) hc⟩

/-- `get_with_proof` looks at values of the version asked for only. -/
theorem getWithProof_congr (H : Hasher D) {r r' : Reader D} {u : Version} (hn : r.getNodeOption = r'.getNodeOption)
    (hv : ∀ k, r.getValueOption u k = r'.getValueOption u k) (k : Key) : Tree.getWithProof H r k u = Tree.getWithProof H r' k u := by
  unfold Tree.getWithProof
  have : ∀ fuel depth nk nibs sibs, Tree.getWithProofLoop H r k u fuel depth nk nibs sibs = Tree.getWithProofLoop H r' k u fuel depth nk nibs sibs := by
    intro fuel
    induction fuel with
    | zero => intros; rfl
    | succ fuel ih =>
      intro depth nk nibs sibs
      unfold Tree.getWithProofLoop
      rw [hn]
      simp only [hv, ih]
  exact this _ _ _ _ _

/-- The older versions after the restore. -/
theorem StoreOver.still {w : Version} {d a s : Store D} (h : StoreOver w d a s) (H : Hasher D)
    (ha : ∀ nk n, a.nodes.get nk = some n → nk.version = w) (hr : Room d w) {u : Version} (hu : u < w) :
    StillReads H u d.reader s.reader := by
  obtain ⟨mid, hm⟩ : ∃ mid : Reader D, mid = ⟨d.nodes.get, fun v k => if v < w then d.getValueOption v k else none⟩ := ⟨_, rfl⟩
  have hmid : Below mid s.reader := by
    subst hm
    constructor
    · intro nk n hn
      have hn : d.nodes.get nk = some n := hn
      show s.nodes.get nk = some n
      rw [h.nodes, hn]
      cases hg : a.nodes.get nk with
      | none => rfl
      | some n' => exact absurd (ha nk n' hg) (hr.nodes nk n hn)
    · intro v k x hx
      have hx : (if v < w then d.getValueOption v k else none) = some x := hx
      split at hx
      · rename_i hv
        show s.getValueOption v k = some x
        rw [← hx]
        unfold Store.getValueOption
        rw [h.hist]
        cases hg : a.valueHistory.get k with
        | none => rfl
        | some l =>
          obtain ⟨y, rfl⟩ := h.only k l hg
          cases hd : d.valueHistory.get k with
          | none => simp [Nat.not_le.2 hv]
          | some l0 => simp [Nat.not_le.2 hv]
      · cases hx
  have hs := Below.still hmid H u
  have hget : ∀ k, Tree.getWithProof H d.reader k u = Tree.getWithProof H mid k u := by
    have h1 : d.reader.getNodeOption = mid.getNodeOption := by rw [hm]; rfl
    have h2 : ∀ k, d.reader.getValueOption u k = mid.getValueOption u k := by
      intro k'
      rw [hm]
      show d.getValueOption u k' = if u < w then d.getValueOption u k' else none
      rw [if_pos hu]
    exact getWithProof_congr H h1 h2
  have hroot : Tree.getRootHash H d.reader u = Tree.getRootHash H mid u := by subst hm; rfl
  have hcount : ∀ m, Tree.getLeafCount m d.reader u = Tree.getLeafCount m mid u := by intro m; subst hm; rfl
  refine ⟨fun x hx => hs.root x (hroot.symm.trans hx), ?_, ?_, fun m c hc => hs.count m c ((hcount m).symm.trans hc)⟩
  · intro k a ha
    exact hs.proof k a ((hget k).symm.trans ha)
  · intro k p hp
    refine hs.range k p ?_
    unfold Tree.getRangeProof at hp ⊢
    rw [← hget]
    exact hp

theorem StoreOver.refl (w : Version) (d : Store D) : StoreOver w d { (Store.empty : Store D) with allowOverwrite := d.allowOverwrite } d := by
  refine ⟨?_, ?_, ?_, rfl, rfl⟩
  · intro nk; rfl
  · intro k; rfl
  · intro k l hl; cases hl

theorem StoreOver.room {w w' : Version} {d a s : Store D} (h : StoreOver w d a s) (ha : ∀ nk n, a.nodes.get nk = some n → nk.version = w)
    (hr : Room d w) (hw : w < w') (hd : ∀ nk n, d.nodes.get nk = some n → nk.version ≠ w') : Room s w' := by
  constructor
  · intro nk n hn
    rw [h.nodes] at hn
    cases hg : a.nodes.get nk with
    | none => rw [hg] at hn; exact hd nk n hn
    | some n' => rw [ha nk n' hg]; omega
  · intro k l hl e he
    rw [h.hist] at hl
    cases hg : a.valueHistory.get k with
    | none => rw [hg] at hl; have := hr.values k l hl e he; omega
    | some l1 =>
      obtain ⟨y, rfl⟩ := h.only k l1 hg
      rw [hg] at hl
      cases hl
      rcases List.mem_append.1 he with he | he
      · cases hd' : d.valueHistory.get k with
        | none => rw [hd'] at he; cases he
        | some l0 => rw [hd'] at he; have := hr.values k l0 hd' e he; omega
      · rw [List.mem_singleton.1 he]; exact hw

/-- **C84.** A restore of version `w` is started by `new_overwrite` on a store that has room for that version, whatever else it holds, and
its last `add_chunk` returns `Ok` (earlier ones may have failed; all chunks and proofs are arbitrary). Then `finish` succeeds, version `w`
is the tree of the received pairs, with its root hash, number of leaves and verifying proofs, and of every older version everything
that could be read is still read with the same answers. No node is marked stale. There is room for every later version there was room for.

The full claim is for restores started with `new` as well, and for `get_value_option`; both are false (`C84_new_false`, `C84_new_goes_on`,
`C84_value_left_false` below). -/
theorem C84_beside_partial (H : Hasher D) [DecidableEq D] (dst : Store D) (w : Version) (hroom : Room dst w) (root : D) (m : Bool)
    (calls : List (List (Key × Value) × SparseMerkleRangeProof D)) (chunk : List (Key × Value)) (proof : SparseMerkleRangeProof D)
    (r : Restore D) (outs : List (Option String))
    (hrun : (Restore.newOverwrite dst w root m).addChunks H (calls ++ [(chunk, proof)]) = .ok (r, outs ++ [none])) :
    let P := received (calls.map Prod.fst ++ [chunk])
    ∃ (s' : Store D) (f : Key → Option Value), r.finish H = .ok s' ∧ (∀ k x, (k, x) ∈ P ↔ f k = some x) ∧
      Tree.getRootHash H s'.reader w = .ok (smtRoot H (hashed H P)) ∧ Tree.getLeafCount true s'.reader w = .ok (some P.length) ∧
      (∀ k, ∃ p, Tree.getWithProof H s'.reader k w = .ok (f k, p) ∧ p.verify H (smtRoot H (hashed H P)) k (f k) = .ok ()) ∧
      (∀ u, u < w → StillReads H u dst.reader s'.reader) ∧ s'.staleNodes = dst.staleNodes ∧
      (∀ w', w < w' → (∀ nk n, dst.nodes.get nk = some n → nk.version ≠ w') → Room s' w') := by
  intro P
  let e0 : Store D := { (Store.empty : Store D) with allowOverwrite := dst.allowOverwrite }
  have hover : StoreOver w dst e0 dst := StoreOver.refl w dst
  have hlive := Live.fresh H (s := e0) rfl rfl w root m
  obtain ⟨r1, outs1, a1, a2, a3, a4⟩ := hlive.addChunks calls
  obtain ⟨s1, b1, b2⟩ := hlive.addChunks_over calls hover hroom.values hroom.nodes a1
  obtain ⟨r2, out, c1, c2, c3, c4, c5⟩ := a2.addChunk chunk proof
  obtain ⟨s2, d1, d2⟩ := a2.addChunk_over b2 hroom.values hroom.nodes chunk proof c1
  have hb1 : (Restore.newOverwrite dst w root m).addChunks H calls = .ok (r1.on s1, outs1) := b1
  rw [addChunks_append, hb1] at hrun
  have hrun : (Restore.addChunks H (r1.on s1) [(chunk, proof)]).bind (fun y => .ok (y.1, outs1 ++ y.2)) = .ok (r, outs ++ [none]) := hrun
  unfold Restore.addChunks at hrun
  simp only [d1, Res.ok_bind] at hrun
  have hrun : (Except.ok (r2.on s2, outs1 ++ [out]) : Res _) = .ok (r, outs ++ [none]) := hrun
  simp only [Except.ok.injEq, Prod.mk.injEq] at hrun
  obtain ⟨rfl, h2⟩ := hrun
  have hout : out = none := by
    have := congrArg List.getLast? h2
    simpa using this
  have hP : P = receive ((calls.map Prod.fst).foldl receive []) chunk := by
    show (calls.map Prod.fst ++ [chunk]).foldl receive [] = _
    rw [List.foldl_append]; rfl
  rw [← hP] at c2 c4
  obtain ⟨e1, e2, _⟩ := c4.1 hout
  have hPne : P ≠ [] := by rw [hP, receive, e2]; simp [e1]
  obtain ⟨z, hz⟩ := c2.nonempty hPne
  obtain ⟨a', t, f1, f2, f3, _, f5, _⟩ := hz.finish_exact hPne (fun _ => by rw [c5 hout]; rfl)
  obtain ⟨s', g1, g2⟩ := c2.finish_over d2 hroom.values hroom.nodes hPne (c5 hout) f1
  have hsorted := hz.sorted
  have hval : ∀ k x, (k, x) ∈ P ↔ r2.curVal w k = some x := fun k x => (hz.val k x).symm
  have hL : Lists H (r2.curVal w) (hashed H P) := lists_hashed hsorted hval
  have hver : ∀ nk n, a'.nodes.get nk = some n → nk.version = w := fun nk n hn => ((f5 nk n).1 hn).1
  have hb := Below.still g2.below H w
  refine ⟨s', r2.curVal w, g1, hval, ?_, ?_, ?_, fun u hu => StoreOver.still g2 H hver hroom hu, g2.stale, fun w' hw hd => StoreOver.room g2 hver hroom hw hd⟩
  · apply hb.root
    rw [f2.getRootHash, f2.hash hL]
  · apply hb.count
    rw [f2.getLeafCount hL]
    simp [hashed]
  · intro k
    refine ⟨_, hb.proof k _ (f2.getWithProof k), ?_⟩
    rw [← f2.hash hL]
    exact proofOf_verify H f2.hold k

/-- A store that was made by updates and prunings has room for every version from the next one on. -/
theorem C84_room (H : Hasher D) (v0 next : Version) (ops : List Op) (s : Store D) (h : Reached H v0 ops s next) (w : Version) (hw : next ≤ w) :
    Room s w := by
  obtain ⟨hnext, hinv⟩ := h.inv
  constructor
  · intro nk n hn
    have := (hinv.inv.dom nk.version nk.path n hn).2.1
    omega
  · intro k l hl e he
    have hv := hinv.values k
    rw [vhGet, hl] at hv
    have hv : l = histOf v0 (commitsOf ops) k := hv
    rw [hv] at he
    have := (histOf_bounds he).2.1
    omega

/-- **C84**, for genuine chunks. `P` lists the pairs of a readable version of another store in order, and is given in chunks with the range
proofs of that store. Then all of them are taken, and the version restored beside the others has the root hash, answers and proofs of the
source. -/
theorem C84_genuine (H : Hasher D) [DecidableEq D] (v0 next : Version) (ops : List Op) (s : Store D)
    (h : Reached H v0 ops s next) (v : Version) (hv : Readable v0 ops v) (root : D) (hroot : Tree.getRootHash H s.reader v = .ok root)
    (P : List (Key × Value)) (hsorted : P.Pairwise (fun a b => a.1 < b.1)) (hP : ∀ k x, (k, x) ∈ P ↔ contentsAt v0 ops v k = some x)
    (hne : P ≠ []) (hc : ∀ x ∈ smtInputs H 256 (hashed H P), x.digest H ≠ H.placeholder)
    (calls : List (List (Key × Value) × SparseMerkleRangeProof D)) (hsplit : (calls.map Prod.fst).flatten = P)
    (hcalls : ∀ c ∈ calls, ∃ e, c.1.getLast? = some e ∧ Tree.getRangeProof H s.reader e.1 v = .ok c.2)
    (dst : Store D) (w : Version) (hroom : Room dst w) (m : Bool) :
    ∃ r s', (Restore.newOverwrite dst w root m).addChunks H calls = .ok (r, calls.map (fun _ => none)) ∧ r.finish H = .ok s' ∧
      Tree.getRootHash H s'.reader w = .ok root ∧
      (∀ k, Tree.getWithProof H s'.reader k w = Tree.getWithProof H s.reader k v) ∧
      ∀ u, u < w → StillReads H u dst.reader s'.reader := by
  have hf := h.facts hv
  have hL := lists_hashed (H := H) hsorted hP
  have hr : root = smtRoot H (hashed H P) := by
    have := hf.getRootHash
    rw [hroot] at this
    rw [← hf.hash hL]
    exact Except.ok.inj this
  let e0 : Store D := { (Store.empty : Store D) with allowOverwrite := dst.allowOverwrite }
  have hlive := Live.fresh H (s := e0) rfl rfl w root m
  obtain ⟨r, a1, a2, a3⟩ := honest_run hf calls (rest := []) hlive (by simpa [hsplit] using hsorted)
    (by simpa [hsplit] using hP) (by simpa [hsplit, NoPlaceholder] using hc) (by simp only [hsplit, List.nil_append, List.append_nil]; exact hr) hcalls
  obtain ⟨s1, b1, b2⟩ := hlive.addChunks_over calls (StoreOver.refl w dst) hroom.values hroom.nodes a1
  rw [hsplit, List.nil_append] at a2
  have hcne : calls ≠ [] := by rintro rfl; exact hne hsplit.symm
  have hfz := a3 (.inl hcne)
  obtain ⟨z, hz⟩ := a2.nonempty hne
  obtain ⟨a', t, f1, f2, f3, _, f5, _⟩ := hz.finish_exact hne (fun _ => by rw [hfz]; rfl)
  obtain ⟨s', g1, g2⟩ := a2.finish_over b2 hroom.values hroom.nodes hne hfz f1
  have hver : ∀ nk n, a'.nodes.get nk = some n → nk.version = w := fun nk n hn => ((f5 nk n).1 hn).1
  have hb := Below.still g2.below H w
  have hfe : r.curVal w = contentsAt v0 ops v := by
    funext k
    apply Option.ext
    intro x
    exact (hz.val k x).trans (hP k x)
  have hLf : Lists H (r.curVal w) (hashed H P) := by rw [hfe]; exact hL
  refine ⟨r.on s1, s', b1, g1, ?_, ?_, fun u hu => StoreOver.still g2 H hver hroom hu⟩
  · apply hb.root
    rw [f2.getRootHash, f2.hash hLf, hr]
  · intro k
    rw [hb.proof k _ (f2.getWithProof k), hf.getWithProof k, f2.path hLf, hf.path hL, hfe]

/-! ### `new` -/

theorem at?_of_entry (H : Hasher D) {a : Key} {x : D} {t : VTree D} (hm : (a, x) ∈ t.entries) : ∃ v q, t.at? H v q = some (.leaf ⟨a, x⟩) := by
  induction t with
  | empty => simp [VTree.entries] at hm
  | leaf v k y =>
    simp only [VTree.entries, List.mem_singleton, Prod.mk.injEq] at hm
    obtain ⟨rfl, rfl⟩ := hm
    exact ⟨v, [], by simp [VTree.at?]⟩
  | node v m ch ih =>
    simp only [VTree.entries, List.mem_flatMap] at hm
    obtain ⟨i, _, hm⟩ := hm
    obtain ⟨v', q, h⟩ := ih i hm
    exact ⟨v', i :: q, h⟩

/-- **C84**, false of `new`. On a store that was made by updates only and has a version with a key, no restore can be started with `new`,
whatever the version: it panics, or returns an error. -/
theorem C84_new_false (H : Hasher D) (v0 next : Version) (ops : List Op) (s : Store D) (h : Reached H v0 ops s next)
    (hp : ∀ n, Op.purge n ∉ ops) (u : Version) (hu : v0 ≤ u ∧ u < next) (k : Key) (hk : contentsAt v0 ops u k ≠ none)
    (w : Version) (root : D) (m : Bool) :
    Restore.new H s w root m = .error (.panic "Current node key is root.") ∨
    Restore.new H s w root m = .error (.err "Root node would not be written until entire restoration process has completed successfully.") := by
  obtain ⟨hnext, hinv⟩ := h.inv
  have hfl : floorOf ops v0 v0 = v0 := by
    have h1 := floorOf_le ops v0 v0 v0 (Nat.le_refl _) (fun n hn => absurd hn (hp n))
    have h2 := hinv.inv.loge
    exact Nat.le_antisymm h1 h2
  rw [hfl] at hinv
  have hf := hinv.facts hu.1 (by rw [← hnext]; exact hu.2)
  obtain ⟨x, hx⟩ := Option.ne_none_iff_exists'.1 hk
  have hmem : (k, H.value x) ∈ (treeAt H v0 (commitsOf ops) u).entries := by
    refine (hf.hold.2 k _).2 ?_
    have hx' : contents (((commitsOf ops).take (u + 1 - v0)).map Commit.updates) k = some x := by
      rw [List.map_take]; exact hx
    rw [hx']; rfl
  obtain ⟨v, q, hat⟩ := at?_of_entry H hmem
  have hget : s.nodes.get ⟨v, q⟩ = some (.leaf ⟨k, H.value x⟩) := hf.has v q _ hat
  obtain ⟨i1, _, i3, _⟩ := foldl_rightStep_some s.nodes.entries none
  obtain ⟨a, ha⟩ := i3 ⟨⟨v, q⟩, _, FMap.mem_of_get hget⟩
  have hstored : s.nodes.get a.1 = some (.leaf a.2) := by
    rcases i1 a ha with h0 | h0
    · cases h0
    · exact FMap.get_of_mem hinv.nodup h0
  unfold Restore.new
  rw [getRightmostLeaf_eq, ha]
  simp only
  rw [hinv.recover_fails hstored]
  split
  · right; rfl
  · left; rfl

/-- **C84**, false of `new`: what is started on a store that holds a key goes on from there. If it starts at all, every chunk that
begins at or below a key of any version is refused. -/
theorem C84_new_goes_on (H : Hasher D) [DecidableEq D] (s : Store D) (nk : NodeKey) (l : LeafNode D) (hl : s.nodes.get nk = some (.leaf l))
    (w : Version) (root : D) (m : Bool) (r0 : Restore D) (hnew : Restore.new H s w root m = .ok r0) (e : Key × Value) (hle : ¬ l.keyHash < e.1)
    (chunk : List (Key × Value)) (proof : SparseMerkleRangeProof D) :
    r0.addChunk H (e :: chunk) proof = .ok (r0, some "Account keys must come in increasing order.") := by
  obtain ⟨_, _, i3, i4⟩ := foldl_rightStep_some s.nodes.entries none
  obtain ⟨a, ha⟩ := i3 ⟨nk, _, FMap.mem_of_get hl⟩
  have hmax := (i4 a ha).2 nk l (FMap.mem_of_get hl)
  unfold Restore.new at hnew
  rw [getRightmostLeaf_eq, ha] at hnew
  simp only at hnew
  obtain ⟨ps, _, hnew⟩ := Res.bind_ok hnew
  cases hnew
  have hno : ¬ a.2.keyHash < e.1 := by
    intro hlt
    rcases Key.lt_tri l.keyHash e.1 with h | h | h
    · exact hle h
    · rw [← h] at hlt; exact hmax hlt
    · exact hmax (Key.lt_trans hlt h)
  have hnot : Restore.inOrder (⟨s, w, ps, .empty, some a.2, 0, root, m⟩ : Restore D) e.1 = false := by
    simp [Restore.inOrder, hno]
  obtain ⟨k, x⟩ := e
  unfold Restore.addChunk
  simp only [List.isEmpty_cons, Bool.false_eq_true, if_false]
  unfold Restore.addPairs
  rw [if_neg (by rw [hnot]; simp)]

/-! ### Examples -/

-- C84: beside the versions of `exOps`, with a refused call, a refused proof and a genuine one
example : ∃ s r s', Reached termHasher 0 exOps s 3 ∧ Room s 7 ∧
    (Restore.newOverwrite s 7 (smtRoot termHasher (hashed termHasher exPairs)) true).addChunks termHasher
      ([([], ⟨[]⟩), ([(key 1 2, [7])], ⟨[]⟩)] ++ [(exPairs.drop 1, ⟨[]⟩)]) =
      .ok (r, [some "Should not add empty chunks.", some "Root hashes do not match."] ++ [none]) ∧ r.finish termHasher = .ok s' ∧
    StillReads termHasher 1 s.reader s'.reader ∧ Room s' 8 := by
  obtain ⟨s, h⟩ := exOps_reached
  have hroom := C84_room termHasher _ _ _ _ h 7 (by decide)
  have hout : ∀ b, (((Restore.newOverwrite { (Store.empty : Store Term) with allowOverwrite := b } 7
      (smtRoot termHasher (hashed termHasher exPairs)) true).addChunks termHasher
      ([([], ⟨[]⟩), ([(key 1 2, [7])], ⟨[]⟩)] ++ [(exPairs.drop 1, ⟨[]⟩)])).map Prod.snd).toOption =
      some ([some "Should not add empty chunks.", some "Root hashes do not match."] ++ [none]) := by
    intro b; cases b <;> decide +kernel
  obtain ⟨r0, hr0⟩ := of_outcomes (hout s.allowOverwrite)
  obtain ⟨s1, hr, _⟩ := (Live.fresh termHasher rfl rfl 7 _ true).addChunks_over _ (StoreOver.refl 7 s) hroom.values hroom.nodes hr0
  obtain ⟨s', _, hs, _, _, _, _, h1, _, h2⟩ := C84_beside_partial termHasher s 7 hroom _ true _ _ _ _ _ hr
  exact ⟨s, _, s', h, hroom, hr, hs, h1 1 (by decide), h2 8 (by decide) (C84_room termHasher _ _ _ _ h 8 (by decide)).nodes⟩

-- C84: the same with genuine chunks
example : ∃ s p1 p2 root r s', Reached termHasher 0 exOps s 3 ∧ Tree.getRootHash termHasher s.reader 1 = .ok root ∧ Room s 7 ∧
    (Restore.newOverwrite s 7 root false).addChunks termHasher [(exPairs.take 2, p1), (exPairs.drop 2, p2)] = .ok (r, [none, none]) ∧
    r.finish termHasher = .ok s' ∧ Tree.getRootHash termHasher s'.reader 7 = .ok root ∧ Tree.getRootHash termHasher s'.reader 1 = .ok root := by
  obtain ⟨s, h⟩ := exOps_reached
  have hf := h.facts exOps_readable1
  obtain ⟨p1, h1⟩ := exCalls h (key 0x80 0, [5]) (by simp [exPairs])
  obtain ⟨p2, h2⟩ := exCalls h (key 0xF0 0, [3]) (by simp [exPairs])
  have hroom := C84_room termHasher _ _ _ _ h 7 (by decide)
  obtain ⟨r, s', a1, a2, a3, _, a4⟩ := C84_genuine termHasher _ _ _ _ h _ exOps_readable1 _ hf.getRootHash exPairs exPairs_sorted
    exPairs_mem (by simp [exPairs]) (termHasher_placeholder _) [(exPairs.take 2, p1), (exPairs.drop 2, p2)] (by simp)
    (by
      intro c hc
      simp only [List.mem_cons, List.not_mem_nil, or_false] at hc
      rcases hc with rfl | rfl
      · exact ⟨_, rfl, h1⟩
      · exact ⟨_, rfl, h2⟩) s 7 hroom false
  exact ⟨s, p1, p2, _, r, s', h, hf.getRootHash, hroom, a1, a2, a3, (a4 1 (by decide)).root _ hf.getRootHash⟩

-- C84: a store without prunings, and a version with a key
example : ∃ s, Reached termHasher 0 (exOps.take 1) s 2 ∧ (∀ n, Op.purge n ∉ exOps.take 1) ∧ contentsAt 0 (exOps.take 1) 1 (key 1 2) ≠ none := by
  obtain ⟨s, h⟩ := Reached.exists (v0 := 0) (ops := exOps.take 1) termHasher ⟨.inl rfl, by simp [exOps, commitsOf, Op.commits]⟩
  exact ⟨s, h, by simp [exOps], by decide +kernel⟩

/-- Two keys, an overwrite of one of them, and pruning: the leaf of the other is left without its root. -/
def exCut : List Op := [.update false [[(key 1 1, some [1]), (key 0xF0 0, some [3])], [(key 1 1, some [2])]], .purge 1]

def leafParts (n : Option (Node Term)) : Option (Key × Term) :=
  match n with
  | some (.leaf l) => some (l.keyHash, l.valueHash)
  | _ => none

theorem leafParts_some {n : Option (Node Term)} {k : Key} {x : Term} (h : leafParts n = some (k, x)) : n = some (.leaf ⟨k, x⟩) := by
  unfold leafParts at h
  split at h
  · rename_i l
    cases l
    cases h
    rfl
  · cases h

-- C84: a store whose first version was pruned, where `new` does start
example : ∃ s r0, Reached termHasher 0 exCut s 2 ∧ s.nodes.get ⟨0, [0xF]⟩ = some (.leaf ⟨key 0xF0 0, termHasher.value [3]⟩) ∧
    ¬ key 0xF0 0 < key 1 2 ∧ Restore.new termHasher s 7 (smtRoot termHasher (hashed termHasher exPairs)) true = .ok r0 := by
  obtain ⟨s, h⟩ := Reached.exists (v0 := 0) (ops := exCut) termHasher ⟨.inl rfl, by simp [exCut, commitsOf, Op.commits]⟩
  have hd : ((runOps termHasher exCut (Store.empty, 0)).map (fun q =>
      (leafParts (q.1.nodes.get ⟨0, [0xF]⟩),
        (Restore.new termHasher q.1 7 (smtRoot termHasher (hashed termHasher exPairs)) true).isOk))).toOption =
      some (some (key 0xF0 0, termHasher.value [3]), true) := by decide +kernel
  rw [h.run] at hd
  obtain ⟨h1, h2⟩ := Prod.mk.inj (Option.some.inj hd)
  cases hn : Restore.new termHasher s 7 (smtRoot termHasher (hashed termHasher exPairs)) true with
  | error e => simp only [hn] at h2; cases h2
  | ok r0 => exact ⟨s, r0, h, leafParts_some h1, by decide +kernel, hn⟩

/-- **C84**, false of the values in the store. A key of an older version that is not among the restored pairs is absent from the tree, but
the store still answers with its older value when asked for the restored version (`get_value_option`). -/
theorem C84_value_left_false : ∃ (s s' : Store Term) (r : Restore Term) (p : SparseMerkleProof Term), Reached termHasher 0 [.update false [[(key 1 1, some [1])]]] s 1 ∧
    (Restore.newOverwrite s 1 (smtRoot termHasher (hashed termHasher [(key 0xF0 0, [3])])) false).addChunks termHasher
      [([(key 0xF0 0, [3])], ⟨[]⟩)] = .ok (r, [none]) ∧ r.finish termHasher = .ok s' ∧
    Tree.getWithProof termHasher s'.reader (key 1 1) 1 = .ok (none, p) ∧ s'.reader.getValueOption 1 (key 1 1) = some [1] := by
  obtain ⟨s, h⟩ := Reached.exists (v0 := 0) (ops := [.update false [[(key 1 1, some [1])]]]) termHasher ⟨.inl rfl, by simp [commitsOf, Op.commits]⟩
  have hd : ((runOps termHasher [.update false [[(key 1 1, some [1])]]] (Store.empty, 0)).bind (fun q =>
      ((Restore.newOverwrite q.1 1 (smtRoot termHasher (hashed termHasher [(key 0xF0 0, [3])])) false).addChunks termHasher
        [([(key 0xF0 0, [3])], ⟨[]⟩)]).bind (fun x => (x.1.finish termHasher).bind (fun s' =>
          (Tree.getWithProof termHasher s'.reader (key 1 1) 1).map (fun y => (x.2, y.1, s'.reader.getValueOption 1 (key 1 1))))))).toOption =
      some ([none], none, some [1]) := by decide +kernel
  rw [h.run] at hd
  dsimp only [Except.bind] at hd
  cases h1 : (Restore.newOverwrite s 1 (smtRoot termHasher (hashed termHasher [(key 0xF0 0, [3])])) false).addChunks termHasher
        [([(key 0xF0 0, [3])], ⟨[]⟩)] with
  | error e => rw [h1] at hd; cases hd
  | ok x =>
    obtain ⟨r, o⟩ := x
    rw [h1] at hd
    dsimp only [Except.bind] at hd
    cases h2 : r.finish termHasher with
    | error e => rw [h2] at hd; cases hd
    | ok s' =>
      rw [h2] at hd
      dsimp only [Except.bind] at hd
      cases h3 : Tree.getWithProof termHasher s'.reader (key 1 1) 1 with
      | error e => rw [h3] at hd; cases hd
      | ok y =>
        obtain ⟨a, p⟩ := y
        rw [h3] at hd
        have hd := Option.some.inj hd
        simp only [Prod.mk.injEq] at hd
        obtain ⟨rfl, rfl, h4⟩ := hd
        exact ⟨s, s', r, p, h, h1, h2, h3, h4⟩

end Verif.Props
