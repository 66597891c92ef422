import Verif.Proofs.RestoreTorn
import Verif.Props.JmtRestoreBeside
/-! Property C104: restores that break off in the middle of a write. -/

set_option autoImplicit false

namespace Verif.Props
open Verif Verif.Jmt Verif.Spec
variable {D : Type}

/-- The older versions over what is left. -/
theorem LeftOver.still {w : Version} {d s : Store D} (h : LeftOver w d s) (H : Hasher D) (hr : Room d w) {u : Version} (hu : u < w) :
    StillReads H u d.reader s.reader := by
  obtain ⟨mid, hm⟩ : ∃ mid : Reader D, mid = ⟨d.nodes.get, fun v k => if v < w then d.getValueOption v k else none⟩ := ⟨_, rfl⟩
  have hmid : Below mid s.reader := by
    subst hm
    constructor
    · intro nk n hn
      have hn : d.nodes.get nk = some n := hn
      show s.nodes.get nk = some n
      rw [h.nodes nk (hr.nodes nk n hn), hn]
    · intro v k x hx
      have hx : (if v < w then d.getValueOption v k else none) = some x := hx
      split at hx
      · rename_i hv
        show s.getValueOption v k = some x
        rw [← hx, getValueOption_eq, getValueOption_eq]
        rcases h.hist k with e | ⟨y, e⟩
        · rw [e]
        · rw [e]; simp [Nat.not_le.2 hv]
      · cases hx
  have hs := Below.still hmid H u
  have hget : ∀ k, Tree.getWithProof H d.reader k u = Tree.getWithProof H mid k u := by
    have h1 : d.reader.getNodeOption = mid.getNodeOption := by rw [hm]; rfl
    have h2 : ∀ k, d.reader.getValueOption u k = mid.getValueOption u k := by
      intro k'
      rw [hm]
      show d.getValueOption u k' = if u < w then d.getValueOption u k' else none
      rw [if_pos hu]
    exact getWithProof_congr H h1 h2
  have hroot : Tree.getRootHash H d.reader u = Tree.getRootHash H mid u := by subst hm; rfl
  have hcount : ∀ m, Tree.getLeafCount m d.reader u = Tree.getLeafCount m mid u := by intro m; subst hm; rfl
  refine ⟨fun x hx => hs.root x (hroot.symm.trans hx), ?_, ?_, fun m c hc => hs.count m c ((hcount m).symm.trans hc)⟩
  · intro k a ha
    exact hs.proof k a ((hget k).symm.trans ha)
  · intro k p hp
    refine hs.range k p ?_
    unfold Tree.getRangeProof at hp ⊢
    rw [← hget]
    exact hp

theorem LeftOver.room {w w' : Version} {d s : Store D} (h : LeftOver w d s) (hr : Room d w) (hw : w < w')
    (hd : ∀ nk n, d.nodes.get nk = some n → nk.version ≠ w') : Room s w' := by
  constructor
  · intro nk n hn
    by_cases hv : nk.version = w
    · omega
    · rw [h.nodes nk hv] at hn; exact hd nk n hn
  · intro k l hl e he
    have hb : ∀ e ∈ vhGet d.valueHistory k, e.1 < w := Before.vhGet hr.values k
    have hv : vhGet s.valueHistory k = l := by unfold vhGet; rw [hl]; rfl
    rcases h.hist k with e' | ⟨y, e'⟩
    · rw [← hv, e'] at he
      have := hb e he; omega
    · rw [← hv, e'] at he
      rcases List.mem_append.1 he with he | he
      · have := hb e he; omega
      · rw [List.mem_singleton.1 he]; exact hw

/-- C104, what a broken off restore can do. However often restores of version `w` by `new_overwrite` have broken off, in whatever call and with
whatever part of the write done, everything that could be read of an older version is still read with the same answer, and every later version
has its room. -/
theorem C104_left (H : Hasher D) [DecidableEq D] (dst : Store D) (hflag : dst.allowOverwrite = true) (w : Version) (hroom : Room dst w)
    (ts : List (Torn D)) (d : Store D) (hd : tornAll H w dst ts = .ok d) :
    (∀ u, u < w → StillReads H u dst.reader d.reader) ∧ d.staleNodes = dst.staleNodes ∧
      ∀ w', w < w' → (∀ nk n, dst.nodes.get nk = some n → nk.version ≠ w') → Room d w' := by
  have hl := tornAll_left ts (LeftOver.refl w hflag) hroom.values hd
  exact ⟨fun u hu => LeftOver.still hl H hroom hu, hl.stale, fun w' hw h' => LeftOver.room hl hroom hw h'⟩

/-- C104, a restore that breaks off in `add_chunk` is never worse than that: it does not panic, neither in the calls before nor in the last one. -/
theorem C104_no_panic (H : Hasher D) [DecidableEq D] (dst : Store D) (hflag : dst.allowOverwrite = true) (w : Version) (hroom : Room dst w)
    (ts : List (Torn D)) (hts : ∀ t ∈ ts, t.last ≠ none) : ∃ d, tornAll H w dst ts = .ok d := by
  have key : ∀ (ts : List (Torn D)) (s : Store D), (∀ t ∈ ts, t.last ≠ none) → LeftOver w dst s → ∃ d, tornAll H w s ts = .ok d := by
    intro ts
    induction ts with
    | nil => intro s _ _; exact ⟨s, rfl⟩
    | cons t ts ih =>
      intro s hts hl
      obtain ⟨s1, h1⟩ : ∃ s1, t.run H w s = .ok s1 := by
        obtain ⟨c, hc⟩ := Option.ne_none_iff_exists'.1 (hts t List.mem_cons_self)
        have hlive := Live.fresh H (s := { (Store.empty : Store D) with allowOverwrite := s.allowOverwrite }) rfl rfl w t.root t.migration
        obtain ⟨r2, outs2, a1, a2, _⟩ := hlive.addChunks t.calls
        obtain ⟨s1, b1, b2⟩ := hlive.addChunks_again t.calls hl.start hroom.values a1
        have hb1 : (Restore.newOverwrite s w t.root t.migration).addChunks H t.calls = .ok (r2.on s1, outs2) := b1
        unfold Torn.run
        rw [hb1]
        simp only [Res.ok_bind, hc]
        unfold Restore.chunkCut
        split
        · exact ⟨_, rfl⟩
        · rename_i hne
          obtain ⟨r3, out, c1, c2, c3, c4, c5⟩ := a2.addPairs c.1
          rw [Restore.addPairs_on, c1]
          cases out with
          | some msg => exact ⟨_, rfl⟩
          | none =>
            simp only [true_iff] at c5
            have hne : receive ((t.calls.map Prod.fst).foldl receive []) c.1 ≠ [] := by rw [receive, c5]; simp at hne; simp [hne]
            obtain ⟨z, hz⟩ := c2.nonempty hne
            simp only [Except.map]
            rw [show (r3.on s1).verify H c.2 = r3.verify H c.2 from rfl]
            obtain ⟨e, he⟩ : ∃ e, (receive ((t.calls.map Prod.fst).foldl receive []) c.1).getLast? = some e :=
              ⟨_, List.getLast?_eq_some_getLast hne⟩
            rcases hz.verify_total he c.2 with hv | ⟨msg, hv⟩
            · rw [hv]
              obtain ⟨s2, e1, _⟩ := b2.toLeftOver.write hroom.values (hz.frozen_at.cut t.cut)
              exact ⟨s2, e1⟩
            · rw [hv]
              exact ⟨_, rfl⟩
      obtain ⟨d, hd⟩ := ih s1 (fun t ht => hts t (List.mem_cons_of_mem _ ht)) (Torn.run_left hl hroom.values h1)
      exact ⟨d, by unfold tornAll; rw [h1]; exact hd⟩
  exact key ts dst hts (LeftOver.refl w hflag)

/-- C104, the calls after that. On what broken off restores have left, the calls of a new one return what they return on the store as it was before
any of them. -/
theorem C104_outcomes (H : Hasher D) [DecidableEq D] (dst : Store D) (hflag : dst.allowOverwrite = true) (w : Version) (hroom : Room dst w)
    (ts : List (Torn D)) (d : Store D) (hd : tornAll H w dst ts = .ok d) (root : D) (m : Bool)
    (calls : List (List (Key × Value) × SparseMerkleRangeProof D)) :
    ∃ r r' outs, (Restore.newOverwrite d w root m).addChunks H calls = .ok (r, outs) ∧
      (Restore.newOverwrite dst w root m).addChunks H calls = .ok (r', outs) := by
  have hl := tornAll_left ts (LeftOver.refl w hflag) hroom.values hd
  have hlive := Live.fresh H (s := { (Store.empty : Store D) with allowOverwrite := true }) rfl rfl w root m
  obtain ⟨r1, outs, a1, _⟩ := hlive.addChunks calls
  have h1 := hl.start
  have h2 := (LeftOver.refl w hflag).start
  rw [hl.flag] at h1
  rw [hflag] at h2
  obtain ⟨s1, b1, _⟩ := hlive.addChunks_again calls h1 hroom.values a1
  obtain ⟨s2, c1, _⟩ := hlive.addChunks_again calls h2 hroom.values a1
  exact ⟨_, _, outs, b1, c1⟩

/-- **C104, partial.** Restores of version `w` by `new_overwrite` have broken off any number of times, in whatever calls and with whatever parts of
the writes done, also restores of other trees. Then one more is made whose last `add_chunk` returns `Ok`, on a store that lets nodes be
overwritten. `finish` succeeds, and version `w` is the tree of the pairs received by this last restore, with its root hash, number of leaves and
verifying proofs; older versions are read as before all of this. Missing: going on by `new` (`C104_resume_false`), and stores that do not let
nodes be overwritten (`C104_no_overwrite_false`). -/
theorem C104_started_over_partial (H : Hasher D) [DecidableEq D] (dst : Store D) (hflag : dst.allowOverwrite = true) (w : Version) (hroom : Room dst w)
    (ts : List (Torn D)) (d : Store D) (hd : tornAll H w dst ts = .ok d) (root : D) (m : Bool)
    (calls : List (List (Key × Value) × SparseMerkleRangeProof D)) (chunk : List (Key × Value)) (proof : SparseMerkleRangeProof D)
    (r : Restore D) (outs : List (Option String))
    (hrun : (Restore.newOverwrite d w root m).addChunks H (calls ++ [(chunk, proof)]) = .ok (r, outs ++ [none])) :
    let P := received (calls.map Prod.fst ++ [chunk])
    ∃ (s' : Store D) (f : Key → Option Value), r.finish H = .ok s' ∧ (∀ k x, (k, x) ∈ P ↔ f k = some x) ∧
      Tree.getRootHash H s'.reader w = .ok (smtRoot H (hashed H P)) ∧ Tree.getLeafCount true s'.reader w = .ok (some P.length) ∧
      (∀ k, ∃ p, Tree.getWithProof H s'.reader k w = .ok (f k, p) ∧ p.verify H (smtRoot H (hashed H P)) k (f k) = .ok ()) ∧
      (∀ u, u < w → StillReads H u dst.reader s'.reader) ∧ s'.staleNodes = dst.staleNodes ∧
      (∀ w', w < w' → (∀ nk n, dst.nodes.get nk = some n → nk.version ≠ w') → Room s' w') := by
  intro P
  have hl := tornAll_left ts (LeftOver.refl w hflag) hroom.values hd
  let e0 : Store D := { (Store.empty : Store D) with allowOverwrite := d.allowOverwrite }
  have hlive := Live.fresh H (s := e0) rfl rfl w root m
  obtain ⟨r1, outs1, a1, a2, a3, a4⟩ := hlive.addChunks calls
  obtain ⟨s1, b1, b2⟩ := hlive.addChunks_again calls hl.start hroom.values a1
  obtain ⟨r2, out, c1, c2, c3, c4, c5⟩ := a2.addChunk chunk proof
  obtain ⟨s2, d1, d2⟩ := a2.addChunk_again b2 hroom.values chunk proof c1
  have hb1 : (Restore.newOverwrite d w root m).addChunks H calls = .ok (r1.on s1, outs1) := b1
  rw [addChunks_append, hb1] at hrun
  have hrun : (Restore.addChunks H (r1.on s1) [(chunk, proof)]).bind (fun y => .ok (y.1, outs1 ++ y.2)) = .ok (r, outs ++ [none]) := hrun
  unfold Restore.addChunks at hrun
  simp only [d1, Res.ok_bind] at hrun
  have hrun : (Except.ok (r2.on s2, outs1 ++ [out]) : Res _) = .ok (r, outs ++ [none]) := hrun
  simp only [Except.ok.injEq, Prod.mk.injEq] at hrun
  obtain ⟨rfl, h2⟩ := hrun
  have hout : out = none := by
    have := congrArg List.getLast? h2
    simpa using this
  have hP : P = receive ((calls.map Prod.fst).foldl receive []) chunk := by
    show (calls.map Prod.fst ++ [chunk]).foldl receive [] = _
    rw [List.foldl_append]; rfl
  rw [← hP] at c2 c4
  obtain ⟨e1, e2, _⟩ := c4.1 hout
  have hPne : P ≠ [] := by rw [hP, receive, e2]; simp [e1]
  obtain ⟨z, hz⟩ := c2.nonempty hPne
  obtain ⟨a', t, f1, f2, f3, _, f5, _⟩ := hz.finish_exact hPne (fun _ => by rw [c5 hout]; rfl)
  obtain ⟨s', g1, g2⟩ := c2.finish_again d2 hroom.values f1
  have hsorted := hz.sorted
  have hval : ∀ k x, (k, x) ∈ P ↔ r2.curVal w k = some x := fun k x => (hz.val k x).symm
  have hL : Lists H (r2.curVal w) (hashed H P) := lists_hashed hsorted hval
  have hb := Below.still g2.below H w
  have hleft := g2.toLeftOver
  refine ⟨s', r2.curVal w, g1, hval, ?_, ?_, ?_, fun u hu => LeftOver.still hleft H hroom hu, hleft.stale, fun w' hw hd => LeftOver.room hleft hroom hw hd⟩
  · apply hb.root
    rw [f2.getRootHash, f2.hash hL]
  · apply hb.count
    rw [f2.getLeafCount hL]
    simp [hashed]
  · intro k
    refine ⟨_, hb.proof k _ (f2.getWithProof k), ?_⟩
    rw [← f2.hash hL]
    exact proofOf_verify H f2.hold k

/-- C104, for genuine chunks: all of them are taken, and the version has the root hash, answers and proofs of the source. -/
theorem C104_genuine (H : Hasher D) [DecidableEq D] (v0 next : Version) (ops : List Op) (s : Store D)
    (h : Reached H v0 ops s next) (v : Version) (hv : Readable v0 ops v) (root : D) (hroot : Tree.getRootHash H s.reader v = .ok root)
    (P : List (Key × Value)) (hsorted : P.Pairwise (fun a b => a.1 < b.1)) (hP : ∀ k x, (k, x) ∈ P ↔ contentsAt v0 ops v k = some x)
    (hne : P ≠ []) (hc : ∀ x ∈ smtInputs H 256 (hashed H P), x.digest H ≠ H.placeholder)
    (calls : List (List (Key × Value) × SparseMerkleRangeProof D)) (hsplit : (calls.map Prod.fst).flatten = P)
    (hcalls : ∀ c ∈ calls, ∃ e, c.1.getLast? = some e ∧ Tree.getRangeProof H s.reader e.1 v = .ok c.2)
    (dst : Store D) (hflag : dst.allowOverwrite = true) (w : Version) (hroom : Room dst w) (ts : List (Torn D)) (d : Store D)
    (hd : tornAll H w dst ts = .ok d) (m : Bool) :
    ∃ r s', (Restore.newOverwrite d w root m).addChunks H calls = .ok (r, calls.map (fun _ => none)) ∧ r.finish H = .ok s' ∧
      Tree.getRootHash H s'.reader w = .ok root ∧
      (∀ k, Tree.getWithProof H s'.reader k w = Tree.getWithProof H s.reader k v) ∧
      ∀ u, u < w → StillReads H u dst.reader s'.reader := by
  have hf := h.facts hv
  have hL := lists_hashed (H := H) hsorted hP
  have hr : root = smtRoot H (hashed H P) := by
    have := hf.getRootHash
    rw [hroot] at this
    rw [← hf.hash hL]
    exact Except.ok.inj this
  have hl := tornAll_left ts (LeftOver.refl w hflag) hroom.values hd
  let e0 : Store D := { (Store.empty : Store D) with allowOverwrite := d.allowOverwrite }
  have hlive := Live.fresh H (s := e0) rfl rfl w root m
  obtain ⟨r, a1, a2, a3⟩ := honest_run hf calls (rest := []) hlive (by simpa [hsplit] using hsorted)
    (by simpa [hsplit] using hP) (by simpa [hsplit, NoPlaceholder] using hc) (by simp only [hsplit, List.nil_append, List.append_nil]; exact hr) hcalls
  obtain ⟨s1, b1, b2⟩ := hlive.addChunks_again calls hl.start hroom.values a1
  rw [hsplit, List.nil_append] at a2
  have hcne : calls ≠ [] := by rintro rfl; exact hne hsplit.symm
  have hfz := a3 (.inl hcne)
  obtain ⟨z, hz⟩ := a2.nonempty hne
  obtain ⟨a', t, f1, f2, f3, _, f5, _⟩ := hz.finish_exact hne (fun _ => by rw [hfz]; rfl)
  obtain ⟨s', g1, g2⟩ := a2.finish_again b2 hroom.values f1
  have hb := Below.still g2.below H w
  have hleft := g2.toLeftOver
  have hfe : r.curVal w = contentsAt v0 ops v := by
    funext k
    apply Option.ext
    intro x
    exact (hz.val k x).trans (hP k x)
  have hLf : Lists H (r.curVal w) (hashed H P) := by rw [hfe]; exact hL
  refine ⟨r.on s1, s', b1, g1, ?_, ?_, fun u hu => LeftOver.still hleft H hroom hu⟩
  · apply hb.root
    rw [f2.getRootHash, f2.hash hLf, hr]
  · intro k
    rw [hb.proof k _ (f2.getWithProof k), hf.getWithProof k, f2.path hLf, hf.path hL, hfe]

/-! ### Examples and counterexamples -/

/-- An empty store that lets nodes be overwritten, or does not. -/
def exBlank (o : Bool) : Store Term := { (Store.empty : Store Term) with allowOverwrite := o }

/-- A restore of `exPairs` that ends after the nodes of its first chunk have been written, before any value. -/
def exTorn : Torn Term :=
  ⟨smtRoot termHasher (hashed termHasher exPairs), false, [], some (exPairs.take 2, ⟨[.leaf (key 0xF0 0) (.value [3])]⟩), ⟨fun _ => true, fun _ => false⟩⟩

/-- What was returned instead of `Ok`. -/
def exFailure {α : Type} : Res α → Option Err
  | .ok _ => none
  | .error e => some e

/-- The restore taken up again by `new` after `t` has broken off on a blank store, with one more chunk: the outcome of that chunk, the root hash
of the finished version, and the failure of reading `k`. -/
def exTakenUp (t : Torn Term) (chunk : List (Key × Value)) (k : Key) : Option (Option String × Term × Option Err) :=
  (do
    let d ← tornAll termHasher 7 (exBlank true) [t]
    let r ← Restore.new termHasher d 7 t.root false
    let (r, o) ← r.addChunk termHasher chunk ⟨[]⟩
    let s ← r.finish termHasher
    let root ← Tree.getRootHash termHasher s.reader 7
    pure (o, root, exFailure (Tree.getWithProof termHasher s.reader k 7))).toOption

/-- **C104**, false of `new`: the nodes of a chunk have been written, its values not. `new` goes on after the stored leaf, the remaining pairs are
taken with a genuine proof, `finish` returns `Ok`, and the version has the root hash expected. But the value of the stored leaf is not there. -/
theorem C104_resume_false : exTakenUp exTorn (exPairs.drop 1) (key 1 2) = some (none, exTorn.root, some (.err "Missing value")) := by
  decide +kernel

/-- Pairs whose first two keys agree in their first nibble. -/
def exClose : List (Key × Value) := [(key 0x11 0, [1]), (key 0x12 0, [7]), (key 0x80 0, [5]), (key 0xF0 0, [3])]

/-- A restore of `exClose` that ends when everything of its first chunk has been written but the leaf of the first key. -/
def exTornLeaf : Torn Term :=
  ⟨smtRoot termHasher (hashed termHasher exClose), false, [], some (exClose.take 3, ⟨[.leaf (key 0xF0 0) (.value [3])]⟩),
    ⟨fun nk => decide (nk.path ≠ [1, 1]), fun _ => true⟩⟩

/-- **C104**, false of `new` also when the values are all there: a leaf is missing below an internal node that has been written. -/
theorem C104_resume_leaf_false : exTakenUp exTornLeaf (exClose.drop 2) (key 0x11 0) = some (none, exTornLeaf.root, some (.err "Missing node")) := by
  decide +kernel

/-- **C104**, false of a store that does not let nodes be overwritten: after a restore has broken off, `new_overwrite` panics on the first chunk. -/
theorem C104_no_overwrite_false : exFailure (do
      let d ← tornAll termHasher 7 (exBlank false) [exTorn]
      (Restore.newOverwrite d 7 exTorn.root false).addChunks termHasher [(exPairs, ⟨[]⟩)]) =
    some (.panic "assertion failed: replaced == None") := by decide +kernel

/-- A blank store has room. -/
theorem exBlank_room (o : Bool) (w : Version) : Room (exBlank o) w := by
  constructor
  · intro nk n h; cases h
  · intro k l h; cases h

-- C104: three restores break off, one of them in `finish` and one of another tree; the fourth gives the version
example : ∃ d r s', tornAll termHasher 7 (exBlank true) [exTorn, exTornLeaf, { exTorn with calls := [(exPairs, ⟨[]⟩)], last := none }] = .ok d ∧
    (Restore.newOverwrite d 7 exTorn.root false).addChunks termHasher ([] ++ [(exPairs, ⟨[]⟩)]) = .ok (r, [] ++ [none]) ∧
    r.finish termHasher = .ok s' ∧ Tree.getRootHash termHasher s'.reader 7 = .ok exTorn.root := by
  have hout : ((do
      let d ← tornAll termHasher 7 (exBlank true) [exTorn, exTornLeaf, { exTorn with calls := [(exPairs, ⟨[]⟩)], last := none }]
      let (_, outs) ← (Restore.newOverwrite d 7 exTorn.root false).addChunks termHasher ([] ++ [(exPairs, ⟨[]⟩)])
      pure outs) : Res _).toOption = some [none] := by decide +kernel
  cases hd : tornAll termHasher 7 (exBlank true) [exTorn, exTornLeaf, { exTorn with calls := [(exPairs, ⟨[]⟩)], last := none }] with
  | error e => rw [hd] at hout; cases hout
  | ok d =>
    rw [hd, Res.ok_bind] at hout
    cases hr : (Restore.newOverwrite d 7 exTorn.root false).addChunks termHasher ([] ++ [(exPairs, ⟨[]⟩)]) with
    | error e => rw [hr] at hout; cases hout
    | ok q =>
      obtain ⟨r, outs⟩ := q
      rw [hr] at hout
      obtain rfl : outs = [none] := Option.some.inj hout
      obtain ⟨s', _, h1, _, h2, _⟩ := C104_started_over_partial termHasher (exBlank true) rfl 7 (exBlank_room _ _) _ d hd exTorn.root false [] exPairs ⟨[]⟩ r [] hr
      refine ⟨d, r, s', rfl, hr, h1, h2.trans ?_⟩
      decide +kernel

-- C104: the same beside the versions of a store, with genuine chunks
example : ∃ s p1 p2 root, Reached termHasher 0 exOps s 3 ∧ Tree.getRootHash termHasher s.reader 1 = .ok root ∧
    Room { s with allowOverwrite := true } 7 ∧ ∃ d r s', tornAll termHasher 7 { s with allowOverwrite := true } [exTorn, exTornLeaf] = .ok d ∧
    (Restore.newOverwrite d 7 root false).addChunks termHasher [(exPairs.take 2, p1), (exPairs.drop 2, p2)] = .ok (r, [none, none]) ∧
    r.finish termHasher = .ok s' ∧ Tree.getRootHash termHasher s'.reader 7 = .ok root ∧ Tree.getRootHash termHasher s'.reader 1 = .ok root := by
  obtain ⟨s, h⟩ := exOps_reached
  have hf := h.facts exOps_readable1
  obtain ⟨p1, h1⟩ := exCalls h (key 0x80 0, [5]) (by simp [exPairs])
  obtain ⟨p2, h2⟩ := exCalls h (key 0xF0 0, [3]) (by simp [exPairs])
  have hr := C84_room termHasher _ _ _ _ h 7 (by decide)
  have hroom : Room { s with allowOverwrite := true } 7 := ⟨hr.nodes, hr.values⟩
  obtain ⟨d, hd⟩ := C104_no_panic termHasher { s with allowOverwrite := true } rfl 7 hroom [exTorn, exTornLeaf] (by
    intro t ht
    simp only [List.mem_cons, List.not_mem_nil, or_false] at ht
    rcases ht with rfl | rfl <;> simp [exTorn, exTornLeaf])
  obtain ⟨r, s', a1, a2, a3, _, a4⟩ := C104_genuine termHasher _ _ _ _ h _ exOps_readable1 _ hf.getRootHash exPairs exPairs_sorted
    exPairs_mem (by simp [exPairs]) (termHasher_placeholder _) [(exPairs.take 2, p1), (exPairs.drop 2, p2)] (by simp)
    (by
      intro c hc
      simp only [List.mem_cons, List.not_mem_nil, or_false] at hc
      rcases hc with rfl | rfl
      · exact ⟨_, rfl, h1⟩
      · exact ⟨_, rfl, h2⟩) { s with allowOverwrite := true } rfl 7 hroom _ d hd false
  exact ⟨s, p1, p2, _, h, hf.getRootHash, hroom, d, r, s', hd, a1, a2, a3, (a4 1 (by decide)).root _ hf.getRootHash⟩

end Verif.Props
