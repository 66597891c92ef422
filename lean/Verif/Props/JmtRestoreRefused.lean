import Verif.Proofs.RestoreRefused
import Verif.Props.JmtRestoreTorn
import Verif.Props.JmtRestoreFailing
/-! Chunks that the store refuses: C105. -/

set_option autoImplicit false

namespace Verif.Props
open Verif Verif.Jmt Verif.Spec

variable {D : Type}

/-- A restore of version `w` that has just been started, by `new` or by `new_overwrite`, on the store `dst`. -/
def Started (H : Hasher D) (dst : Store D) (w : Version) (r : Restore D) : Prop :=
  ∃ root m, Restore.new H dst w root m = .ok r ∨ r = Restore.newOverwrite dst w root m

theorem Started.due {H : Hasher D} {dst : Store D} {w : Version} {r : Restore D} (h : Started H dst w r) (Q : Key → Prop) : r.Due w Q ∧ r.store = dst := by
  obtain ⟨root, m, h | rfl⟩ := h
  · exact Restore.due_new h Q
  · exact ⟨Restore.due_newOverwrite .., rfl⟩

/-- A key of a pair that is given in one of the calls. -/
def Given (calls : List (List (Key × Value) × SparseMerkleRangeProof D)) (k : Key) : Prop := ∃ c ∈ calls, ∃ e ∈ c.1, e.1 = k

/-- No value that the store has for a key given in the calls is of a version after `w`. -/
def NoLater (dst : Store D) (w : Version) (calls : List (List (Key × Value) × SparseMerkleRangeProof D)) : Prop :=
  ∀ k h, Given calls k → dst.valueHistory.get k = some h → ∀ e ∈ h, e.1 ≤ w

theorem ahead_later {dst : Store D} {w : Version} {k : Key} (h : Ahead dst.valueHistory k w) :
    ∃ l e, dst.valueHistory.get k = some l ∧ e ∈ l ∧ w < e.1 := by
  obtain ⟨e, he, hlt⟩ := h
  unfold vhGet at he
  cases hg : dst.valueHistory.get k with
  | none => rw [hg] at he; cases he
  | some l =>
    rw [hg] at he
    exact ⟨l, e, rfl, List.mem_of_getLast? he, hlt⟩

/-- **C105 (partial).** If the store has no value of a version after the one restored for a key in the chunks, a call of `add_chunk` that returns `Err` leaves
the store as it was, so that calls none of which returns `Ok` leave it as it was before the first. (The calls are those of the model that the other theorems
on restores speak of.) Missing: stores that have later values for these keys, of which the claim is false (`C105_refused_chunk_false`). -/
theorem C105_unchanged_partial (H : Hasher D) [DecidableEq D] (dst : Store D) (w : Version) (r0 : Restore D)
    (h0 : Started H dst w r0) (calls : List (List (Key × Value) × SparseMerkleRangeProof D)) (hdst : NoLater dst w calls) :
    r0.addChunksLeft H calls = r0.addChunks H calls ∧
      ∀ r outs, r0.addChunksLeft H calls = .ok (r, outs) → none ∉ outs → r.store = dst := by
  obtain ⟨h1, h2⟩ := h0.due (Given calls)
  obtain ⟨h3, h4⟩ := Restore.addChunksLeft_eq (H := H) calls h1 (fun c hc e he => ⟨c, hc, e, he, rfl⟩) (fun k hk ha => by
    rw [h2] at ha
    obtain ⟨l, e, hl, he, hlt⟩ := ahead_later ha
    have := hdst k l hk hl e he
    omega)
  refine ⟨h3, fun r outs h hn => ?_⟩
  rw [h3] at h
  rw [h4 r outs h hn, h2]

/-- C105, on any store: when a call returns `Err`, either the store is as before, or the text is `values must be pushed in order` and some key given so far has
a value of a version after the one restored. -/
theorem C105_refused (H : Hasher D) [DecidableEq D] (dst : Store D) (w : Version) (r0 : Restore D)
    (h0 : Started H dst w r0) (calls : List (List (Key × Value) × SparseMerkleRangeProof D)) (r r' : Restore D) (outs : List (Option String))
    (hrun : r0.addChunksLeft H calls = .ok (r, outs)) (chunk : List (Key × Value)) (proof : SparseMerkleRangeProof D) (msg : String)
    (hc : r.addChunkLeft H chunk proof = .ok (r', some msg)) :
    r'.store = r.store ∨ msg = "values must be pushed in order" ∧
      ∃ k h e, Given ((chunk, proof) :: calls) k ∧ r.store.valueHistory.get k = some h ∧ e ∈ h ∧ w < e.1 := by
  obtain ⟨h1, h2⟩ := h0.due (Given ((chunk, proof) :: calls))
  have h3 := Restore.addChunksLeft_due calls h1 (fun c hc e he => ⟨c, List.mem_cons_of_mem _ hc, e, he, rfl⟩) hrun
  obtain ⟨-, -, ⟨_, _, _, h, _⟩ | ⟨h, _⟩ | ⟨h, _, k, hk, ha⟩⟩ :=
    Restore.addChunkLeft_cases h3 (fun e he => ⟨(chunk, proof), List.mem_cons_self, e, he, rfl⟩) hc
  · exact .inl h
  · cases h
  · cases h
    obtain ⟨l, e, hl, he, hlt⟩ := ahead_later ha
    exact .inr ⟨rfl, k, l, e, hk, hl, he, hlt⟩

/-- C105, after a chunk that the store has refused: no call of `add_chunk` returns `Ok` any more, and `finish` does not either. -/
theorem C105_no_way_on (H : Hasher D) [DecidableEq D] (dst : Store D) (w : Version) (r0 : Restore D)
    (h0 : Started H dst w r0) (calls more : List (List (Key × Value) × SparseMerkleRangeProof D)) (r r' : Restore D) (outs outs' : List (Option String))
    (hrun : r0.addChunksLeft H calls = .ok (r, outs)) (hout : some "values must be pushed in order" ∈ outs)
    (hmore : r.addChunksLeft H more = .ok (r', outs')) :
    none ∉ outs' ∧ ∀ s, r'.finish H ≠ .ok s := by
  obtain ⟨h1, h2⟩ := Restore.addChunksLeft_refused calls more (h0.due _).1 hrun hout hmore
  exact ⟨h1, fun s => h2.finish s⟩

/-! ### Counterexamples -/

/-- Version 0 has two keys, version 1 another value for the first of them. -/
def exTwo : List Op := [.update false [[(key 0x11 0, some [1]), (key 0x81 0, some [2])]], .update false [[(key 0x11 0, some [3])]]]

/-- Other pairs, to be restored as version 0. -/
def exOther : List (Key × Value) := [(key 0x11 0, [7]), (key 0x81 0, [8])]

/-- The store after `ops` from version `v0` on, with or without overwriting. -/
def exRestored (v0 : Version) (ops : List Op) (o : Bool) : Res (Store Term) :=
  (runOps termHasher ops (Store.empty, v0)).map (fun s => { s.1 with allowOverwrite := o })

/-- Whether `get_with_proof` returns the value with a proof that verifies against the root hash of the version. -/
def exProves (s : Store Term) (v : Version) (k : Key) (x : Option Value) : Bool :=
  (do
    let d ← Tree.getRootHash termHasher s.reader v
    let (y, p) ← Tree.getWithProof termHasher s.reader k v
    ensure (decide (y = x)) "another value"
    p.verify termHasher d k y).isOk

/-- One chunk of a restore of version `w` by `new_overwrite` on the store of `exTwo`: the outcome, and
whether a value is read at a version, with a proof that verifies, before and after it. -/
def exRefusal (w : Version) (root : Term) (chunk : List (Key × Value)) (proof : SparseMerkleRangeProof Term) (v : Version) (k : Key)
    (x : Option Value) : Option (Option String × Bool × Bool) :=
  (do
    let s ← exRestored 0 exTwo true
    let (r, out) ← (Restore.newOverwrite s w root false).addChunkLeft termHasher chunk proof
    pure (out, exProves s v k x, exProves r.store v k x)).toOption

/-- **C105 is false**: the chunk is refused, because a key has a later value. But its nodes have been written over those of the version, so that the proof of
another version of the key, which had verified before, does not any more. -/
theorem C105_refused_chunk_false : exRefusal 0 (smtRoot termHasher (hashed termHasher exOther)) exOther ⟨[]⟩ 0 (key 0x11 0) (some [1]) =
    some (some "values must be pushed in order", true, false) := by decide +kernel

/-- The first version is version 5 and holds a key that is to be restored. -/
def exLate : List Op := [.update false [[(key 1 2, some [1])]]]

/-- The proof of the first two pairs of `exPairs`. -/
def exTwoProof : SparseMerkleRangeProof Term := ⟨[.leaf (key 0xF0 0) (.value [3])]⟩

/-- **C105 is false** also of the restore itself: on a store that does not let nodes be overwritten the first chunk is refused, and the next one panics on
the nodes that the first one has left. -/
theorem C105_next_chunk_panics : exFailure (do
      let s ← exRestored 5 exLate false
      let (r, out) ← (Restore.newOverwrite s 0 exWanted false).addChunkLeft termHasher (exPairs.take 2) exTwoProof
      if out = some "values must be pushed in order" then r.addChunkLeft termHasher (exPairs.drop 2) ⟨[]⟩ else .error (.err "not refused")) =
    some (.panic "assertion failed: replaced == None") := by decide +kernel

-- with overwriting, the next chunk is refused as well, and `finish` is too
example : (do
      let s ← exRestored 5 exLate true
      let (r, outs) ← (Restore.newOverwrite s 0 exWanted false).addChunksLeft termHasher [(exPairs.take 2, exTwoProof), (exPairs.drop 2, ⟨[]⟩)]
      pure (outs, exFailure (r.finish termHasher))).toOption =
    some ([some "values must be pushed in order", some "values must be pushed in order"], some (.err "values must be pushed in order")) := by
  decide +kernel

-- a store with older values only, and a chunk that is refused for its proof
example : exRefusal 7 exWanted (exPairs.take 2) ⟨[]⟩ 1 (key 0x11 0) (some [3]) =
    some (some "Root hashes do not match.", true, true) := by decide +kernel

-- the hypotheses of C105_unchanged_partial, on a store with a value of a later version
example : ∃ s, exRestored 5 exLate true = .ok s ∧ NoLater s 0 [(exOther, ⟨[]⟩)] ∧ Started termHasher s 0 (Restore.newOverwrite s 0 exWanted false) := by
  have h1 : (exRestored 5 exLate true).isOk = true := by decide +kernel
  have h2 : ((exRestored 5 exLate true).toOption.map (fun s => exOther.all (fun e => (s.valueHistory.get e.1).isNone))) = some true := by
    decide +kernel
  cases hs : exRestored 5 exLate true with
  | error e => rw [hs] at h1; cases h1
  | ok s =>
    rw [hs] at h2
    refine ⟨s, rfl, ?_, _, _, .inr rfl⟩
    rintro k h ⟨c, hc, e, he, rfl⟩ hk
    obtain rfl := List.mem_singleton.1 hc
    simp only [Except.toOption, Option.map_some, Option.some.injEq, List.all_eq_true] at h2
    have := h2 e he
    rw [hk] at this
    cases this

end Verif.Props
