import Verif.Proofs.Frame
import Verif.Props.JmtRestoreBeside
/-! Property C86: histories that go on after each of several restores into one store. -/

set_option autoImplicit false

namespace Verif.Props
open Verif Verif.Jmt Verif.Spec
variable {D : Type}

/-- The prunings among operations. -/
def prunings (ops : List Op) : List Op := ops.filter (fun op => match op with | .purge _ => true | _ => false)

/-- A store made by updates and prunings from the empty store on, into which then versions were restored with `new_overwrite`, any number
of times, each at a version number not used before and each followed by further updates and prunings. The layers are the histories this
store consists of, each with its first version; the pairs received by a restore are the first commit of their layer. -/
inductive Layers (H : Hasher D) [DecidableEq D] : List (Version × List Op) → Store D → Version → Prop
  | first {v0 next : Version} {ops : List Op} {s : Store D} : Reached H v0 ops s next → Layers H [(v0, ops)] s next
  | restored {L : List (Version × List Op)} {s s' s2 : Store D} {next next2 w : Version} {root : D} {m : Bool}
      {calls : List (List (Key × Value) × SparseMerkleRangeProof D)} {chunk : List (Key × Value)} {proof : SparseMerkleRangeProof D}
      {r : Restore D} {outs : List (Option String)} {ops : List Op} :
      Layers H L s next → next ≤ w →
      (Restore.newOverwrite s w root m).addChunks H (calls ++ [(chunk, proof)]) = .ok (r, outs ++ [none]) → r.finish H = .ok s' →
      BatchesFilled ops → runOps H ops (s', w + 1) = .ok (s2, next2) →
      Layers H (L ++ [(w, .batch m [received (calls.map Prod.fst ++ [chunk])] :: ops)]) s2 next2

/-- Version `u` of the store is the tree of the map `f`: its root hash, its number of keys, and an answer with a verifying proof for
every key. -/
def ReadsAs (H : Hasher D) [DecidableEq D] (s : Store D) (u : Version) (f : Key → Option Value) : Prop :=
  ∃ L, Lists H f L ∧ Tree.getRootHash H s.reader u = .ok (smtRoot H L) ∧ Tree.getLeafCount true s.reader u = .ok (some L.length) ∧
    ∀ k, ∃ p, Tree.getWithProof H s.reader k u = .ok (f k, p) ∧ p.verify H (smtRoot H L) k (f k) = .ok ()

theorem VersionFacts.readsAs {H : Hasher D} [DecidableEq D] {s : Store D} {u : Version} {f : Key → Option Value} {t : VTree D} (hf : VersionFacts H s u f t) :
    ReadsAs H s u f := by
  have hL := hf.hold.lists
  refine ⟨_, hL, by rw [hf.getRootHash, hf.hash hL], hf.getLeafCount hL, ?_⟩
  intro k
  refine ⟨_, hf.getWithProof k, ?_⟩
  rw [← hf.hash hL]
  exact proofOf_verify H hf.hold k

theorem StillReads.readsAs {H : Hasher D} [DecidableEq D] {s s' : Store D} {u : Version} {f : Key → Option Value} (h : StillReads H u s.reader s'.reader)
    (hs : ReadsAs H s u f) : ReadsAs H s' u f := by
  obtain ⟨L, h1, h2, h3, h4⟩ := hs
  refine ⟨L, h1, h.root _ h2, h.count _ _ h3, ?_⟩
  intro k
  obtain ⟨p, h5, h6⟩ := h4 k
  exact ⟨p, h.proof k _ h5, h6⟩

/-- A restore on a store with older versions only. -/
theorem tidy_restore {H : Hasher D} [DecidableEq D] {dst : Store D} {w : Version} (ht : Tidy w dst) {root : D} {m : Bool}
    {calls : List (List (Key × Value) × SparseMerkleRangeProof D)} {chunk : List (Key × Value)} {proof : SparseMerkleRangeProof D}
    {r : Restore D} {outs : List (Option String)}
    (hrun : (Restore.newOverwrite dst w root m).addChunks H (calls ++ [(chunk, proof)]) = .ok (r, outs ++ [none])) :
    ∃ a s', r.finish H = .ok s' ∧ Beside H w [.batch m (received (calls.map Prod.fst ++ [chunk]))] w dst a s' := by
  have hP : received (calls.map Prod.fst ++ [chunk]) = receive ((calls.map Prod.fst).foldl receive []) chunk := by
    show (calls.map Prod.fst ++ [chunk]).foldl receive [] = _
    rw [List.foldl_append]; rfl
  have hbv : Before w dst.valueHistory := by
    intro k l hl e he
    exact ht.values k e (by rw [vhGet, hl]; exact he)
  have hbn : ∀ nk n, dst.nodes.get nk = some n → nk.version ≠ w := fun nk n hn => Nat.ne_of_lt (ht.nodes nk n hn)
  let e0 : Store D := { (Store.empty : Store D) with allowOverwrite := dst.allowOverwrite }
  have hover : StoreOver w dst e0 dst := StoreOver.refl w dst
  have hlive := Live.fresh H (s := e0) rfl rfl w root m
  have hclean : (Restore.newOverwrite e0 w root m).Clean :=
    ⟨Store.Clean.fresh rfl rfl, by intro e he; cases he⟩
  obtain ⟨r1, outs1, a1, a2, a3, a4⟩ := hlive.addChunks calls
  obtain ⟨s1, b1, b2⟩ := hlive.addChunks_over calls hover hbv hbn a1
  obtain ⟨r2, out, c1, c2, c3, c4, c5⟩ := a2.addChunk chunk proof
  obtain ⟨s2, d1, d2⟩ := a2.addChunk_over b2 hbv hbn chunk proof c1
  have hclean2 : r2.Clean := by
    have h1 : r1.Clean := hclean.addChunks calls a1
    refine h1.addChunks (H := H) [(chunk, proof)] (outs := [out]) ?_
    unfold Restore.addChunks
    rw [c1]
    rfl
  have hb1 : (Restore.newOverwrite dst w root m).addChunks H calls = .ok (r1.on s1, outs1) := b1
  rw [addChunks_append, hb1] at hrun
  have hrun : (Restore.addChunks H (r1.on s1) [(chunk, proof)]).bind (fun y => .ok (y.1, outs1 ++ y.2)) = .ok (r, outs ++ [none]) := hrun
  unfold Restore.addChunks at hrun
  simp only [d1, Res.ok_bind] at hrun
  have hrun : (Except.ok (r2.on s2, outs1 ++ [out]) : Res _) = .ok (r, outs ++ [none]) := hrun
  simp only [Except.ok.injEq, Prod.mk.injEq] at hrun
  obtain ⟨rfl, h2⟩ := hrun
  have hout : out = none := by
    have := congrArg List.getLast? h2
    simpa using this
  rw [← hP] at c2 c4
  obtain ⟨e1, e2, _⟩ := c4.1 hout
  have hPne : received (calls.map Prod.fst ++ [chunk]) ≠ [] := by rw [hP, receive, e2]; simp [e1]
  obtain ⟨a', t, f, f1, _⟩ := c2.finish hPne (c5 hout)
  have hinv := c2.storeInv hclean2 hPne (c5 hout) f1
  obtain ⟨s', g1, g2⟩ := c2.finish_over d2 hbv hbn hPne (c5 hout) f1
  have hstale : a'.staleNodes.elems = [] := (hclean2.finish f1).stale
  refine ⟨a', s', g1, ht, hinv, by simp, g2.nodes, ?_, ?_, ?_⟩
  · intro k
    unfold vhGet
    rw [g2.hist k]
    cases a'.valueHistory.get k <;> simp
  · intro i
    rw [g2.stale]
    have : ¬ i ∈ a'.staleNodes := by
      show ¬ i ∈ a'.staleNodes.elems
      rw [hstale]; simp
    tauto
  · rw [g2.stale]; exact ht.snodup

theorem Layers.tidy {H : Hasher D} [DecidableEq D] {L : List (Version × List Op)} {s : Store D} {next : Version} (h : Layers H L s next) :
    Tidy next s := by
  induction h with
  | first h =>
    obtain ⟨rfl, hi⟩ := h.inv
    exact hi.tidy
  | @restored L s s' s2 next next2 w root m calls chunk proof r outs ops h hw hrun hfin hb hops ih =>
    obtain ⟨a, s1, h1, h2⟩ := tidy_restore (ih.mono hw) hrun
    rw [hfin] at h1
    obtain rfl := Except.ok.inj h1
    obtain ⟨d', a', s3, _, h3, h4⟩ := h2.runOps ops hb 0
    rw [List.length_singleton, hops] at h3
    cases h3
    exact h4.tidy

/-- A layer ends before the next version. -/
theorem Layers.ends {H : Hasher D} [DecidableEq D] {L : List (Version × List Op)} {s : Store D} {next : Version} (h : Layers H L s next) :
    ∀ e ∈ L, e.1 + (commitsOf e.2).length ≤ next := by
  induction h with
  | first h =>
    intro e he
    rw [List.mem_singleton.1 he]
    exact Nat.le_of_eq h.inv.1.symm
  | @restored L s s' s2 next next2 w root m calls chunk proof r outs ops h hw hrun hfin hb hops ih =>
    obtain ⟨a, s1, h1, h2⟩ := tidy_restore (h.tidy.mono hw) hrun
    rw [hfin] at h1
    obtain rfl := Except.ok.inj h1
    obtain ⟨d', a', s3, _, h3, h4⟩ := h2.runOps ops hb 0
    rw [List.length_singleton, hops] at h3
    cases h3
    intro e he
    rcases List.mem_append.1 he with he | he
    · have := ih e he
      simp only [List.length_append, List.length_singleton]
      omega
    · rw [List.mem_singleton.1 he]
      exact Nat.le_refl _

theorem prunings_append (l l' : List Op) : prunings (l ++ l') = prunings l ++ prunings l' := List.filter_append ..

theorem prunings_prunings (l : List Op) : prunings (prunings l) = prunings l := by simp [prunings]

theorem commitsOf_prunings (l : List Op) : commitsOf (prunings l) = [] := by
  induction l with
  | nil => rfl
  | cons op l ih => cases op <;> exact ih

theorem Beside.still {H : Hasher D} {w lo : Version} {hist : List Commit} {d a s : Store D} (h : Beside H w hist lo d a s) {u : Version} (hu : u < w) :
    StillReads H u d.reader s.reader := by
  obtain ⟨mid, hm⟩ : ∃ mid : Reader D, mid = ⟨d.nodes.get, fun v k => if v < w then d.getValueOption v k else none⟩ := ⟨_, rfl⟩
  have hmid : Below mid s.reader := by
    subst hm
    constructor
    · intro nk n hn
      exact h.old hn
    · intro v k x hx
      have hx : (if v < w then d.getValueOption v k else none) = some x := hx
      split at hx
      · rename_i hv
        exact (h.oldValue hv k).trans hx
      · cases hx
  have hs := Below.still hmid H u
  have hget : ∀ k, Tree.getWithProof H d.reader k u = Tree.getWithProof H mid k u := by
    have h1 : d.reader.getNodeOption = mid.getNodeOption := by rw [hm]; rfl
    have h2 : ∀ k, d.reader.getValueOption u k = mid.getValueOption u k := by
      intro k'
      rw [hm]
      show d.getValueOption u k' = if u < w then d.getValueOption u k' else none
      rw [if_pos hu]
    exact getWithProof_congr H h1 h2
  have hroot : Tree.getRootHash H d.reader u = Tree.getRootHash H mid u := by subst hm; rfl
  have hcount : ∀ m, Tree.getLeafCount m d.reader u = Tree.getLeafCount m mid u := by intro m; subst hm; rfl
  refine ⟨fun x hx => hs.root x (hroot.symm.trans hx), ?_, ?_, fun m c hc => hs.count m c ((hcount m).symm.trans hc)⟩
  · intro k a ha
    exact hs.proof k a ((hget k).symm.trans ha)
  · intro k p hp
    refine hs.range k p ?_
    unfold Tree.getRangeProof at hp ⊢
    rw [← hget]
    exact hp

theorem contentsAt_prunings (v0 : Version) (ops l : List Op) (u : Version) : contentsAt v0 (ops ++ prunings l) u = contentsAt v0 ops u := by
  have : commitsOf (ops ++ prunings l) = commitsOf ops := by
    rw [show commitsOf (ops ++ prunings l) = commitsOf ops ++ commitsOf (prunings l) by simp [commitsOf], commitsOf_prunings, List.append_nil]
  rw [contentsAt, contentsAt, this]

/-- The claim, with prunings at the end. -/
theorem Layers.reads {H : Hasher D} [DecidableEq D] {L : List (Version × List Op)} {s : Store D} {next : Version} (h : Layers H L s next)
    (ps : List Op) (s' : Store D) (hps : runOps H (prunings ps) (s, next) = .ok (s', next)) (i : Nat) (w : Version) (ops : List Op)
    (hi : L[i]? = some (w, ops)) (u : Version) (hu : Readable w (ops ++ prunings ((L.drop (i + 1)).flatMap Prod.snd ++ ps)) u) :
    ReadsAs H s' u (contentsAt w ops u) := by
  induction h generalizing ps s' i w ops u with
  | @first v0 next ops0 s h =>
    have hi0 : i = 0 := by
      obtain ⟨hlt, _⟩ := List.getElem?_eq_some_iff.1 hi
      simp at hlt
      exact hlt
    subst hi0
    simp only [List.getElem?_cons_zero, Option.some.injEq, Prod.mk.injEq] at hi
    obtain ⟨rfl, rfl⟩ := hi
    simp only [Nat.zero_add, List.drop_succ_cons, List.drop_nil, List.flatMap_nil, List.nil_append] at hu
    have hr : Reached H v0 (ops0 ++ prunings ps) s' next := by
      refine ⟨?_, ?_⟩
      · rw [show commitsOf (ops0 ++ prunings ps) = commitsOf ops0 ++ commitsOf (prunings ps) by simp [commitsOf], commitsOf_prunings, List.append_nil]
        exact h.startable
      · rw [runOps_append H ops0 _ _ _ h.run]; exact hps
    have := VersionFacts.readsAs (hr.facts hu)
    rwa [contentsAt_prunings] at this
  | @restored L s s1 s2 next next2 w0 root m calls chunk proof r outs ops0 h hw hrun hfin hb hops ih =>
    obtain ⟨a, s1', h1, h2⟩ := tidy_restore (h.tidy.mono hw) hrun
    rw [hfin] at h1
    obtain rfl := Except.ok.inj h1
    obtain ⟨P, hP⟩ : ∃ P, P = received (calls.map Prod.fst ++ [chunk]) := ⟨_, rfl⟩
    rw [← hP] at h2 hi hu
    have hco : commitsOf (ops0 ++ prunings ps) = commitsOf ops0 := by
      rw [show commitsOf (ops0 ++ prunings ps) = commitsOf ops0 ++ commitsOf (prunings ps) by simp [commitsOf], commitsOf_prunings, List.append_nil]
    obtain ⟨d', a', s3, h0, h3, h4⟩ := h2.runOps (ops0 ++ prunings ps) (by rw [hco]; exact hb) next
    have hd : runOps H (prunings (ops0 ++ prunings ps)) (s, next) = .ok (d', next) := h0
    rw [List.length_singleton, runOps_append H ops0 _ _ _ hops, hps] at h3
    cases h3
    by_cases hlast : i < L.length
    · rw [List.getElem?_append_left hlast] at hi
      have hend := h.ends _ (List.mem_of_getElem? hi)
      have hlt := hu.lt
      rw [show commitsOf (ops ++ prunings (((L ++ [(w0, Op.batch m [P] :: ops0)]).drop (i + 1)).flatMap Prod.snd ++ ps)) = commitsOf ops by
        rw [show ∀ x y : List Op, commitsOf (x ++ y) = commitsOf x ++ commitsOf y by intro x y; simp [commitsOf], commitsOf_prunings, List.append_nil]] at hlt
      have hus : u < w0 := by simp only at hend; omega
      refine StillReads.readsAs (Beside.still h4 hus) ?_
      refine ih (ops0 ++ prunings ps) d' hd i w ops hi u ?_
      have hsame : prunings (((L ++ [(w0, Op.batch m [P] :: ops0)]).drop (i + 1)).flatMap Prod.snd ++ ps) =
          prunings ((L.drop (i + 1)).flatMap Prod.snd ++ (ops0 ++ prunings ps)) := by
        rw [List.drop_append_of_le_length (by omega), List.flatMap_append]
        simp only [prunings_append, prunings_prunings, List.flatMap_cons, List.flatMap_nil, List.append_nil, List.append_assoc]
        congr 2
      rwa [hsame] at hu
    · have hil : i = L.length := by
        obtain ⟨hlt, _⟩ := List.getElem?_eq_some_iff.1 hi
        simp at hlt
        omega
      subst hil
      simp only [List.getElem?_concat_length, Option.some.injEq, Prod.mk.injEq] at hi
      obtain ⟨rfl, rfl⟩ := hi
      rw [List.drop_eq_nil_of_le (by simp), List.flatMap_nil, List.nil_append, List.cons_append] at hu
      have hcc : [Commit.batch m P] ++ commitsOf (ops0 ++ prunings ps) = commitsOf (.batch m [P] :: (ops0 ++ prunings ps)) := rfl
      rw [hcc] at h4
      have hf : floorOf (ops0 ++ prunings ps) w0 (w0 + 1) ≤ u := by
        rcases hu.kept with hk | hk
        · exact floorOf_le _ w0 (w0 + 1) u hu.ge (fun m hm => hk m (List.mem_cons_of_mem _ hm))
        · have h5 := h4.inv.inv.loLt
          have h5 : floorOf (ops0 ++ prunings ps) w0 (w0 + 1) < _ ∨ floorOf (ops0 ++ prunings ps) w0 (w0 + 1) = w0 := h5
          have := hu.ge
          omega
      have h6 := h4.inv.facts hf hu.lt
      have h7 : contentsAt w0 (.batch m [P] :: ops0) u = contentsAt w0 (.batch m [P] :: (ops0 ++ prunings ps)) u :=
        (contentsAt_prunings w0 (.batch m [P] :: ops0) ps u).symm
      rw [h7]
      refine StillReads.readsAs (Below.still h4.below H u) (VersionFacts.readsAs (t := treeAt H w0 (commitsOf (.batch m [P] :: (ops0 ++ prunings ps))) u) ?_)
      rw [contentsAt, ← List.map_take]
      exact h6

/-- **C86.** However many versions have been restored into one store, with updates and prunings after each: every version of every layer
that was not pruned is the tree of what that layer's own updates make up. Prunings of later layers count, and the newest version
of each layer is kept whatever is pruned. -/
theorem C86_reads (H : Hasher D) [DecidableEq D] (L : List (Version × List Op)) (s : Store D) (next : Version) (h : Layers H L s next)
    (i : Nat) (w : Version) (ops : List Op) (hi : L[i]? = some (w, ops)) (u : Version)
    (hu : Readable w (ops ++ prunings ((L.drop (i + 1)).flatMap Prod.snd)) u) : ReadsAs H s u (contentsAt w ops u) := by
  refine h.reads [] s rfl i w ops hi u ?_
  rwa [List.append_nil]

/-- **C86**, no failures. A restore into such a store whose last `add_chunk` returned `Ok` can be finished, and every sequence of
updates and prunings can follow. -/
theorem C86_goes_on (H : Hasher D) [DecidableEq D] (L : List (Version × List Op)) (s : Store D) (next : Version) (h : Layers H L s next)
    (w : Version) (hw : next ≤ w) (root : D) (m : Bool) (calls : List (List (Key × Value) × SparseMerkleRangeProof D))
    (chunk : List (Key × Value)) (proof : SparseMerkleRangeProof D) (r : Restore D) (outs : List (Option String))
    (hrun : (Restore.newOverwrite s w root m).addChunks H (calls ++ [(chunk, proof)]) = .ok (r, outs ++ [none])) :
    ∃ s', r.finish H = .ok s' ∧ ∀ ops, BatchesFilled ops → ∃ s2, runOps H ops (s', w + 1) = .ok (s2, w + 1 + (commitsOf ops).length) ∧
      Layers H (L ++ [(w, .batch m [received (calls.map Prod.fst ++ [chunk])] :: ops)]) s2 (w + 1 + (commitsOf ops).length) := by
  obtain ⟨a, s', h1, h2⟩ := tidy_restore (h.tidy.mono hw) hrun
  refine ⟨s', h1, ?_⟩
  intro ops hb
  obtain ⟨d', a', s3, _, h3, h4⟩ := h2.runOps ops hb 0
  have hl : w + ([Commit.batch m (received (calls.map Prod.fst ++ [chunk]))] ++ commitsOf ops).length = w + 1 + (commitsOf ops).length := by
    simp only [List.length_append, List.length_singleton]; omega
  rw [List.length_singleton, hl] at h3
  exact ⟨s3, h3, .restored h hw hrun h1 hb h3⟩

/-- **C86**, what is never given back. The newest version of a layer stays readable for good: neither the updates nor the prunings of later
layers, whatever versions they name, remove it. -/
theorem C86_newest_kept (H : Hasher D) [DecidableEq D] (L : List (Version × List Op)) (s : Store D) (next : Version) (h : Layers H L s next)
    (i : Nat) (w : Version) (ops : List Op) (hi : L[i]? = some (w, ops)) (u : Version) (hu : w ≤ u) (hnew : u + 1 = w + (commitsOf ops).length) :
    ReadsAs H s u (contentsAt w ops u) := by
  have hc : commitsOf (ops ++ prunings ((L.drop (i + 1)).flatMap Prod.snd)) = commitsOf ops := by
    rw [show ∀ x y : List Op, commitsOf (x ++ y) = commitsOf x ++ commitsOf y by intro x y; simp [commitsOf], commitsOf_prunings, List.append_nil]
  exact C86_reads H L s next h i w ops hi u ⟨hu, by rw [hc]; omega, .inr (by rw [hc]; exact hnew)⟩

/-- **C86**, where to restore. Every version from the next one on has the room that C84 asks for, so that all of C84 (genuine
chunks can be restored, what is restored reads as the source did) holds of stores with several layers. -/
theorem C86_room (H : Hasher D) [DecidableEq D] (L : List (Version × List Op)) (s : Store D) (next : Version) (h : Layers H L s next)
    (w : Version) (hw : next ≤ w) : Room s w := by
  have ht := h.tidy.mono hw
  exact ⟨fun nk n hn => Nat.ne_of_lt (ht.nodes nk n hn), fun k l hl e he => ht.values k e (by rw [vhGet, hl]; exact he)⟩

theorem Layers.more {H : Hasher D} [DecidableEq D] {L : List (Version × List Op)} {s : Store D} {next : Version} (h : Layers H L s next)
    (w : Version) (hw : next ≤ w) (root : D) (m : Bool) (calls : List (List (Key × Value) × SparseMerkleRangeProof D))
    (chunk : List (Key × Value)) (proof : SparseMerkleRangeProof D) (outs : List (Option String))
    (hout : ∀ b, (((Restore.newOverwrite { (Store.empty : Store D) with allowOverwrite := b } w root m).addChunks H
      (calls ++ [(chunk, proof)])).map Prod.snd).toOption = some (outs ++ [none])) (ops : List Op) (hb : BatchesFilled ops) :
    ∃ r s2, (Restore.newOverwrite s w root m).addChunks H (calls ++ [(chunk, proof)]) = .ok (r, outs ++ [none]) ∧
      Layers H (L ++ [(w, .batch m [received (calls.map Prod.fst ++ [chunk])] :: ops)]) s2 (w + 1 + (commitsOf ops).length) := by
  have hroom := C86_room H L s next h w hw
  obtain ⟨r0, hr0⟩ := of_outcomes (hout s.allowOverwrite)
  obtain ⟨s1, hr, _⟩ := (Live.fresh H rfl rfl w _ m).addChunks_over _ (StoreOver.refl w s) hroom.values hroom.nodes hr0
  obtain ⟨s', _, h2⟩ := C86_goes_on H L s next h w hw root m calls chunk proof _ outs hr
  obtain ⟨s2, _, h3⟩ := h2 ops hb
  exact ⟨_, s2, hr, h3⟩

/-- What follows the first restore in the example: an overwrite, and a pruning of all older versions. -/
def exAfter : List Op := [.update true [[(key 1 2, some [8]), (key 0x80 0, none)]], .purge 100]

/-- The layers of the example. -/
def exLayers : List (Version × List Op) :=
  [(0, exOps), (7, .batch true [exPairs] :: exAfter), (20, .batch false [[(key 0xF0 0, [3])]] :: [.purge 21])]

-- C86: three layers, with a pruning after the first restore that names a version number above all others
example : ∃ s, Layers termHasher exLayers s 21 ∧ ReadsAs termHasher s 2 (contentsAt 0 exOps 2) ∧
    ReadsAs termHasher s 8 (contentsAt 7 (.batch true [exPairs] :: exAfter) 8) ∧
    ReadsAs termHasher s 20 (contentsAt 20 [.batch false [[(key 0xF0 0, [3])]], .purge 21] 20) := by
  obtain ⟨s0, h0⟩ := exOps_reached
  obtain ⟨_, s1, _, h1⟩ := (Layers.first h0).more 7 (by decide) (smtRoot termHasher (hashed termHasher exPairs)) true
    [([], ⟨[]⟩), ([(key 1 2, [7])], ⟨[]⟩)] (exPairs.drop 1) ⟨[]⟩ [some "Should not add empty chunks.", some "Root hashes do not match."]
    (by intro b; cases b <;> decide +kernel) exAfter (by simp [BatchesFilled, exAfter, commitsOf, Op.commits])
  obtain ⟨_, s2, _, h2⟩ := h1.more 20 (by decide) (smtRoot termHasher (hashed termHasher [(key 0xF0 0, [3])])) false
    [] [(key 0xF0 0, [3])] ⟨[]⟩ [] (by intro b; cases b <;> decide +kernel) [.purge 21] (by simp [BatchesFilled, commitsOf, Op.commits])
  have hr : received ([([], (⟨[]⟩ : SparseMerkleRangeProof Term)), ([(key 1 2, [7])], ⟨[]⟩)].map Prod.fst ++ [exPairs.drop 1]) = exPairs := by
    decide +kernel
  have h3 : Layers termHasher exLayers s2 21 := by rw [hr] at h2; exact h2
  exact ⟨s2, h3, C86_newest_kept _ _ _ _ h3 0 _ _ rfl 2 (by decide) rfl, C86_newest_kept _ _ _ _ h3 1 _ _ rfl 8 (by decide) rfl,
    C86_reads _ _ _ _ h3 2 _ _ rfl 20 ⟨by decide, by decide, .inr rfl⟩⟩

example : contentsAt 7 (.batch true [exPairs] :: exAfter) 8 (key 1 2) = some [8] := by decide +kernel
example : contentsAt 7 (.batch true [exPairs] :: exAfter) 8 (key 0x80 0) = none := by decide +kernel
example : contentsAt 20 [.batch false [[(key 0xF0 0, [3])]], .purge 21] 20 (key 1 2) = none := by decide +kernel

end Verif.Props
