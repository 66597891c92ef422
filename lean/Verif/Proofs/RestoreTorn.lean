import Verif.Jmt.RestoreTorn
import Verif.Proofs.RestoreBeside
/-! Restoring a version over what broken off restores of the same version have left. -/

set_option autoImplicit false

namespace Verif.Jmt
variable {D : Type}
open VTree Spec

/-- `s` is `d` with any nodes and values of version `w` besides. -/
structure LeftOver (w : Version) (d s : Store D) : Prop where
  nodes : ∀ nk, nk.version ≠ w → s.nodes.get nk = d.nodes.get nk
  hist : ∀ k, vhGet s.valueHistory k = vhGet d.valueHistory k ∨ ∃ x, vhGet s.valueHistory k = vhGet d.valueHistory k ++ [(w, x)]
  stale : s.staleNodes = d.staleNodes
  flag : s.allowOverwrite = true

/-- Besides, `s` holds what `a` holds. -/
structure StoreAgain (w : Version) (d a s : Store D) : Prop extends LeftOver w d s where
  nodesA : ∀ nk n, a.nodes.get nk = some n → s.nodes.get nk = some n
  histA : ∀ k l, a.valueHistory.get k = some l → vhGet s.valueHistory k = vhGet d.valueHistory k ++ l
  only : AtOnly w a.valueHistory

theorem Before.vhGet {w : Version} {d : FMap Key (List (Version × Option Value))} (h : Before w d) (k : Key) : ∀ e ∈ Jmt.vhGet d k, e.1 < w := by
  intro e he
  unfold Jmt.vhGet at he
  cases hd : d.get k with
  | none => rw [hd] at he; cases he
  | some l => rw [hd] at he; exact h k l hd e he

theorem putValueHistory_again {w : Version} {s d : FMap Key (List (Version × Option Value))} {k : Key} {x : Option Value}
    (hs : vhGet s k = vhGet d k ∨ ∃ y, vhGet s k = vhGet d k ++ [(w, y)]) (hd : Before w d) :
    Store.putValueHistory s w k x = .ok (s.set k (vhGet d k ++ [(w, x)])) := by
  have hb := hd.vhGet k
  unfold Store.putValueHistory
  unfold vhGet at hs hb ⊢
  generalize (d.get k).getD [] = l0 at hs hb ⊢
  cases hg : s.get k with
  | none =>
    rw [hg] at hs
    rcases hs with hs | ⟨y, hs⟩
    · simp only [Option.getD_none] at hs
      rw [← hs]; rfl
    · simp at hs
  | some l =>
    rw [hg] at hs
    simp only [Option.getD_some] at hs
    rcases hs with rfl | ⟨y, rfl⟩
    · cases hl : l.getLast? with
      | none => simp only [hl]
      | some e =>
        have := hb e (List.mem_of_getLast? hl)
        simp only [hl]
        rw [if_neg (by omega), if_neg (by omega)]
    · simp

theorem writeValues_left {w : Version} (l : List ((Version × Key) × Option Value)) {d s : FMap Key (List (Version × Option Value))}
    (hs : ∀ k, vhGet s k = vhGet d k ∨ ∃ y, vhGet s k = vhGet d k ++ [(w, y)]) (hd : Before w d) (hl : ∀ e ∈ l, e.1.1 = w) :
    ∃ s', Store.writeValues l s = .ok s' ∧ ∀ k, vhGet s' k = vhGet d k ∨ ∃ y, vhGet s' k = vhGet d k ++ [(w, y)] := by
  induction l generalizing s with
  | nil => exact ⟨s, rfl, hs⟩
  | cons e t ih =>
    obtain ⟨⟨v, k⟩, x⟩ := e
    obtain rfl : v = w := hl _ List.mem_cons_self
    simp only [Store.writeValues]
    rw [putValueHistory_again (hs k) hd]
    refine ih ?_ (fun e he => hl e (List.mem_cons_of_mem _ he))
    intro k'
    unfold vhGet
    rw [FMap.get_set]
    by_cases hk : k' = k
    · subst hk; exact .inr ⟨x, by simp⟩
    · simp only [hk, if_false]; exact hs k'

theorem writeValues_again {w : Version} (l : List ((Version × Key) × Option Value)) {d a a' s : FMap Key (List (Version × Option Value))}
    (hs : ∀ k, vhGet s k = vhGet d k ∨ ∃ y, vhGet s k = vhGet d k ++ [(w, y)])
    (ha : ∀ k l, a.get k = some l → vhGet s k = vhGet d k ++ l) (ho : AtOnly w a)
    (hd : Before w d) (hl : ∀ e ∈ l, e.1.1 = w) (h : Store.writeValues l a = .ok a') {s' : FMap Key (List (Version × Option Value))}
    (h' : Store.writeValues l s = .ok s') :
    (∀ k l, a'.get k = some l → vhGet s' k = vhGet d k ++ l) ∧ AtOnly w a' := by
  induction l generalizing a s with
  | nil => cases h; cases h'; exact ⟨ha, ho⟩
  | cons e t ih =>
    obtain ⟨⟨v, k⟩, x⟩ := e
    obtain rfl : v = w := hl _ List.mem_cons_self
    simp only [Store.writeValues] at h h'
    rw [putValueHistory_again (hs k) hd] at h'
    have hput : Store.putValueHistory a v k x = .ok (a.set k [(v, x)]) := by
      unfold Store.putValueHistory
      cases hg : a.get k with
      | none => rfl
      | some l =>
        obtain ⟨y, rfl⟩ := ho k l hg
        simp
    rw [hput] at h
    refine ih ?_ ?_ ?_ (fun e he => hl e (List.mem_cons_of_mem _ he)) h h'
    · intro k'
      unfold vhGet
      rw [FMap.get_set]
      by_cases hk : k' = k
      · subst hk; exact .inr ⟨x, by simp⟩
      · simp only [hk, if_false]; exact hs k'
    · intro k' l hl
      unfold vhGet
      rw [FMap.get_set] at hl ⊢
      by_cases hk : k' = k
      · subst hk
        simp only [if_true] at hl ⊢
        cases hl
        rfl
      · simp only [hk, if_false] at hl ⊢; exact ha k' l hl
    · intro k' l hl
      rw [FMap.get_set] at hl
      split at hl
      · cases hl; exact ⟨x, rfl⟩
      · exact ho k' l hl

theorem writeNodes_left {w : Version} (l : List (NodeKey × Node D)) {d n : FMap NodeKey (Node D)}
    (hn : ∀ nk, nk.version ≠ w → n.get nk = d.get nk) (hl : ∀ e ∈ l, e.1.version = w) :
    ∃ n', Store.writeNodes true l n = .ok n' ∧ ∀ nk, nk.version ≠ w → n'.get nk = d.get nk := by
  induction l generalizing n with
  | nil => exact ⟨n, rfl, hn⟩
  | cons e t ih =>
    obtain ⟨nk, x⟩ := e
    simp only [Store.writeNodes, Bool.not_true, Bool.false_eq_true, if_false]
    refine ih ?_ (fun e he => hl e (List.mem_cons_of_mem _ he))
    intro nk' h
    rw [FMap.get_set]
    have hv : nk.version = w := hl _ List.mem_cons_self
    rw [if_neg (by rintro rfl; exact h hv)]
    exact hn nk' h

theorem writeNodes_again {o : Bool} (l : List (NodeKey × Node D)) {a a' n n' : FMap NodeKey (Node D)}
    (hn : ∀ nk x, a.get nk = some x → n.get nk = some x) (h : Store.writeNodes o l a = .ok a') (h' : Store.writeNodes true l n = .ok n') :
    ∀ nk x, a'.get nk = some x → n'.get nk = some x := by
  induction l generalizing a n with
  | nil => cases h; cases h'; exact hn
  | cons e t ih =>
    obtain ⟨nk, x⟩ := e
    simp only [Store.writeNodes, Bool.not_true, Bool.false_eq_true, if_false] at h'
    simp only [Store.writeNodes] at h
    have h : Store.writeNodes o t (a.set nk x) = .ok a' := by
      split at h
      · obtain ⟨_, _, h⟩ := Res.bind_ok h; exact h
      · exact h
    refine ih ?_ h h'
    intro nk' x' hx
    rw [FMap.get_set] at hx ⊢
    split
    · rename_i he; rw [if_pos he] at hx; exact hx
    · rename_i he; rw [if_neg he] at hx; exact hn nk' x' hx

/-- A batch of version `w`. -/
def NodeBatch.At (w : Version) (b : NodeBatch D) : Prop := (∀ e ∈ b.nodes.entries, e.1.version = w) ∧ ∀ e ∈ b.values.entries, e.1.1 = w

theorem NodeBatch.At.cut {w : Version} {b : NodeBatch D} (h : b.At w) (c : Cut) : (b.cut c).At w :=
  ⟨fun e he => h.1 e (List.mem_filter.1 he).1, fun e he => h.2 e (List.mem_filter.1 he).1⟩

theorem LeftOver.write {w : Version} {d s : Store D} {b : NodeBatch D} (h : LeftOver w d s) (hd : Before w d.valueHistory) (hb : b.At w) :
    ∃ s', s.writeNodeBatch b = .ok s' ∧ LeftOver w d s' := by
  obtain ⟨n', a1, a2⟩ := writeNodes_left _ h.nodes hb.1
  obtain ⟨vh', b1, b2⟩ := writeValues_left _ h.hist hd hb.2
  refine ⟨{ s with nodes := n', valueHistory := vh' }, ?_, a2, b2, h.stale, h.flag⟩
  unfold Store.writeNodeBatch
  rw [h.flag, a1]
  show (Store.writeValues _ _ >>= _) = _
  rw [b1]
  rfl

theorem StoreAgain.write {w : Version} {d a a' s : Store D} {b : NodeBatch D} (h : StoreAgain w d a s) (hd : Before w d.valueHistory)
    (hb : b.At w) (hw : a.writeNodeBatch b = .ok a') : ∃ s', s.writeNodeBatch b = .ok s' ∧ StoreAgain w d a' s' := by
  obtain ⟨s', h1, h2⟩ := h.toLeftOver.write hd hb
  refine ⟨s', h1, ?_⟩
  unfold Store.writeNodeBatch at hw h1
  obtain ⟨na, e1, hw⟩ := Res.bind_ok hw
  obtain ⟨va, e2, hw⟩ := Res.bind_ok hw
  cases hw
  obtain ⟨ns, f1, h1⟩ := Res.bind_ok h1
  obtain ⟨vs, f2, h1⟩ := Res.bind_ok h1
  cases h1
  rw [h.flag] at f1
  have g1 := writeNodes_again _ h.nodesA e1 f1
  have g2 := writeValues_again _ h.hist h.histA h.only hd hb.2 e2 f2
  exact ⟨h2, g1, g2.1, g2.2⟩

theorem LeftOver.start {w : Version} {d s : Store D} (h : LeftOver w d s) :
    StoreAgain w d { (Store.empty : Store D) with allowOverwrite := s.allowOverwrite } s :=
  { h with nodesA := fun nk n hn => (by cases hn), histA := fun k l hl => (by cases hl), only := fun k l hl => (by cases hl) }

theorem LeftOver.refl (w : Version) {d : Store D} (h : d.allowOverwrite = true) : LeftOver w d d :=
  ⟨fun _ _ => rfl, fun _ => .inl rfl, rfl, h⟩

theorem StoreAgain.below {w : Version} {d a s : Store D} (h : StoreAgain w d a s) : Below a.reader s.reader := by
  constructor
  · exact h.nodesA
  · intro v k x hx
    have hx : a.getValueOption v k = some x := hx
    show s.getValueOption v k = some x
    rw [getValueOption_eq] at hx ⊢
    cases hg : a.valueHistory.get k with
    | none => unfold vhGet at hx; rw [hg] at hx; cases hx
    | some l =>
      rw [h.histA k l hg]
      unfold vhGet at hx
      rw [hg] at hx
      obtain ⟨y, rfl⟩ := h.only k l hg
      simp only [Option.getD_some, List.reverse_append, List.reverse_cons, List.reverse_nil, List.nil_append, List.cons_append, List.find?_cons] at hx ⊢
      by_cases hv : w ≤ v
      · simpa [hv] using hx
      · simp [hv] at hx

/-! ### the frozen nodes are of the version restored -/

section
variable {H : Hasher D} {w : Version} {m : Bool} {P : List (Key × Value)} {r : Restore D} {d s : Store D}

theorem RInv.frozen_at {z : Zip D} {pend : Bool} (h : RInv H w m P z pend r) : r.frozenNodes.At w := by
  refine ⟨?_, h.vver⟩
  intro e he
  have hg : r.frozenNodes.nodes.get e.1 = some e.2 := FMap.get_of_mem h.core.nodup he
  exact ((h.core.map e.1 e.2).1 (by unfold Restore.M; rw [hg]; rfl)).1

theorem freezePreviousLeaf_at {r r' : Restore D} (h : r.freezePreviousLeaf = .ok r') (hv : r.version = w) (hf : r.frozenNodes.At w) :
    r'.frozenNodes.At w ∧ r'.partialNodes = r.partialNodes := by
  unfold Restore.freezePreviousLeaf at h
  split at h
  · cases h; exact ⟨hf, rfl⟩
  · split at h
    · cases h
    · split at h
      · cases h
      · split at h
        · obtain ⟨ck, h1, h⟩ := Res.bind_ok h
          cases h
          refine ⟨⟨?_, hf.2⟩, rfl⟩
          intro e he
          rcases List.mem_cons.1 he with rfl | he
          · unfold NodeKey.genChild at h1
            split at h1
            · cases h1; exact hv
            · cases h1
          · exact hf.1 e (List.mem_filter.1 he).1
        · cases h

theorem updateParent_at {ps ps' : List (InternalInfo D)} {hash : D} {lc : Option Nat} (h : Restore.updateParent ps hash lc = .ok ps')
    (hp : ∀ p ∈ ps, p.nodeKey.version = w) : ∀ p ∈ ps', p.nodeKey.version = w := by
  unfold Restore.updateParent at h
  split at h
  · cases h; exact hp
  · rename_i parent hl
    split at h
    · cases h
    · split at h
      · obtain ⟨_, _, h⟩ := Res.bind_ok h
        obtain ⟨_, _, h⟩ := Res.bind_ok h
        cases h
        intro p hm
        rcases List.mem_append.1 hm with hm | hm
        · exact hp p (List.dropLast_subset _ hm)
        · rw [List.mem_singleton.1 hm]
          exact hp parent (List.mem_of_getLast? hl)
      · cases h

theorem freezeInternalNodes_at (n : Nat) {r r' : Restore D} (h : Restore.freezeInternalNodes H n r = .ok r')
    (hp : ∀ p ∈ r.partialNodes, p.nodeKey.version = w) (hf : r.frozenNodes.At w) : r'.frozenNodes.At w := by
  induction n generalizing r with
  | zero => cases h; exact hf
  | succ n ih =>
    unfold Restore.freezeInternalNodes at h
    split at h
    · cases h
    · rename_i last hl
      obtain ⟨⟨nk, node⟩, h1, h⟩ := Res.bind_ok h
      obtain ⟨ps, h2, h⟩ := Res.bind_ok h
      refine ih h (updateParent_at h2 (fun p hm => hp p (List.dropLast_subset _ hm))) ⟨?_, hf.2⟩
      intro e he
      rcases List.mem_cons.1 he with rfl | he
      · unfold InternalInfo.intoInternalNode at h1
        obtain ⟨_, _, h1⟩ := Res.bind_ok h1
        obtain ⟨_, _, h1⟩ := Res.bind_ok h1
        cases h1
        exact hp last (List.mem_of_getLast? hl)
      · exact hf.1 e (List.mem_filter.1 he).1

theorem freeze_at {n : Nat} {r r' : Restore D} (h : r.freeze H n = .ok r') (hv : r.version = w) (hp : ∀ p ∈ r.partialNodes, p.nodeKey.version = w)
    (hf : r.frozenNodes.At w) : r'.frozenNodes.At w := by
  unfold Restore.freeze at h
  obtain ⟨r1, h1, h⟩ := Res.bind_ok h
  obtain ⟨a1, a2⟩ := freezePreviousLeaf_at h1 hv hf
  exact freezeInternalNodes_at _ h (by rw [a2]; exact hp) a1

theorem RInv.parts_at {z : Zip D} {pend : Bool} (h : RInv H w m P z pend r) : ∀ p ∈ r.partialNodes, p.nodeKey.version = w := by
  rw [h.core.parts]
  intro p hp
  rcases List.mem_append.1 hp with hp | hp
  · obtain ⟨j, _, rfl⟩ := List.mem_map.1 hp; rfl
  · rw [List.mem_singleton.1 hp]; rfl

/-! ### runs over what is left -/

theorem Live.addChunk_again [DecidableEq D] (h : Live H w m P r) (ho : StoreAgain w d r.store s) (hd : Before w d.valueHistory)
    (chunk : List (Key × Value)) (proof : SparseMerkleRangeProof D)
    {r' : Restore D} {out : Option String} (ha : r.addChunk H chunk proof = .ok (r', out)) :
    ∃ s', (r.on s).addChunk H chunk proof = .ok (r'.on s', out) ∧ StoreAgain w d r'.store s' := by
  unfold Restore.addChunk at ha ⊢
  by_cases hc : chunk = []
  · subst hc
    simp only [List.isEmpty_nil, if_true] at ha ⊢
    cases ha
    exact ⟨s, rfl, ho⟩
  · have hce : chunk.isEmpty = false := by simpa using hc
    simp only [hce, Bool.false_eq_true, if_false] at ha ⊢
    obtain ⟨r1, out1, a1, a2, a3, a4, a5⟩ := h.addPairs chunk
    rw [Restore.addPairs_on]
    rw [a1] at ha ⊢
    have ho1 : StoreAgain w d r1.store s := by rw [a3]; exact ho
    cases out1 with
    | some msg =>
      cases ha
      exact ⟨s, rfl, ho1⟩
    | none =>
      simp only [Except.map]
      simp only [true_iff] at a5
      have hne : receive P chunk ≠ [] := by rw [receive, a5]; simp [hc]
      obtain ⟨z, hz⟩ := a2.nonempty hne
      simp only [Restore.finishChunk] at ha ⊢
      rw [show (r1.on s).verify H proof = r1.verify H proof from rfl]
      cases hv : r1.verify H proof with
      | error e =>
        rw [hv] at ha
        cases e with
        | panic msg => cases ha
        | err msg => cases ha; exact ⟨s, rfl, ho1⟩
      | ok u =>
        rw [hv] at ha
        obtain ⟨a', w1, _⟩ := hz.write
        simp only [w1] at ha
        cases ha
        obtain ⟨s', e1, e2⟩ := ho1.write hd hz.frozen_at w1
        exact ⟨s', by simp only [Restore.on, e1], e2⟩

theorem Live.addChunks_again [DecidableEq D] (calls : List (List (Key × Value) × SparseMerkleRangeProof D))
    {P : List (Key × Value)} {r : Restore D} {s : Store D} (h : Live H w m P r) (ho : StoreAgain w d r.store s) (hd : Before w d.valueHistory)
    {r' : Restore D} {outs : List (Option String)} (ha : r.addChunks H calls = .ok (r', outs)) :
    ∃ s', (r.on s).addChunks H calls = .ok (r'.on s', outs) ∧ StoreAgain w d r'.store s' := by
  induction calls generalizing P r s outs with
  | nil => cases ha; exact ⟨s, rfl, ho⟩
  | cons c t ih =>
    unfold Restore.addChunks at ha ⊢
    obtain ⟨⟨r1, out⟩, h1, ha⟩ := Res.bind_ok ha
    obtain ⟨⟨r2, outs2⟩, h2, ha⟩ := Res.bind_ok ha
    cases ha
    obtain ⟨s1, e1, e2⟩ := h.addChunk_again ho hd c.1 c.2 h1
    obtain ⟨r1', out', f1, f2, _⟩ := h.addChunk c.1 c.2
    rw [h1] at f1
    cases f1
    obtain ⟨s2, g1, g2⟩ := ih f2 e2 h2
    refine ⟨s2, ?_, g2⟩
    rw [e1]
    simp only [Res.ok_bind, g1]
    rfl

theorem Live.finish_again (h : Live H w m P r) (ho : StoreAgain w d r.store s) (hd : Before w d.valueHistory)
    {a' : Store D} (ha : r.finish H = .ok a') : ∃ s', (r.on s).finish H = .ok s' ∧ StoreAgain w d a' s' := by
  obtain ⟨z, pend, hz, _⟩ := h
  unfold Restore.finish at ha ⊢
  rw [show (r.on s).rootInfos = r.rootInfos from rfl]
  generalize r.rootInfos = infos at ha ⊢
  have key : (do let r ← r.freeze H 0; r.store.writeNodeBatch r.frozenNodes) = .ok a' →
      ∃ s', (do let r ← (r.on s).freeze H 0; r.store.writeNodeBatch r.frozenNodes) = .ok s' ∧ StoreAgain w d a' s' := by
    intro ha
    obtain ⟨r1, c1, ha⟩ := Res.bind_ok ha
    have hs := Restore.freeze_same c1
    rw [Restore.freeze_on, c1]
    have hat : r1.frozenNodes.At w := freeze_at c1 hz.core.ver hz.parts_at hz.frozen_at
    exact StoreAgain.write (a := r1.store) (s := s) (by rw [hs.1]; exact ho) hd hat ha
  split at ha
  · obtain ⟨_, c1, ha⟩ := Res.bind_ok ha
    rw [show (r.on s).frozenNodes = r.frozenNodes from rfl, show (r.on s).store = s from rfl, show (r.on s).version = r.version from rfl, c1]
    refine ho.write hd ⟨?_, hz.frozen_at.2⟩ ha
    intro e he
    rcases List.mem_cons.1 he with rfl | he
    · exact hz.core.ver
    · exact hz.frozen_at.1 e (List.mem_filter.1 he).1
  · exact key ha

/-! ### what a broken off restore leaves -/

theorem Live.chunkCut_left [DecidableEq D] (h : Live H w m P r) (ho : LeftOver w d s) (hd : Before w d.valueHistory)
    (chunk : List (Key × Value)) (proof : SparseMerkleRangeProof D) (c : Cut) {s' : Store D} (hs : (r.on s).chunkCut H chunk proof c = .ok s') :
    LeftOver w d s' := by
  unfold Restore.chunkCut at hs
  split at hs
  · cases hs; exact ho
  · obtain ⟨r1, out1, a1, a2, _⟩ := h.addPairs chunk
    rw [Restore.addPairs_on, a1] at hs
    obtain ⟨z, pend, hz, _⟩ := a2
    cases out1 with
    | some msg => cases hs; exact ho
    | none =>
      simp only [Except.map] at hs
      split at hs
      · cases hs
      · cases hs; exact ho
      · obtain ⟨s1, e1, e2⟩ := ho.write hd (hz.frozen_at.cut c)
        have hs : s.writeNodeBatch (r1.frozenNodes.cut c) = .ok s' := hs
        rw [e1] at hs
        cases hs
        exact e2

theorem Live.finishCut_left (h : Live H w m P r) (ho : LeftOver w d s) (hd : Before w d.valueHistory) (c : Cut) {s' : Store D}
    (hs : (r.on s).finishCut H c = .ok s') : LeftOver w d s' := by
  obtain ⟨z, pend, hz, _⟩ := h
  have key : ∀ b : NodeBatch D, b.At w → s.writeNodeBatch (b.cut c) = .ok s' → LeftOver w d s' := by
    intro b hb hs
    obtain ⟨s1, e1, e2⟩ := ho.write hd (hb.cut c)
    rw [e1] at hs
    cases hs
    exact e2
  unfold Restore.finishCut at hs
  split at hs
  · obtain ⟨_, _, hs⟩ := Res.bind_ok hs
    refine key (r.frozenNodes.insertNode _ _) ⟨?_, hz.frozen_at.2⟩ hs
    intro e he
    rcases List.mem_cons.1 he with rfl | he
    · exact hz.core.ver
    · exact hz.frozen_at.1 e (List.mem_filter.1 he).1
  · obtain ⟨r1, c1, hs⟩ := Res.bind_ok hs
    rw [Restore.freeze_on] at c1
    cases hfr : r.freeze H 0 with
    | error e => rw [hfr] at c1; cases c1
    | ok r2 =>
      rw [hfr] at c1
      cases c1
      exact key _ (freeze_at hfr hz.core.ver hz.parts_at hz.frozen_at) hs

theorem Torn.run_left [DecidableEq D] {t : Torn D} {s' : Store D} (ho : LeftOver w d s) (hd : Before w d.valueHistory)
    (hs : t.run H w s = .ok s') : LeftOver w d s' := by
  unfold Torn.run at hs
  obtain ⟨⟨r1, outs⟩, h1, hs⟩ := Res.bind_ok hs
  have hlive := Live.fresh H (s := { (Store.empty : Store D) with allowOverwrite := s.allowOverwrite }) rfl rfl w t.root t.migration
  obtain ⟨r2, outs2, a1, a2, _⟩ := hlive.addChunks t.calls
  obtain ⟨s1, b1, b2⟩ := hlive.addChunks_again t.calls ho.start hd a1
  have hb1 : (Restore.newOverwrite s w t.root t.migration).addChunks H t.calls = .ok (r2.on s1, outs2) := b1
  rw [h1] at hb1
  cases hb1
  dsimp only at hs
  cases hl : t.last with
  | some c => rw [hl] at hs; exact a2.chunkCut_left b2.toLeftOver hd _ _ _ hs
  | none => rw [hl] at hs; exact a2.finishCut_left b2.toLeftOver hd _ hs

theorem tornAll_left [DecidableEq D] (ts : List (Torn D)) {s s' : Store D} (ho : LeftOver w d s) (hd : Before w d.valueHistory)
    (hs : tornAll H w s ts = .ok s') : LeftOver w d s' := by
  induction ts generalizing s with
  | nil => cases hs; exact ho
  | cons t ts ih =>
    unfold tornAll at hs
    obtain ⟨s1, h1, hs⟩ := Res.bind_ok hs
    exact ih (Torn.run_left ho hd h1) hs

end

end Verif.Jmt
