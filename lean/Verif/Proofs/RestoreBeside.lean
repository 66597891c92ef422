import Verif.Proofs.RestoreContinue
import Verif.Proofs.Below
import Verif.Proofs.Exclusion
import Verif.Proofs.RestoreResume
/-! Restoring a version into a store that holds other versions. A restore made by `new_overwrite` never reads the store, so it runs as on
an empty store, and what it writes is beside what was there. -/

set_option autoImplicit false

namespace Verif.Jmt
variable {D : Type}
open VTree Spec

namespace Restore

/-- The same restore on another store. -/
def on (r : Restore D) (s : Store D) : Restore D := { r with store := s }

theorem bind_on {A : Type} (x : Res A) (f g : A → Res (Restore D)) (s : Store D) (h : ∀ a, g a = (f a).map (·.on s)) :
    (x >>= g) = (x >>= f).map (·.on s) := by
  cases x with
  | error e => rfl
  | ok a => exact h a

theorem bind_on2 {x y : Res (Restore D)} {f g : Restore D → Res (Restore D)} {s : Store D} (hx : y = x.map (·.on s))
    (h : ∀ a, g (a.on s) = (f a).map (·.on s)) : (y >>= g) = (x >>= f).map (·.on s) := by
  subst hx
  cases x with
  | error e => rfl
  | ok a => exact h a

theorem freezePreviousLeaf_on (r : Restore D) (s : Store D) : (r.on s).freezePreviousLeaf = r.freezePreviousLeaf.map (·.on s) := by
  unfold freezePreviousLeaf on
  dsimp only
  split
  · rfl
  · split
    · rfl
    · split
      · rfl
      · split
        · exact bind_on _ _ _ s (fun _ => rfl)
        · rfl

theorem freezeInternalNodes_on (H : Hasher D) (n : Nat) (r : Restore D) (s : Store D) :
    freezeInternalNodes H n (r.on s) = (freezeInternalNodes H n r).map (·.on s) := by
  induction n generalizing r with
  | zero => rfl
  | succ n ih =>
    unfold freezeInternalNodes
    rw [show (r.on s).partialNodes = r.partialNodes from rfl]
    cases r.partialNodes.getLast? with
    | none => rfl
    | some last =>
      refine bind_on _ _ _ s (fun a => ?_)
      obtain ⟨nk, node⟩ := a
      exact bind_on _ _ _ s (fun ps => ih { r with partialNodes := ps, frozenNodes := r.frozenNodes.insertNode nk (.internal node) })

theorem freeze_on (H : Hasher D) (n : Nat) (r : Restore D) (s : Store D) : (r.on s).freeze H n = (r.freeze H n).map (·.on s) := by
  unfold freeze
  rw [freezePreviousLeaf_on]
  cases r.freezePreviousLeaf with
  | error e => rfl
  | ok r1 => exact freezeInternalNodes_on H _ r1 s

theorem insertAtLeaf_on (H : Hasher D) (r : Restore D) (s : Store D) (i : Nibble) (l : LeafNode D) (k : Key) (d : D) (a b : List Nibble) :
    (r.on s).insertAtLeaf H i l k d a b = (r.insertAtLeaf H i l k d a b).map (·.on s) := by
  unfold insertAtLeaf
  refine bind_on _ _ _ s (fun x => ?_)
  obtain ⟨vis, ps⟩ := x
  refine bind_on _ _ _ s (fun _ => ?_)
  exact bind_on2 (freeze_on H _ { r with partialNodes := ps ++ [(InternalInfo.newEmpty ⟨r.version, vis⟩).setChild
    (l.keyHash.nibble (l.keyHash.commonPrefixNibblesLen k)) (.leaf l)] } s) (fun r1 => bind_on _ _ _ s (fun _ => rfl))

theorem addOneLoop_on (H : Hasher D) (r : Restore D) (s : Store D) (k : Key) (d : D) (l : List Nibble) (i : Nat) (vis : List Nibble) :
    (r.on s).addOneLoop H k d l i vis = (r.addOneLoop H k d l i vis).map (·.on s) := by
  induction l generalizing i vis with
  | nil => rfl
  | cons nib rest ih =>
    unfold addOneLoop
    rw [show (r.on s).partialNodes = r.partialNodes from rfl]
    cases r.partialNodes[i]? with
    | none => rfl
    | some info =>
      cases hc : info.children nib with
      | none =>
        simp only [hc]
        exact bind_on2 (freeze_on H _ _ s) (fun r1 => rfl)
      | some c =>
        cases c with
        | leaf node =>
          simp only [hc]
          exact bind_on _ _ _ s (fun _ => insertAtLeaf_on H r s _ _ _ _ _ _)
        | internal _ _ =>
          simp only [hc]
          exact ih _ _

theorem addPair_on (H : Hasher D) (r : Restore D) (s : Store D) (k : Key) (x : Value) :
    (r.on s).addPair H k x = (r.addPair H k x).map (·.on s) := by
  unfold addPair
  exact bind_on2 (addOneLoop_on H { r with frozenNodes := r.frozenNodes.insertValue r.version k x } s _ _ _ _ _) (fun r1 => rfl)

theorem addPairs_on (H : Hasher D) (l : List (Key × Value)) (r : Restore D) (s : Store D) :
    (r.on s).addPairs H l = (r.addPairs H l).map (fun y => (y.1.on s, y.2)) := by
  induction l generalizing r with
  | nil => rfl
  | cons e t ih =>
    obtain ⟨k, x⟩ := e
    unfold addPairs
    rw [show (r.on s).inOrder k = r.inOrder k from rfl]
    by_cases hk : r.inOrder k = true
    · simp only [hk, if_true]
      rw [addPair_on]
      cases r.addPair H k x with
      | error e => rfl
      | ok r1 => exact ih r1
    · simp only [hk]; rfl

end Restore

/-! ### what is written beside -/

/-- `n` is `m` put over `d`. -/
def NodesOver (d m n : FMap NodeKey (Node D)) : Prop := ∀ nk, n.get nk = (m.get nk).or (d.get nk)

/-- The histories of `b` are those of `d` followed by those of `a`. -/
def HistOver (d a b : FMap Key (List (Version × Option Value))) : Prop :=
  ∀ k, b.get k = match a.get k with
    | none => d.get k
    | some l => some ((d.get k).getD [] ++ l)

theorem writeNodes_isSome_of {o : Bool} (l : List (NodeKey × Node D)) {m m' : FMap NodeKey (Node D)} (h : Store.writeNodes o l m = .ok m') :
    (∀ nk, (m.get nk).isSome = true → (m'.get nk).isSome = true) ∧ ∀ e ∈ l, (m'.get e.1).isSome = true := by
  induction l generalizing m with
  | nil => cases h; exact ⟨fun _ h => h, by simp⟩
  | cons e t ih =>
    obtain ⟨nk, n⟩ := e
    simp only [Store.writeNodes] at h
    have h : Store.writeNodes o t (m.set nk n) = .ok m' := by
      split at h
      · obtain ⟨_, _, h⟩ := Res.bind_ok h; exact h
      · exact h
    obtain ⟨h1, h2⟩ := ih h
    have h3 : ∀ x, (m.get x).isSome = true ∨ x = nk → ((m.set nk n).get x).isSome = true := by
      intro x hx
      rw [FMap.get_set]
      split
      · rfl
      · rcases hx with hx | hx
        · exact hx
        · contradiction
    refine ⟨fun x hx => h1 x (h3 x (.inl hx)), ?_⟩
    intro e he
    rcases List.mem_cons.1 he with rfl | he
    · exact h1 _ (h3 _ (.inr rfl))
    · exact h2 e he

theorem writeNodes_nodesOver {o : Bool} (l : List (NodeKey × Node D)) {d m n m' : FMap NodeKey (Node D)} (ho : NodesOver d m n)
    (hl : ∀ e ∈ l, d.get e.1 = none) (h : Store.writeNodes o l m = .ok m') :
    ∃ n', Store.writeNodes o l n = .ok n' ∧ NodesOver d m' n' := by
  induction l generalizing m n with
  | nil => cases h; exact ⟨n, rfl, ho⟩
  | cons e t ih =>
    obtain ⟨nk, x⟩ := e
    have hset : NodesOver d (m.set nk x) (n.set nk x) := by
      intro k
      rw [FMap.get_set, FMap.get_set]
      split
      · rfl
      · exact ho k
    have hd := hl _ List.mem_cons_self
    have hs : n.get nk = m.get nk := by rw [ho nk, hd]; simp
    simp only [Store.writeNodes] at h ⊢
    cases o with
    | true => exact ih hset (fun e he => hl e (List.mem_cons_of_mem _ he)) h
    | false =>
      simp only [Bool.not_false, if_true] at h ⊢
      rw [hs]
      obtain ⟨u, h1, h⟩ := Res.bind_ok h
      obtain ⟨n', h2, h3⟩ := ih hset (fun e he => hl e (List.mem_cons_of_mem _ he)) h
      exact ⟨n', by rw [h1]; exact h2, h3⟩

/-- The histories a restore of version `w` writes. -/
def AtOnly (w : Version) (a : FMap Key (List (Version × Option Value))) : Prop := ∀ k l, a.get k = some l → ∃ x, l = [(w, x)]

/-- All values are older than `w`. -/
def Before (w : Version) (d : FMap Key (List (Version × Option Value))) : Prop := ∀ k l, d.get k = some l → ∀ e ∈ l, e.1 < w

theorem putValueHistory_over {w : Version} {d a b a' : FMap Key (List (Version × Option Value))} {k : Key} {x : Option Value}
    (ho : HistOver d a b) (ha : AtOnly w a) (hd : Before w d) (h : Store.putValueHistory a w k x = .ok a') :
    ∃ b', Store.putValueHistory b w k x = .ok b' ∧ HistOver d a' b' ∧ AtOnly w a' := by
  have ha' : a' = a.set k [(w, x)] := by
    unfold Store.putValueHistory at h
    cases hg : a.get k with
    | none => rw [hg] at h; exact (Except.ok.inj h).symm
    | some l =>
      obtain ⟨y, rfl⟩ := ha k l hg
      rw [hg] at h
      simpa [eq_comm] using h
  subst ha'
  have hb : Store.putValueHistory b w k x = .ok (b.set k ((d.get k).getD [] ++ [(w, x)])) := by
    unfold Store.putValueHistory
    have hk := ho k
    cases hg : a.get k with
    | some l =>
      obtain ⟨y, rfl⟩ := ha k l hg
      rw [hg] at hk
      rw [hk]
      simp
    | none =>
      rw [hg] at hk
      rw [hk]
      cases hdk : d.get k with
      | none => rfl
      | some l =>
        simp only [Option.getD_some]
        cases hl : l.getLast? with
        | none => rfl
        | some e =>
          have := hd k l hdk e (List.mem_of_getLast? hl)
          simp only
          rw [if_neg (by omega), if_neg (by omega)]
  refine ⟨_, hb, ?_, ?_⟩
  · intro k'
    rw [FMap.get_set, FMap.get_set]
    by_cases hk : k' = k
    · subst hk; simp
    · simp only [hk, if_false]; exact ho k'
  · intro k' l hl
    rw [FMap.get_set] at hl
    split at hl
    · cases hl; exact ⟨x, rfl⟩
    · exact ha k' l hl

theorem writeValues_over {w : Version} (l : List ((Version × Key) × Option Value)) {d a b a' : FMap Key (List (Version × Option Value))}
    (ho : HistOver d a b) (ha : AtOnly w a) (hd : Before w d) (hl : ∀ e ∈ l, e.1.1 = w) (h : Store.writeValues l a = .ok a') :
    ∃ b', Store.writeValues l b = .ok b' ∧ HistOver d a' b' ∧ AtOnly w a' := by
  induction l generalizing a b with
  | nil => cases h; exact ⟨b, rfl, ho, ha⟩
  | cons e t ih =>
    obtain ⟨⟨v, k⟩, x⟩ := e
    obtain rfl : v = w := hl _ List.mem_cons_self
    simp only [Store.writeValues] at h ⊢
    obtain ⟨a1, h1, h⟩ := Res.bind_ok h
    obtain ⟨b1, c1, c2, c3⟩ := putValueHistory_over ho ha hd h1
    obtain ⟨b', e1, e2⟩ := ih c2 c3 (fun e he => hl e (List.mem_cons_of_mem _ he)) h
    exact ⟨b', by rw [c1]; exact e1, e2⟩

/-- `s` is what is there when what `a` holds was written to `d`. -/
structure StoreOver (w : Version) (d a s : Store D) : Prop where
  nodes : NodesOver d.nodes a.nodes s.nodes
  hist : HistOver d.valueHistory a.valueHistory s.valueHistory
  only : AtOnly w a.valueHistory
  stale : s.staleNodes = d.staleNodes
  flag : s.allowOverwrite = a.allowOverwrite

theorem StoreOver.write {w : Version} {d a s a' : Store D} {b : NodeBatch D} (h : StoreOver w d a s) (hd : Before w d.valueHistory)
    (hn : ∀ nk n, d.nodes.get nk = some n → nk.version ≠ w) (hw : a.writeNodeBatch b = .ok a')
    (hv : ∀ nk n, a'.nodes.get nk = some n → nk.version = w) (hb : ∀ e ∈ b.values.entries, e.1.1 = w) :
    ∃ s', s.writeNodeBatch b = .ok s' ∧ StoreOver w d a' s' := by
  unfold Store.writeNodeBatch at hw
  obtain ⟨nodes, h1, hw⟩ := Res.bind_ok hw
  obtain ⟨vh, h2, hw⟩ := Res.bind_ok hw
  cases hw
  have hfree : ∀ e ∈ b.nodes.entries, d.nodes.get e.1 = none := by
    intro e he
    obtain ⟨n, hn'⟩ := Option.isSome_iff_exists.1 ((writeNodes_isSome_of _ h1).2 e he)
    cases hg : d.nodes.get e.1 with
    | none => rfl
    | some n' => exact absurd (hv _ _ hn') (hn _ _ hg)
  obtain ⟨n', e1, e2⟩ := writeNodes_nodesOver _ h.nodes hfree h1
  obtain ⟨vh', f1, f2, f3⟩ := writeValues_over _ h.hist h.only hd hb h2
  refine ⟨{ s with nodes := n', valueHistory := vh' }, ?_, e2, f2, f3, h.stale, h.flag⟩
  unfold Store.writeNodeBatch
  rw [h.flag, e1]
  show (Store.writeValues _ _ >>= _) = _
  rw [f1]
  rfl

theorem StoreOver.below {w : Version} {d a s : Store D} (h : StoreOver w d a s) : Below a.reader s.reader := by
  constructor
  · intro nk n hn
    have hn : a.nodes.get nk = some n := hn
    show s.nodes.get nk = some n
    rw [h.nodes, hn]; rfl
  · intro v k x hx
    have hx : a.getValueOption v k = some x := hx
    show s.getValueOption v k = some x
    unfold Store.getValueOption at hx ⊢
    rw [h.hist]
    cases hg : a.valueHistory.get k with
    | none => rw [hg] at hx; cases hx
    | some l =>
      obtain ⟨y, rfl⟩ := h.only k l hg
      rw [hg] at hx
      simp only [List.reverse_append, List.reverse_cons, List.reverse_nil, List.nil_append, List.cons_append, List.find?_cons] at hx ⊢
      by_cases hv : w ≤ v
      · simpa [hv] using hx
      · simp [hv] at hx

/-! ### the restore beside -/

section
variable {H : Hasher D} {w : Version} {m : Bool} {P : List (Key × Value)} {r : Restore D} {d s : Store D}

theorem Live.addChunk_over [DecidableEq D] (h : Live H w m P r) (ho : StoreOver w d r.store s) (hd : Before w d.valueHistory)
    (hn : ∀ nk n, d.nodes.get nk = some n → nk.version ≠ w) (chunk : List (Key × Value)) (proof : SparseMerkleRangeProof D)
    {r' : Restore D} {out : Option String} (ha : r.addChunk H chunk proof = .ok (r', out)) :
    ∃ s', (r.on s).addChunk H chunk proof = .ok (r'.on s', out) ∧ StoreOver w d r'.store s' := by
  unfold Restore.addChunk at ha ⊢
  by_cases hc : chunk = []
  · subst hc
    simp only [List.isEmpty_nil, if_true] at ha ⊢
    cases ha
    exact ⟨s, rfl, ho⟩
  · have hce : chunk.isEmpty = false := by simpa using hc
    simp only [hce, Bool.false_eq_true, if_false] at ha ⊢
    obtain ⟨r1, out1, a1, a2, a3, a4, a5⟩ := h.addPairs chunk
    rw [Restore.addPairs_on]
    rw [a1] at ha ⊢
    have ho1 : StoreOver w d r1.store s := by rw [a3]; exact ho
    cases out1 with
    | some msg =>
      cases ha
      exact ⟨s, rfl, ho1⟩
    | none =>
      simp only [Except.map]
      simp only [true_iff] at a5
      have hne : receive P chunk ≠ [] := by rw [receive, a5]; simp [hc]
      obtain ⟨z, hz⟩ := a2.nonempty hne
      simp only [Restore.finishChunk] at ha ⊢
      rw [show (r1.on s).verify H proof = r1.verify H proof from rfl]
      cases hv : r1.verify H proof with
      | error e =>
        rw [hv] at ha
        cases e with
        | panic msg => cases ha
        | err msg => cases ha; exact ⟨s, rfl, ho1⟩
      | ok u =>
        rw [hv] at ha
        obtain ⟨a', w1, w2, w3, w4, w5⟩ := hz.write
        simp only [w1] at ha
        cases ha
        obtain ⟨s', e1, e2⟩ := ho1.write hd hn w1 (fun nk n hg => by rw [w3] at hg; exact ((hz.core.map nk n).1 hg).1) hz.vver
        exact ⟨s', by simp only [Restore.on, e1], e2⟩

theorem Live.addChunks_over [DecidableEq D] (calls : List (List (Key × Value) × SparseMerkleRangeProof D))
    {P : List (Key × Value)} {r : Restore D} {s : Store D} (h : Live H w m P r) (ho : StoreOver w d r.store s) (hd : Before w d.valueHistory)
    (hn : ∀ nk n, d.nodes.get nk = some n → nk.version ≠ w)
    {r' : Restore D} {outs : List (Option String)} (ha : r.addChunks H calls = .ok (r', outs)) :
    ∃ s', (r.on s).addChunks H calls = .ok (r'.on s', outs) ∧ StoreOver w d r'.store s' := by
  induction calls generalizing P r s outs with
  | nil => cases ha; exact ⟨s, rfl, ho⟩
  | cons c t ih =>
    unfold Restore.addChunks at ha ⊢
    obtain ⟨⟨r1, out⟩, h1, ha⟩ := Res.bind_ok ha
    obtain ⟨⟨r2, outs2⟩, h2, ha⟩ := Res.bind_ok ha
    cases ha
    obtain ⟨s1, e1, e2⟩ := h.addChunk_over ho hd hn c.1 c.2 h1
    obtain ⟨r1', out', f1, f2, _⟩ := h.addChunk c.1 c.2
    rw [h1] at f1
    cases f1
    obtain ⟨s2, g1, g2⟩ := ih f2 e2 h2
    refine ⟨s2, ?_, g2⟩
    rw [e1]
    simp only [Res.ok_bind, g1]
    rfl

theorem Live.finish_over (h : Live H w m P r) (ho : StoreOver w d r.store s) (hd : Before w d.valueHistory)
    (hn : ∀ nk n, d.nodes.get nk = some n → nk.version ≠ w) (hP : P ≠ []) (h1 : r.frozenNodes = .empty)
    {a' : Store D} (ha : r.finish H = .ok a') : ∃ s', (r.on s).finish H = .ok s' ∧ StoreOver w d a' s' := by
  obtain ⟨z, hz⟩ := h.nonempty hP
  obtain ⟨a1, t, b1, _, _, _, b5, _⟩ := hz.finish_exact hP (fun _ => by rw [h1]; rfl)
  rw [ha] at b1
  obtain rfl := Except.ok.inj b1
  have hver : ∀ nk n, a'.nodes.get nk = some n → nk.version = w := fun nk n hg => ((b5 nk n).1 hg).1
  unfold Restore.finish at ha ⊢
  rw [show (r.on s).rootInfos = r.rootInfos from rfl]
  generalize r.rootInfos = infos at ha ⊢
  have key : (do let r ← r.freeze H 0; r.store.writeNodeBatch r.frozenNodes) = .ok a' →
      ∃ s', (do let r ← (r.on s).freeze H 0; r.store.writeNodeBatch r.frozenNodes) = .ok s' ∧ StoreOver w d a' s' := by
    intro ha
    obtain ⟨r1, c1, ha⟩ := Res.bind_ok ha
    have hs := Restore.freeze_same c1
    rw [Restore.freeze_on, c1]
    refine StoreOver.write (a := r1.store) (s := s) (by rw [hs.1]; exact ho) hd hn ha hver ?_
    show ∀ e ∈ r1.frozenNodes.values.entries, _
    rw [hs.2, h1]
    intro e he
    cases he
  split at ha
  · obtain ⟨_, c1, ha⟩ := Res.bind_ok ha
    rw [show (r.on s).frozenNodes = r.frozenNodes from rfl, show (r.on s).store = s from rfl, show (r.on s).version = r.version from rfl, c1]
    refine ho.write hd hn ha hver ?_
    rw [h1]
    intro e he
    cases he
  · exact key ha

end

/-! ### the rightmost leaf, in whatever order the nodes are looked at -/

theorem foldl_rightStep_some (L : List (NodeKey × Node D)) (acc : Option (NodeKey × LeafNode D)) :
    (∀ a, L.foldl rightStep acc = some a → acc = some a ∨ (a.1, Node.leaf a.2) ∈ L) ∧
    ((∃ a, acc = some a) → ∃ a, L.foldl rightStep acc = some a) ∧ ((∃ nk l, (nk, Node.leaf l) ∈ L) → ∃ a, L.foldl rightStep acc = some a) ∧
    (∀ a, L.foldl rightStep acc = some a → (∀ b, acc = some b → ¬ a.2.keyHash < b.2.keyHash) ∧ ∀ nk l, (nk, Node.leaf l) ∈ L → ¬ a.2.keyHash < l.keyHash) := by
  induction L generalizing acc with
  | nil =>
    refine ⟨fun a h => .inl h, fun h => h, by simp, ?_⟩
    intro a h
    have h : acc = some a := h
    refine ⟨?_, by simp⟩
    intro b hb
    rw [h] at hb
    cases hb
    exact Key.lt_irrefl _
  | cons e t ih =>
    obtain ⟨nk, x⟩ := e
    rw [List.foldl_cons]
    obtain ⟨i1, i2, i3, i4⟩ := ih (rightStep acc (nk, x))
    have hstep : ∀ a, rightStep acc (nk, x) = some a → acc = some a ∨ x = .leaf a.2 ∧ nk = a.1 := by
      intro a ha
      unfold rightStep at ha
      cases x with
      | leaf l =>
        cases acc with
        | none => cases ha; exact .inr ⟨rfl, rfl⟩
        | some b =>
          simp only at ha
          split at ha
          · cases ha; exact .inr ⟨rfl, rfl⟩
          · exact .inl ha
      | null => exact .inl ha
      | internal _ => exact .inl ha
    have hkeep : (∃ a, acc = some a) ∨ (∃ l, x = .leaf l) → ∃ a, rightStep acc (nk, x) = some a := by
      rintro (⟨a, rfl⟩ | ⟨l, rfl⟩)
      · unfold rightStep
        cases x with
        | leaf l => simp only; split <;> exact ⟨_, rfl⟩
        | null => exact ⟨_, rfl⟩
        | internal _ => exact ⟨_, rfl⟩
      · unfold rightStep
        cases acc with
        | none => exact ⟨_, rfl⟩
        | some b => simp only; split <;> exact ⟨_, rfl⟩
    have hmax : ∀ b, rightStep acc (nk, x) = some b → (∀ c, acc = some c → ¬ b.2.keyHash < c.2.keyHash) ∧
        ∀ l, x = .leaf l → ¬ b.2.keyHash < l.keyHash := by
      intro b hb
      unfold rightStep at hb
      cases x with
      | leaf l =>
        cases acc with
        | none => cases hb; exact ⟨by simp, fun l' h => by cases h; exact Key.lt_irrefl _⟩
        | some c =>
          simp only at hb
          split at hb
          · rename_i hlt
            cases hb
            refine ⟨fun c' h => ?_, fun l' h => by cases h; exact Key.lt_irrefl _⟩
            cases h
            exact fun h' => Key.lt_irrefl _ (Key.lt_trans hlt h')
          · rename_i hlt
            cases hb
            exact ⟨fun c' h => by cases h; exact Key.lt_irrefl _, fun l' h => by cases h; exact hlt⟩
      | null => exact ⟨fun c h => by rw [h] at hb; cases hb; exact Key.lt_irrefl _, by simp⟩
      | internal _ => exact ⟨fun c h => by rw [h] at hb; cases hb; exact Key.lt_irrefl _, by simp⟩
    refine ⟨?_, ?_, ?_, ?_⟩
    · intro a ha
      rcases i1 a ha with h | h
      · rcases hstep a h with h | ⟨rfl, rfl⟩
        · exact .inl h
        · exact .inr List.mem_cons_self
      · exact .inr (List.mem_cons_of_mem _ h)
    · intro h; exact i2 (hkeep (.inl h))
    · rintro ⟨nk', l, h⟩
      rcases List.mem_cons.1 h with h | h
      · cases h; exact i2 (hkeep (.inr ⟨l, rfl⟩))
      · exact i3 ⟨nk', l, h⟩
    · intro a ha
      obtain ⟨j1, j2⟩ := i4 a ha
      have hle : ∀ {p q r : Key}, ¬ p < q → ¬ q < r → ¬ p < r := by
        intro p q r h1 h2 h3
        rcases Key.lt_tri p q with h | h | h
        · exact h1 h
        · subst h; exact h2 h3
        · exact h2 (Key.lt_trans h h3)
      refine ⟨?_, ?_⟩
      · intro b hb
        obtain ⟨c, hc⟩ := hkeep (.inl ⟨b, hb⟩)
        exact hle (j1 c hc) ((hmax c hc).1 b hb)
      · intro nk' l h
        rcases List.mem_cons.1 h with h | h
        · cases h
          obtain ⟨c, hc⟩ := hkeep (.inr ⟨l, rfl⟩)
          exact hle (j1 c hc) ((hmax c hc).2 l rfl)
        · exact j2 nk' l h

theorem recoverStart_panics {r : Reader D} (fuel : Nat) {nk : NodeKey} (hf : nk.path.length < fuel)
    (h : ∀ n, (r.getNodeOption ⟨nk.version, nk.path.take n⟩).isSome = true) :
    Restore.recoverStart r fuel nk = .error (.panic "Current node key is root.") := by
  induction fuel generalizing nk with
  | zero => omega
  | succ fuel ih =>
    obtain ⟨v, p⟩ := nk
    unfold Restore.recoverStart
    have h0 := h p.length
    simp only [List.take_length] at h0
    obtain ⟨n, hn⟩ := Option.isSome_iff_exists.1 h0
    rw [hn]
    cases p with
    | nil => rfl
    | cons i p =>
      show Restore.recoverStart r fuel ⟨v, (i :: p).dropLast⟩ = _
      refine ih (by simp only [List.length_dropLast] at hf ⊢; simp only [List.length_cons] at hf ⊢; omega) ?_
      intro n
      have := h (min n p.length)
      simp only [List.dropLast_eq_take, List.take_take, List.length_cons, Nat.add_sub_cancel]
      exact this

/-- Every stored node has all nodes above it beside it, as long as nothing has been pruned. -/
theorem StoreInv.ancestors {H : Hasher D} {v0 : Version} {hist : List Commit} {s : Store D} (h : StoreInv H v0 hist v0 s) {v : Version}
    {q : List Nibble} {x : Node D} (hx : s.nodes.get ⟨v, q⟩ = some x) (n : Nat) : (s.nodes.get ⟨v, q.take n⟩).isSome = true := by
  obtain ⟨h0, h1, hs⟩ := h.inv.dom v q x hx
  by_cases hq : q = []
  · subst hq
    rw [List.take_nil, hx]; rfl
  · obtain ⟨i, q1, rfl⟩ := List.exists_cons_of_ne_nil hq
    rw [stored_cons] at hs
    have hne : treeAt H v0 hist v ≠ .empty := by intro he; rw [he] at hs; simp at hs
    have key : ∀ p p' : List Nibble, ∀ y, (treeAt H v0 hist v).at? H v (p ++ p') = some y → ∃ y', (treeAt H v0 hist v).at? H v p = some y' := by
      intro p p'
      induction p' using List.reverseRecOn with
      | nil => intro y hy; exact ⟨y, by simpa using hy⟩
      | append_singleton l j ih =>
        intro y hy
        rw [← List.append_assoc] at hy
        obtain ⟨v', n', c, a1, _⟩ := at?_parent hy
        have := h.inv.mono h0 h1 v' (p ++ l) [j] _ _ a1 hy
        subst this
        exact ih _ a1
    obtain ⟨y, hy⟩ := key ((i :: q1).take n) ((i :: q1).drop n) x (by rw [List.take_append_drop]; exact hs)
    rw [h.inv.nodes v h0 h1 v _ y (by rw [stored_of_ne H hne]; exact hy)]
    rfl

theorem StoreInv.recover_fails {H : Hasher D} {v0 : Version} {hist : List Commit} {s : Store D} (h : StoreInv H v0 hist v0 s) {nk : NodeKey}
    {x : Node D} (hx : s.nodes.get nk = some x) (w : Version) :
    Restore.recoverPartialNodes H s.reader w nk =
      if nk.path = [] then .error (.err "Root node would not be written until entire restoration process has completed successfully.")
      else .error (.panic "Current node key is root.") := by
  obtain ⟨v, q⟩ := nk
  unfold Restore.recoverPartialNodes
  cases q with
  | nil => rfl
  | cons i p =>
    simp only [List.isEmpty_cons, Bool.not_false, ensure_true, Res.ok_bind, NodeKey.genParent, reduceCtorEq, if_false]
    rw [recoverStart_panics]
    · rfl
    · exact Nat.lt_succ_self _
    · intro n
      show (s.nodes.get ⟨v, (i :: p).dropLast.take n⟩).isSome = true
      rw [List.dropLast_eq_take, List.take_take]
      exact h.ancestors hx _

end Verif.Jmt
