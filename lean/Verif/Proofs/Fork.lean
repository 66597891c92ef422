import Verif.Proofs.Reads
import Verif.Spec.Steady
/-! Updates computed on a store that already holds the versions being computed. -/

set_option autoImplicit false

namespace Verif.Jmt
variable {D : Type} {α β : Type}
open VTree

/-- Where `x` succeeds, `y` succeeds with the image of its result; or it reports an error, if `L` allows for missing nodes. -/
def Carries (L : NodeKey → Prop) (g : α → β) (x : Res α) (y : Res β) : Prop :=
  ∀ a, x = .ok a → y = .ok (g a) ∨ ((∃ nk, L nk) ∧ ∃ m, y = .error (.err m))

variable {L : NodeKey → Prop}

namespace Carries

theorem pure (g : α → β) (a : α) : Carries L g (.ok a) (.ok (g a)) := by
  intro b hb; cases hb; exact .inl rfl

theorem error {g : α → β} {e : Err} {y : Res β} : Carries L g (.error e) y := by
  intro b hb; cases hb

theorem refl (x : Res α) : Carries L id x x := fun _ h => .inl h

theorem bind {α' β' : Type} {g : α → β} {g' : α' → β'} {x : Res α} {y : Res β} {f : α → Res α'} {f' : β → Res β'} (h : Carries L g x y)
    (hf : ∀ a, x = .ok a → Carries L g' (f a) (f' (g a))) : Carries L g' (x >>= f) (y >>= f') := by
  intro b hb
  cases hx : x with
  | error e => rw [hx] at hb; cases hb
  | ok a =>
    rw [hx] at hb
    rcases h a hx with h | ⟨hl, m, h⟩
    · rw [h]; exact hf a hx b hb
    · rw [h]; exact .inr ⟨hl, m, rfl⟩

theorem strict {g : α → β} {x : Res α} {y : Res β} (h : Carries (fun _ => False) g x y) {a : α} (ha : x = .ok a) : y = .ok (g a) := by
  rcases h a ha with h | ⟨⟨_, h⟩, _⟩
  · exact h
  · exact h.elim

/-- The two sides begin with the same computation. -/
theorem same {α' β' : Type} {g' : α' → β'} {x : Res α} {f : α → Res α'} {f' : α → Res β'}
    (hf : ∀ a, x = .ok a → Carries L g' (f a) (f' a)) : Carries L g' (x >>= f) (x >>= f') := (refl x).bind hf

end Carries

/-- The same cache over another reader. -/
def TreeCache.over (r : Reader D) (c : TreeCache D) : TreeCache D := { c with reader := r }

/-- Of the nodes that `c` reads, `r` lacks only some in `L`. -/
def Within (L : NodeKey → Prop) (c : TreeCache D) (r : Reader D) : Prop :=
  ∀ nk n, c.reader.getNodeOption nk = some n → r.getNodeOption nk = some n ∨ (L nk ∧ r.getNodeOption nk = none)

theorem Within.self (c : TreeCache D) : Within L c c.reader := fun _ _ h => .inl h

theorem Within.congr {c c' : TreeCache D} {r : Reader D} (h : Within L c r) (e : c'.reader = c.reader) : Within L c' r := by
  intro nk n hn
  rw [e] at hn
  exact h nk n hn

variable {r : Reader D}

theorem Within.getNodeOption {c : TreeCache D} (h : Within L c r) {nk : NodeKey} {n : Node D} (hn : c.getNodeOption nk = some n) :
    (c.over r).getNodeOption nk = some n ∨ (L nk ∧ (c.over r).getNodeOption nk = none) := by
  unfold TreeCache.getNodeOption at hn ⊢
  simp only [TreeCache.over]
  cases e : c.nodeCache.get nk with
  | some m => rw [e] at hn; exact .inl hn
  | none =>
    rw [e] at hn
    simp only at hn ⊢
    cases e : c.frozen.nodeCache.nodes.get nk with
    | some m => rw [e] at hn; exact .inl hn
    | none => rw [e] at hn; exact h _ _ hn

theorem TreeCache.getNode_ok {c : TreeCache D} {nk : NodeKey} {n : Node D} : c.getNode nk = .ok n ↔ c.getNodeOption nk = some n := by
  unfold TreeCache.getNode TreeCache.getNodeOption Reader.getNode
  cases c.nodeCache.get nk with
  | some m => simp
  | none =>
    cases c.frozen.nodeCache.nodes.get nk with
    | some m => simp
    | none =>
      cases c.reader.getNodeOption nk with
      | some m => simp
      | none => simp

theorem Within.getNode {c : TreeCache D} (h : Within L c r) (nk : NodeKey) : Carries L id (c.getNode nk) ((c.over r).getNode nk) := by
  intro n hn
  rw [TreeCache.getNode_ok] at hn
  rcases h.getNodeOption hn with h1 | ⟨hl, h1⟩
  · exact .inl (TreeCache.getNode_ok.2 h1)
  · refine .inr ⟨⟨nk, hl⟩, ?_⟩
    unfold TreeCache.getNodeOption at h1
    unfold TreeCache.getNode
    cases e : (c.over r).nodeCache.get nk with
    | some m => rw [e] at h1; cases h1
    | none =>
      rw [e] at h1
      simp only at h1 ⊢
      cases e : (c.over r).frozen.nodeCache.nodes.get nk with
      | some m => rw [e] at h1; cases h1
      | none =>
        rw [e] at h1
        simp only at h1 ⊢
        unfold Reader.getNode
        rw [h1]
        exact ⟨_, rfl⟩

theorem putNode_over (c : TreeCache D) (nk : NodeKey) (n : Node D) : Carries L (TreeCache.over r) (c.putNode nk n) ((c.over r).putNode nk n) := by
  intro c' hc
  left
  unfold TreeCache.putNode at hc ⊢
  simp only [TreeCache.over] at hc ⊢
  cases e : c.nodeCache.get nk with
  | some m => rw [e] at hc; cases hc
  | none => rw [e] at hc; cases hc; rfl

theorem putNode_reader {c c' : TreeCache D} {nk : NodeKey} {n : Node D} (h : c.putNode nk n = .ok c') : c'.reader = c.reader := by
  unfold TreeCache.putNode at h
  split at h
  · cases h
  · cases h; rfl

theorem deleteNode_over (c : TreeCache D) (nk : NodeKey) (b : Bool) : Carries L (TreeCache.over r) (c.deleteNode nk b) ((c.over r).deleteNode nk b) := by
  intro c' hc
  left
  unfold TreeCache.deleteNode at hc ⊢
  simp only [TreeCache.over] at hc ⊢
  cases e : c.nodeCache.get nk with
  | some m =>
    rw [e] at hc
    simp only at hc ⊢
    by_cases e : (b && c.numNewLeaves == 0) = true
    · rw [if_pos e] at hc; cases hc
    · rw [if_neg e] at hc; cases hc; exact if_neg e
  | none =>
    rw [e] at hc
    simp only at hc ⊢
    by_cases e : c.staleNodeIndexCache.contains nk = true
    · rw [if_pos e] at hc; cases hc
    · rw [if_neg e] at hc; cases hc; exact if_neg e

theorem deleteNode_reader {c c' : TreeCache D} {nk : NodeKey} {b : Bool} (h : c.deleteNode nk b = .ok c') : c'.reader = c.reader := by
  unfold TreeCache.deleteNode at h
  split at h
  · split at h
    · cases h
    · cases h; rfl
  · split at h
    · cases h
    · cases h; rfl

/-- The cache of a result, over another reader. -/
def onCache (r : Reader D) (x : TreeCache D × β) : TreeCache D × β := (x.1.over r, x.2)

theorem createLeafNode_over (nk : NodeKey) (key : Key) (x : D) (c : TreeCache D) :
    Carries L (onCache r) (Tree.createLeafNode nk key x c) (Tree.createLeafNode nk key x (c.over r)) := by
  unfold Tree.createLeafNode
  exact (putNode_over c _ _).bind (fun a _ => Carries.pure (onCache r) _)

theorem chainUp_over (H : Hasher D) (ver : Version) (count : Nat) (p : List Nibble) (nk : NodeKey) (n : InternalNode D) (c : TreeCache D) :
    Carries L (onCache r) (Tree.chainUp H ver count p nk n c) (Tree.chainUp H ver count p nk n (c.over r)) := by
  induction count generalizing p nk n c with
  | zero => exact Carries.pure (onCache r) _
  | succ count ih =>
    unfold Tree.chainUp
    split
    · exact Carries.error
    · exact Carries.same (fun i _ => (putNode_over c _ _).bind (fun a _ => ih _ _ _ _))

theorem insertAtLeafNode_over (H : Hasher D) (m : Bool) (nk : NodeKey) (l : LeafNode D) (ver : Version) (key : Key)
    (visited rest : List Nibble) (x : Option D) (c : TreeCache D) :
    Carries L (onCache r) (Tree.insertAtLeafNode H m nk l ver key visited rest x c)
      (Tree.insertAtLeafNode H m nk l ver key visited rest x (c.over r)) := by
  unfold Tree.insertAtLeafNode
  refine Carries.same (fun _ _ => ?_)
  dsimp only
  split
  · refine Carries.same (fun _ _ => (deleteNode_over c _ _).bind (fun c1 _ => ?_))
    cases x with
    | none => exact Carries.pure (onCache r) _
    | some vh => exact (createLeafNode_over _ _ _ _).bind (fun a _ => Carries.pure (onCache r) _)
  · cases x with
    | none => exact Carries.pure (onCache r) _
    | some vh =>
      refine (deleteNode_over c _ _).bind (fun c1 _ => ?_)
      split
      · refine Carries.same (fun _ _ => Carries.same (fun k1 _ => (putNode_over _ _ _).bind (fun c2 _ => Carries.same (fun k2 _ =>
          (createLeafNode_over _ _ _ _).bind (fun a _ => Carries.same (fun i _ => (putNode_over _ _ _).bind (fun c4 _ =>
          (chainUp_over _ _ _ _ _ _ _).bind (fun a _ => Carries.pure (onCache r) _))))))))
      · exact Carries.error

theorem finishInternal_over (H : Hasher D) (nk : NodeKey) (n : InternalNode D) (ver : Version) (i : Nibble)
    (res : PutResult (NodeKey × Node D)) (c : TreeCache D) (hc : Within L c r) :
    Carries L (onCache r) (Tree.finishInternal H nk n ver i res c) (Tree.finishInternal H nk n ver i res (c.over r)) := by
  have hrest : ∀ ch, Carries L (onCache r) (Tree.finishInternal.rest nk ver ch c) (Tree.finishInternal.rest nk ver ch (c.over r)) := by
    intro ch
    unfold Tree.finishInternal.rest
    refine (deleteNode_over c _ _).bind (fun c1 h1 => ?_)
    have hc1 : Within L c1 r := by intro nk n hn; rw [deleteNode_reader h1] at hn; exact hc nk n hn
    dsimp only
    split
    · exact Carries.pure (onCache r) _
    · split
      · refine Carries.same (fun k _ => (hc1.getNode k).bind (fun n _ => (deleteNode_over _ _ _).bind (fun c2 _ =>
          (putNode_over _ _ _).bind (fun c3 _ => Carries.pure (onCache r) _))))
      · exact Carries.same (fun i _ => (putNode_over _ _ _).bind (fun c2 _ => Carries.pure (onCache r) _))
    · exact Carries.same (fun i _ => (putNode_over _ _ _).bind (fun c2 _ => Carries.pure (onCache r) _))
  unfold Tree.finishInternal
  cases res with
  | notChanged => exact Carries.pure (onCache r) _
  | updated a => exact Carries.same (fun ty _ => hrest _)
  | removed => exact hrest _

theorem genChild_path {nk k : NodeKey} {v : Version} {i : Nibble} (h : nk.genChild v i = .ok k) : k.path ≠ [] := by
  unfold NodeKey.genChild at h
  split at h
  · cases h; simp
  · cases h

theorem insertNull_over (ver : Version) (key : Key) (x : Option D) (nk : NodeKey) (b : Bool) (c : TreeCache D) :
    Carries L (onCache r) (Tree.insertAt.insertNull ver key x nk b c) (Tree.insertAt.insertNull ver key x nk b (c.over r)) := by
  unfold Tree.insertAt.insertNull
  refine Carries.same (fun _ _ => ?_)
  dsimp only
  by_cases hb : nk.version = ver ∧ b = true
  · rw [if_pos hb, if_pos hb]
    refine (deleteNode_over c _ _).bind (fun c1 _ => ?_)
    cases x with
    | none => exact Carries.pure (onCache r) _
    | some vh => exact (createLeafNode_over _ _ _ _).bind (fun a _ => Carries.pure (onCache r) _)
  · rw [if_neg hb, if_neg hb]
    cases x with
    | none => exact Carries.pure (onCache r) _
    | some vh => exact (createLeafNode_over _ _ _ _).bind (fun a _ => Carries.pure (onCache r) _)

theorem insertNull_missing {ver : Version} {key : Key} {x : Option D} {nk : NodeKey} {b : Bool} {c : TreeCache D} (h : nk.path ≠ []) :
    ∃ m, Tree.insertAt.insertNull ver key x nk b c = .error (.err m) := by
  unfold Tree.insertAt.insertNull
  cases hq : nk.path with
  | nil => exact absurd hq h
  | cons i q => exact ⟨_, rfl⟩

/-- A node that is missing below the root is an error. -/
theorem insertAt_missing (H : Hasher D) (m : Bool) (ver : Version) (key : Key) (x : Option D) (rest visited : List Nibble) (nk : NodeKey)
    (c : TreeCache D) (h : nk.path ≠ []) (hn : c.getNodeOption nk = none) :
    ∃ e, Tree.insertAt H m ver key x rest visited nk c = .error (.err e) := by
  cases rest with
  | nil => unfold Tree.insertAt; rw [hn]; exact insertNull_missing h
  | cons i rest => unfold Tree.insertAt; rw [hn]; exact insertNull_missing h

theorem insertAt_over (H : Hasher D) (m : Bool) (ver : Version) (key : Key) (x : Option D) (rest visited : List Nibble) (nk : NodeKey)
    (c : TreeCache D) (r : Reader D) (hL : ∀ nk : NodeKey, nk.path = [] → ¬ L nk) (hc : Within L c r)
    (hnk : nk.path ≠ [] ∨ (c.getNodeOption nk).isSome = true) :
    Carries L (onCache r) (Tree.insertAt H m ver key x rest visited nk c) (Tree.insertAt H m ver key x rest visited nk (c.over r)) := by
  induction rest generalizing visited nk c r with
  | nil =>
    cases hn : c.getNodeOption nk with
    | none =>
      have hp : nk.path ≠ [] := by
        rcases hnk with h | h
        · exact h
        · rw [hn] at h; cases h
      obtain ⟨e, he⟩ := insertAt_missing H m ver key x [] visited nk c hp hn
      rw [he]; exact Carries.error
    | some n =>
      rcases hc.getNodeOption hn with hr | ⟨hl, hr⟩
      case inr =>
        intro a _
        exact .inr ⟨⟨nk, hl⟩, insertAt_missing H m ver key x [] visited nk (c.over r) (fun hp => hL nk hp hl) hr⟩
      unfold Tree.insertAt
      rw [hn, hr]
      cases n with
      | internal n => exact Carries.error
      | leaf l => exact insertAtLeafNode_over _ _ _ _ _ _ _ _ _ _
      | null => exact insertNull_over _ _ _ _ _ _
  | cons i rest ih =>
    cases hn : c.getNodeOption nk with
    | none =>
      have hp : nk.path ≠ [] := by
        rcases hnk with h | h
        · exact h
        · rw [hn] at h; cases h
      obtain ⟨e, he⟩ := insertAt_missing H m ver key x (i :: rest) visited nk c hp hn
      rw [he]; exact Carries.error
    | some n =>
      rcases hc.getNodeOption hn with hr | ⟨hl, hr⟩
      case inr =>
        intro a _
        exact .inr ⟨⟨nk, hl⟩, insertAt_missing H m ver key x (i :: rest) visited nk (c.over r) (fun hp => hL nk hp hl) hr⟩
      unfold Tree.insertAt
      rw [hn, hr]
      cases n with
      | internal n =>
        simp only
        cases hch : n.child i with
        | some ch =>
          simp only
          refine Carries.same (fun k hk => (ih _ k c r hc (.inl (genChild_path hk))).bind ?_)
          rintro ⟨c1, res⟩ h2
          apply finishInternal_over
          -- the reader of the cache stays the same
          have hrd : c1.reader = c.reader := by
            have h4 : Tree.insertAt H m ver key x rest (visited ++ [i]) k c = .ok (onCache c.reader (c1, res)) := by
              rcases ih (visited ++ [i]) k c c.reader (Within.self c) (.inl (genChild_path hk)) _ h2 with h3 | ⟨_, m', h3⟩
              · exact h3
              · have h5 : Tree.insertAt H m ver key x rest (visited ++ [i]) k c = .error (.err m') := h3
                rw [h2] at h5; cases h5
            rw [h2] at h4
            simp only [Except.ok.injEq, onCache, Prod.mk.injEq, and_true] at h4
            rw [h4]; rfl
          intro nk n hn
          rw [hrd] at hn
          exact hc nk n hn
        | none =>
          simp only
          cases x with
          | none => exact finishInternal_over H nk n ver i .notChanged c hc
          | some vh =>
            simp only
            refine Carries.same (fun k hk => (createLeafNode_over _ _ _ _).bind ?_)
            rintro ⟨c1, res⟩ h1
            apply finishInternal_over H nk n ver i (.updated res) c1
            have hrd : c1.reader = c.reader := by
              simp only [Tree.createLeafNode] at h1
              cases hp : c.putNode k (.leaf ⟨key, vh⟩) with
              | error e => rw [hp] at h1; cases h1
              | ok c2 =>
                rw [hp] at h1
                cases h1
                exact putNode_reader hp
            intro nk n hn
            rw [hrd] at hn
            exact hc nk n hn
      | leaf l => exact insertAtLeafNode_over _ _ _ _ _ _ _ _ _ _
      | null => exact insertNull_over _ _ _ _ _ _

theorem put_over (H : Hasher D) (m : Bool) (key : Key) (x : Option D) (ver : Version) (c : TreeCache D) (r : Reader D)
    (hL : ∀ nk : NodeKey, nk.path = [] → ¬ L nk) (hc : Within L c r) (hr : (c.getNodeOption c.rootNodeKey).isSome = true) :
    Carries L (TreeCache.over r) (Tree.put H m key x ver c) (Tree.put H m key x ver (c.over r)) := by
  unfold Tree.put
  refine (insertAt_over H m ver key x key.nibbles [] c.rootNodeKey c r hL hc (.inr hr)).bind ?_
  rintro ⟨c1, res⟩ _
  cases res with
  | updated a => exact Carries.pure (TreeCache.over r) _
  | notChanged => exact Carries.pure (TreeCache.over r) _
  | removed => exact putNode_over (c1.setRootNodeKey _) _ _

theorem freeze_over (H : Hasher D) (c : TreeCache D) (r : Reader D) (hc : Within L c r) {n : Node D}
    (hn : c.getNodeOption c.rootNodeKey = some n) (hn' : (c.over r).getNodeOption c.rootNodeKey = some n) :
    Carries L (TreeCache.over r) (c.freeze H) ((c.over r).freeze H) := by
  have hn' : (c.over r).getNodeOption (c.over r).rootNodeKey = some n := hn'
  unfold TreeCache.freeze TreeCache.freezeRoot
  rw [hn, hn']
  refine Carries.bind (g := TreeCache.over r) ?_ (fun a _ => Carries.pure (TreeCache.over r) _)
  unfold TreeCache.freezeCopy
  by_cases h : (c.pushRoot (n.hash H)).nextVersion > 0 ∧ (c.pushRoot (n.hash H)).nodeCache.isEmpty = true ∧
      (c.pushRoot (n.hash H)).staleNodeIndexCache.isEmpty = true
  · have h' : ((c.over r).pushRoot (n.hash H)).nextVersion > 0 ∧ ((c.over r).pushRoot (n.hash H)).nodeCache.isEmpty = true ∧
      ((c.over r).pushRoot (n.hash H)).staleNodeIndexCache.isEmpty = true := h
    rw [if_pos h, if_pos h']
    have hw : Within L (c.pushRoot (n.hash H)) r := hc
    exact (hw.getNode _).bind (fun a _ => putNode_over (c.pushRoot (n.hash H)) _ _)
  · have h' : ¬ (((c.over r).pushRoot (n.hash H)).nextVersion > 0 ∧ ((c.over r).pushRoot (n.hash H)).nodeCache.isEmpty = true ∧
      ((c.over r).pushRoot (n.hash H)).staleNodeIndexCache.isEmpty = true) := h
    rw [if_neg h, if_neg h']
    exact Carries.pure (TreeCache.over r) _

/-! the batch path -/

/-- Moving the cache to a reader that holds more does not change what `F` does; where the reader lacks nodes, `F` may report an error. -/
def Moves (F : TreeCache D → Res (TreeCache D × β)) : Prop := ∀ L c r, Within L c r → Carries L (onCache r) (F c) (F (c.over r))

theorem Moves.reader {F : TreeCache D → Res (TreeCache D × β)} (h : Moves F) {c : TreeCache D} {a : TreeCache D × β} (ha : F c = .ok a) :
    a.1.reader = c.reader := by
  have h2 : F c = .ok (onCache c.reader a) := (h (fun _ => False) c c.reader (Within.self c)).strict ha
  rw [ha] at h2
  simp only [Except.ok.injEq] at h2
  rw [h2]; rfl

theorem Moves.within {F : TreeCache D → Res (TreeCache D × β)} (h : Moves F) {c : TreeCache D} {a : TreeCache D × β} (ha : F c = .ok a)
    (hc : Within L c r) : Within L a.1 r := by
  intro nk n hn
  rw [h.reader ha] at hn
  exact hc nk n hn

theorem batchChildren_moves (H : Hasher D) (hc : Option (Tree.HashCache D)) (ver : Version)
    (f : Nibble → List (Key × D) → TreeCache D → Res (TreeCache D × (NodeKey × Node D))) (hf : ∀ i g, Moves (f i g))
    (l : List (Nibble × List (Key × D))) (ch : Children D) : Moves (Tree.batchChildren H hc ver f l ch) := by
  induction l generalizing ch with
  | nil => intro _ c r _; exact Carries.pure (onCache r) _
  | cons e l ih =>
    intro L c r hw
    unfold Tree.batchChildren
    refine (hf e.1 e.2 L c r hw).bind ?_
    rintro ⟨c1, nk, n⟩ h1
    exact Carries.same (fun _ _ => Carries.same (fun _ _ => ih _ L c1 r ((hf e.1 e.2).within h1 hw)))

theorem genChild_moves {nk : NodeKey} {v : Version} {i : Nibble} {F : NodeKey → TreeCache D → Res (TreeCache D × β)} (h : ∀ k, Moves (F k)) :
    Moves (fun c => do let k ← nk.genChild v i; F k c) := fun L c r hw => Carries.same (fun k _ => h k L c r hw)

theorem batchCreateSubtree_moves (H : Hasher D) (m : Bool) (hc : Option (Tree.HashCache D)) (ver : Version) (h : Nat) (nk : NodeKey)
    (kvs : List (Key × D)) : Moves (Tree.batchCreateSubtree H m hc ver h nk kvs) := by
  induction h generalizing nk kvs with
  | zero =>
    intro L c r hw
    unfold Tree.batchCreateSubtree
    split
    · exact (putNode_over c _ _).bind (fun a _ => Carries.pure (onCache r) _)
    · exact Carries.error
  | succ h ih =>
    intro L c r hw
    unfold Tree.batchCreateSubtree
    split
    · exact (putNode_over c _ _).bind (fun a _ => Carries.pure (onCache r) _)
    · refine (batchChildren_moves H hc ver _ (fun i g => genChild_moves (fun k => ih k g)) _ _ L c r hw).bind ?_
      rintro ⟨c1, ch⟩ _
      exact Carries.same (fun _ _ => (putNode_over _ _ _).bind (fun a _ => Carries.pure (onCache r) _))

theorem isolated_moves (H : Hasher D) (ver : Version) (e : LeafNode D) (nk : NodeKey) (bu : Nibble) (b : Bool) (ch : Children D) :
    Moves (Tree.batchWithLeaf.isolated H ver e nk bu b ch) := by
  intro L c r hw
  unfold Tree.batchWithLeaf.isolated
  split
  · exact Carries.same (fun _ _ => (putNode_over _ _ _).bind (fun a _ => Carries.pure (onCache r) _))
  · exact Carries.pure (onCache r) _

theorem batchWithLeaf_moves (H : Hasher D) (m : Bool) (hc : Option (Tree.HashCache D)) (ver : Version) (e : LeafNode D) (h : Nat) (nk : NodeKey)
    (kvs : List (Key × D)) : Moves (Tree.batchWithLeaf H m hc ver e h nk kvs) := by
  induction h generalizing nk kvs with
  | zero =>
    intro L c r hw
    unfold Tree.batchWithLeaf
    split
    · exact (putNode_over c _ _).bind (fun a _ => Carries.pure (onCache r) _)
    · exact Carries.error
  | succ h ih =>
    intro L c r hw
    unfold Tree.batchWithLeaf
    split
    · exact (putNode_over c _ _).bind (fun a _ => Carries.pure (onCache r) _)
    · have hm := batchChildren_moves H hc ver (fun i g c => do
            let childKey ← nk.genChild ver i
            if e.keyHash.nibble (rootNibbleHeight - (h + 1)) = i then Tree.batchWithLeaf H m hc ver e h childKey g c
            else Tree.batchCreateSubtree H m hc ver h childKey g c)
          (fun i g => genChild_moves (fun k => by
            split
            · exact ih k g
            · exact batchCreateSubtree_moves _ _ _ _ _ _ _))
          (nibbleGroups kvs (rootNibbleHeight - (h + 1))) Children.new
      refine (hm L c r hw).bind ?_
      rintro ⟨c1, ch⟩ h1
      refine (isolated_moves H ver e nk _ _ ch L c1 r (hm.within h1 hw)).bind ?_
      rintro ⟨c2, ch2⟩ _
      exact Carries.same (fun _ _ => (putNode_over _ _ _).bind (fun a _ => Carries.pure (onCache r) _))

theorem deleteNode_within {c c' : TreeCache D} {nk : NodeKey} {b : Bool} (h : c.deleteNode nk b = .ok c') (hw : Within L c r) : Within L c' r := by
  intro nk n hn
  rw [deleteNode_reader h] at hn
  exact hw nk n hn

theorem batchInsertAt_moves (H : Hasher D) (m : Bool) (hc : Option (Tree.HashCache D)) (ver : Version) (h : Nat) (nk : NodeKey)
    (kvs : List (Key × D)) : Moves (Tree.batchInsertAt H m hc ver h nk kvs) := by
  induction h generalizing nk kvs with
  | zero =>
    intro L c r hw
    unfold Tree.batchInsertAt
    refine Carries.same (fun _ _ => (hw.getNode nk).bind (fun n _ => ?_))
    cases n with
    | internal n => exact (deleteNode_over _ _ _).bind (fun _ _ => Carries.error)
    | leaf l => exact (deleteNode_over _ _ _).bind (fun c1 h1 => batchWithLeaf_moves _ _ _ _ _ _ _ _ L c1 r (deleteNode_within h1 hw))
    | null =>
      refine Carries.same (fun _ _ => ?_)
      dsimp only
      by_cases hb : nk.version = ver
      · rw [if_pos hb, if_pos hb]
        exact (deleteNode_over _ _ _).bind (fun c1 h1 => batchCreateSubtree_moves _ _ _ _ _ _ _ L c1 r (deleteNode_within h1 hw))
      · rw [if_neg hb, if_neg hb]
        exact batchCreateSubtree_moves _ _ _ _ _ _ _ L c r hw
  | succ h ih =>
    intro L c r hw
    unfold Tree.batchInsertAt
    refine Carries.same (fun _ _ => (hw.getNode nk).bind (fun n _ => ?_))
    cases n with
    | internal n =>
      refine (deleteNode_over _ _ _).bind (fun c1 h1 => ?_)
      have hm := batchChildren_moves H hc ver (fun i g c =>
            match n.child i with
            | some child => do
              let childKey ← nk.genChild child.version i
              Tree.batchInsertAt H m hc ver h childKey g c
            | none => do
              let childKey ← nk.genChild ver i
              Tree.batchCreateSubtree H m hc ver h childKey g c)
          (fun i g => by
            cases n.child i with
            | some child => exact genChild_moves (fun k => ih k g)
            | none => exact genChild_moves (fun k => batchCreateSubtree_moves _ _ _ _ _ _ _))
          (nibbleGroups kvs (rootNibbleHeight - (h + 1))) n.children
      refine (hm L c1 r (deleteNode_within h1 hw)).bind ?_
      rintro ⟨c1, ch⟩ _
      exact Carries.same (fun _ _ => (putNode_over _ _ _).bind (fun a _ => Carries.pure (onCache r) _))
    | leaf l => exact (deleteNode_over _ _ _).bind (fun c1 h1 => batchWithLeaf_moves _ _ _ _ _ _ _ _ L c1 r (deleteNode_within h1 hw))
    | null =>
      refine Carries.same (fun _ _ => ?_)
      dsimp only
      by_cases hb : nk.version = ver
      · rw [if_pos hb, if_pos hb]
        exact (deleteNode_over _ _ _).bind (fun c1 h1 => batchCreateSubtree_moves _ _ _ _ _ _ _ L c1 r (deleteNode_within h1 hw))
      · rw [if_neg hb, if_neg hb]
        exact batchCreateSubtree_moves _ _ _ _ _ _ _ L c r hw

/-! the node that a batch call returns is in the cache -/

theorem putNode_get {c c' : TreeCache D} {nk : NodeKey} {n : Node D} (h : c.putNode nk n = .ok c') : c'.nodeCache.get nk = some n := by
  unfold TreeCache.putNode at h
  split at h
  · cases h
  · cases h; simp

/-- The returned node is in the cache. -/
def Puts (x : Res (TreeCache D × (NodeKey × Node D))) : Prop := ∀ a, x = .ok a → a.1.nodeCache.get a.2.1 = some a.2.2

theorem Puts.bind {x : Res α} {f : α → Res (TreeCache D × (NodeKey × Node D))} (h : ∀ a, Puts (f a)) : Puts (x >>= f) := by
  intro a ha
  cases x with
  | error e => cases ha
  | ok b => exact h b a ha

theorem Puts.put {c : TreeCache D} {nk : NodeKey} {n : Node D} : Puts (do let c ← c.putNode nk n; pure (c, (nk, n))) := by
  intro a ha
  cases hp : c.putNode nk n with
  | error e => rw [hp] at ha; cases ha
  | ok c' => rw [hp] at ha; cases ha; exact putNode_get hp

theorem Puts.error {e : Err} : Puts (.error e : Res (TreeCache D × (NodeKey × Node D))) := by
  intro a ha; cases ha

theorem batchCreateSubtree_puts (H : Hasher D) (m : Bool) (hc : Option (Tree.HashCache D)) (ver : Version) (h : Nat) (nk : NodeKey)
    (kvs : List (Key × D)) (c : TreeCache D) : Puts (Tree.batchCreateSubtree H m hc ver h nk kvs c) := by
  unfold Tree.batchCreateSubtree
  split
  · exact Puts.put
  · cases h with
    | zero => exact Puts.error
    | succ h => exact Puts.bind (fun a => Puts.bind (fun b => Puts.put))

theorem batchWithLeaf_puts (H : Hasher D) (m : Bool) (hc : Option (Tree.HashCache D)) (ver : Version) (e : LeafNode D) (h : Nat) (nk : NodeKey)
    (kvs : List (Key × D)) (c : TreeCache D) : Puts (Tree.batchWithLeaf H m hc ver e h nk kvs c) := by
  unfold Tree.batchWithLeaf
  split
  · exact Puts.put
  · cases h with
    | zero => exact Puts.error
    | succ h => exact Puts.bind (fun a => Puts.bind (fun b => Puts.bind (fun b => Puts.put)))

theorem batchInsertAt_puts (H : Hasher D) (m : Bool) (hc : Option (Tree.HashCache D)) (ver : Version) (h : Nat) (nk : NodeKey)
    (kvs : List (Key × D)) (c : TreeCache D) : Puts (Tree.batchInsertAt H m hc ver h nk kvs c) := by
  unfold Tree.batchInsertAt
  refine Puts.bind (fun _ => Puts.bind (fun n => ?_))
  cases n with
  | internal n =>
    refine Puts.bind (fun c => ?_)
    cases h with
    | zero => exact Puts.error
    | succ h => exact Puts.bind (fun a => Puts.bind (fun b => Puts.put))
  | leaf l => exact Puts.bind (fun c => batchWithLeaf_puts _ _ _ _ _ _ _ _ _)
  | null =>
    refine Puts.bind (fun _ => ?_)
    dsimp only
    split
    · exact Puts.bind (fun c => batchCreateSubtree_puts _ _ _ _ _ _ _ _)
    · exact Puts.bind (fun c => batchCreateSubtree_puts _ _ _ _ _ _ _ _)

theorem foldl_putValue_over (ver : Version) (kvs : List (Key × Value)) (c : TreeCache D) :
    kvs.foldl (fun c e => c.putValue ver e.1 (some e.2)) (c.over r) = (kvs.foldl (fun c e => c.putValue ver e.1 (some e.2)) c).over r ∧
      (kvs.foldl (fun c e => c.putValue ver e.1 (some e.2)) c).reader = c.reader := by
  induction kvs generalizing c with
  | nil => exact ⟨rfl, rfl⟩
  | cons e kvs ih => exact ih (c.putValue ver e.1 (some e.2))

theorem freeze_reader {H : Hasher D} {c c' : TreeCache D} (hr : (c.getNodeOption c.rootNodeKey).isSome = true) (h : c.freeze H = .ok c') :
    c'.reader = c.reader := by
  obtain ⟨n, hn⟩ := Option.isSome_iff_exists.1 hr
  have h2 : c.freeze H = .ok (c'.over c.reader) := (freeze_over (L := fun _ => False) H c c.reader (Within.self c) hn hn).strict h
  rw [h] at h2
  simp only [Except.ok.injEq] at h2
  rw [h2]; rfl

theorem batchPutSet_over (H : Hasher D) (m : Bool) (hc : Option (Tree.HashCache D)) (ver : Version) (s : List (Key × Value)) (c : TreeCache D)
    (r : Reader D) (hw : Within L c r) :
    Carries L (TreeCache.over r) (Tree.batchPutSet H m hc ver s c) (Tree.batchPutSet H m hc ver s (c.over r)) := by
  unfold Tree.batchPutSet
  refine Carries.same (fun _ _ => ?_)
  dsimp only
  obtain ⟨e1, e2⟩ := foldl_putValue_over (r := r) ver (Tree.sortDedup s) c
  rw [e1]
  generalize (Tree.sortDedup s).foldl (fun c e => c.putValue ver e.1 (some e.2)) c = c0 at e2 ⊢
  have hw0 : Within L c0 r := by intro nk n hn; rw [e2] at hn; exact hw nk n hn
  have hm := batchInsertAt_moves H m hc ver rootNibbleHeight c0.rootNodeKey ((Tree.sortDedup s).map (fun e => (e.1, H.value e.2)))
  refine (hm L c0 r hw0).bind ?_
  rintro ⟨c1, nk, n⟩ h1
  have hp := batchInsertAt_puts _ _ _ _ _ _ _ _ _ h1
  have hw1 := hm.within h1 hw0
  have hg : ∀ c : TreeCache D, c.nodeCache.get nk = some n → c.getNodeOption nk = some n := by
    intro c h
    unfold TreeCache.getNodeOption
    rw [h]
  exact freeze_over H (c1.setRootNodeKey nk) r hw1 (hg _ hp) (hg _ hp)

theorem batchPutSet_reader {H : Hasher D} {m : Bool} {hc : Option (Tree.HashCache D)} {ver : Version} {s : List (Key × Value)} {c c' : TreeCache D}
    (h : Tree.batchPutSet H m hc ver s c = .ok c') : c'.reader = c.reader := by
  have h2 : Tree.batchPutSet H m hc ver s c = .ok (c'.over c.reader) := 
    (batchPutSet_over (L := fun _ => False) H m hc ver s c c.reader (Within.self c)).strict h
  rw [h] at h2
  simp only [Except.ok.injEq] at h2
  rw [h2]; rfl

theorem batchPutSets_over (H : Hasher D) (m : Bool) (ver : Version) (l : List (List (Key × Value) × Option (Tree.HashCache D))) (c : TreeCache D)
    (r : Reader D) (hw : Within L c r) :
    Carries L (TreeCache.over r) (Tree.batchPutSets H m ver l c) (Tree.batchPutSets H m ver l (c.over r)) := by
  induction l generalizing ver c with
  | nil => exact Carries.pure (TreeCache.over r) _
  | cons e l ih =>
    unfold Tree.batchPutSets
    refine (batchPutSet_over H m e.2 ver e.1 c r hw).bind (fun c1 h1 => ih _ c1 ?_)
    intro nk n hn
    rw [batchPutSet_reader h1] at hn
    exact hw nk n hn

theorem new_over {r0 r : Reader D} {ver : Version} (hv : ver ≠ 0) : (TreeCache.new r0 ver).over r = TreeCache.new r ver := by
  unfold TreeCache.new
  simp only [if_neg hv]
  rfl

theorem new_reader {r0 : Reader D} {ver : Version} (hv : ver ≠ 0) : (TreeCache.new r0 ver).reader = r0 := by
  unfold TreeCache.new
  simp only [if_neg hv]

/-- `batch_put_value_sets` gives the same on a store that holds more; on a store that lacks nodes it may report an error. -/
theorem batchPutValueSets_over {H : Hasher D} {m : Bool} {r0 r : Reader D}
    (h : ∀ nk n, r0.getNodeOption nk = some n → r.getNodeOption nk = some n ∨ (L nk ∧ r.getNodeOption nk = none))
    {sets : List (List (Key × Value))} {hashes : Option (List (Tree.HashCache D))} {ver : Version} (hv : ver ≠ 0)
    {x : List D × TreeUpdateBatch D} (hx : Tree.batchPutValueSets H m r0 sets hashes ver = .ok x) :
    Tree.batchPutValueSets H m r sets hashes ver = .ok x ∨
      ((∃ nk, L nk) ∧ ∃ e, Tree.batchPutValueSets H m r sets hashes ver = .error (.err e)) := by
  have hw : Within L (TreeCache.new r0 ver) r := by intro nk n hn; rw [new_reader hv] at hn; exact h nk n hn
  unfold Tree.batchPutValueSets at hx ⊢
  rw [← new_over (r0 := r0) hv]
  exact (batchPutSets_over H m ver _ _ r hw).bind (g' := id) (fun a _ => Carries.same (fun _ _ => Carries.pure id a.into)) x hx

theorem batchPutValueSets_more {H : Hasher D} {m : Bool} {r0 r : Reader D} (h : ∀ nk n, r0.getNodeOption nk = some n → r.getNodeOption nk = some n)
    {sets : List (List (Key × Value))} {hashes : Option (List (Tree.HashCache D))} {ver : Version} (hv : ver ≠ 0)
    {x : List D × TreeUpdateBatch D} (hx : Tree.batchPutValueSets H m r0 sets hashes ver = .ok x) :
    Tree.batchPutValueSets H m r sets hashes ver = .ok x := by
  rcases batchPutValueSets_over (L := fun _ => False) (fun nk n hn => .inl (h nk n hn)) hv hx with h | ⟨⟨_, h⟩, _⟩
  · exact h
  · exact h.elim

/-! the sequential path -/

theorem Cur.rootSome {H : Hasher D} {ver : Version} {c : TreeCache D} {t0 t : VTree D} (hc : Cur H ver c t0 t) (h : RootThere c t) :
    (c.getNodeOption c.rootNodeKey).isSome = true := by
  rcases h with h | h
  · rcases hc.root with ⟨t, ht, rk, hM, hsame⟩ | ⟨rk, hM, hr⟩ | ⟨rv, hv, rk, hM, hb, h0⟩
    · rw [rk, (hc.holds hM).getNodeOption ht]; rfl
    · exact absurd rfl h
    · exact absurd rfl h
  · rw [h]; rfl

theorem Cur.rootPath {H : Hasher D} {ver : Version} {c : TreeCache D} {t0 t : VTree D} (hc : Cur H ver c t0 t) : c.rootNodeKey.path = [] := by
  rcases hc.root with ⟨t, ht, rk, hM, hsame⟩ | ⟨rk, hM, hr⟩ | ⟨rv, hv, rk, hM, hb, h0⟩
  · rw [rk]
  · rw [rk]
  · rw [rk]

/-- After an update of a non-empty tree, or after an insertion, the root node can be loaded. -/
theorem put_there {H : Hasher D} {m : Bool} {ver : Version} {key : Key} {x : Option D} {c c' : TreeCache D} {t0 t : VTree D}
    (hc : Cur H ver c t0 t) (h : t ≠ .empty ∨ x ≠ none) (hp : Tree.put H m key x ver c = .ok c') :
    RootThere c' (applyOne ver m key x t) := by
  by_cases ht : t = .empty
  · subst ht
    left
    rcases h with h | h
    · exact absurd rfl h
    · cases x with
      | none => exact absurd rfl h
      | some d => rw [applyOne_empty_some]; exact fun h => by cases h
  · rcases hc.root with ⟨t, _, rk, hM, hsame⟩ | ⟨rk, hM, hr⟩ | ⟨rv, hv, rk, hM, hb, h0⟩
    · obtain ⟨c1, e1, st⟩ := insertAt_spec H m ver key x t [] key.nibbles (by simp) c hc.wf ht (hc.holds hM)
      obtain ⟨hwf, hent, hnone, hupd⟩ := put_spec (ver := ver) (m := m) (k := key) (x := x) t [] key.nibbles (by simp) hc.wf
      unfold Tree.put at hp
      rw [rk, e1] at hp
      simp only [Res.ok_bind] at hp
      unfold applyOne
      cases hq : VTree.put ver m key x key.nibbles t with
      | notChanged => exact .inl ht
      | updated t' => exact .inl (hupd t' hq).1
      | removed =>
        right
        rw [hq] at hp
        have hp' : (c1.setRootNodeKey (.newEmptyPath ver)).putNode (.newEmptyPath ver) .null = .ok c' := hp
        have hg := putNode_get hp'
        have hr : c'.rootNodeKey = .newEmptyPath ver := by
          unfold TreeCache.putNode at hp'
          split at hp'
          · cases hp'
          · cases hp'; rfl
        rw [hr]
        unfold TreeCache.getNodeOption
        rw [hg]
    · exact absurd rfl ht
    · exact absurd rfl ht

theorem putSet_over (H : Hasher D) (m : Bool) (ver : Version) (s : Tree.ValueSet) (c : TreeCache D) (t0 t : VTree D) (f : Key → Option Value)
    (r : Reader D) (hL : ∀ nk : NodeKey, nk.path = [] → ¬ L nk) (hc : Cur H ver c t0 t) (hw : Within L c r) (ht : RootThere c t) (hf : Holding H t f)
    (hs : ∀ a k b, s = a ++ (k, none) :: b → (∃ k' v, Spec.applyUpdates f a k' = some v) ∨
      ((∀ k', f k' = none) ∧ (∀ e ∈ a, e.2 = none) ∧ c.rootNodeKey.version ≠ ver)) :
    Carries L (TreeCache.over r) (Tree.putSet H m ver s c) (Tree.putSet H m ver s (c.over r)) ∧
      ∀ c', Tree.putSet H m ver s c = .ok c' → RootThere c' (applySet ver m (hashSet H s) t) := by
  induction s generalizing c t f with
  | nil =>
    refine ⟨Carries.pure (TreeCache.over r) c, ?_⟩
    intro c' h
    cases h
    exact ht
  | cons e s ih =>
    obtain ⟨k0, x0⟩ := e
    have hc0 := hc.putValue ver k0 x0
    have ht0 : RootThere (c.putValue ver k0 x0) t := ht
    have hw0 : Within L (c.putValue ver k0 x0) r := hw
    obtain ⟨c1, e1, e2, e3, e4⟩ := put_root_spec H m ver k0 (x0.map H.value) (c.putValue ver k0 x0) t0 t hc0
    have hv := put_over H m k0 (x0.map H.value) ver (c.putValue ver k0 x0) r hL hw0 (hc0.rootSome ht0) c1 e1
    have hw1 : Within L c1 r := by intro nk n hn; rw [e2.reader] at hn; exact hw nk n hn
    -- the root can be loaded afterwards
    have ht1 : RootThere c1 (applyOne ver m k0 (x0.map H.value) t) ∧
        ∀ a k b, s = a ++ (k, none) :: b → (∃ k' v, Spec.applyUpdates (fun k' => if k' = k0 then x0 else f k') a k' = some v) ∨
          ((∀ k', (if k' = k0 then x0 else f k') = none) ∧ (∀ e ∈ a, e.2 = none) ∧ c1.rootNodeKey.version ≠ ver) := by
      by_cases hx : t ≠ .empty ∨ x0.map H.value ≠ none
      · refine ⟨put_there hc0 hx e1, ?_⟩
        intro a k b hab
        rcases hs ((k0, x0) :: a) k b (by rw [hab]; rfl) with h | ⟨h1, h2, h3⟩
        · exact .inl h
        · exfalso
          rcases hx with hx | hx
          · obtain ⟨k', v, hk⟩ := hf.ne_empty.1 hx
            rw [h1 k'] at hk; cases hk
          · have := h2 (k0, x0) (by simp)
            simp only at this
            rw [this] at hx
            exact hx rfl
      · have hte : t = .empty := by
          by_contra hh; exact hx (.inl hh)
        have hx0 : x0 = none := by
          cases x0 with
          | none => rfl
          | some x => exact absurd (.inr (by simp)) hx
        subst hte hx0
        rcases hs [] k0 s rfl with ⟨k', v, hk⟩ | ⟨h1, h2, h3⟩
        · exact absurd rfl (hf.ne_empty.2 ⟨k', v, hk⟩)
        · -- nothing is stored and nothing happens
          have hnull : (c.putValue ver k0 none).getNodeOption (c.putValue ver k0 none).rootNodeKey = some .null := by
            rcases ht0 with h | h
            · exact absurd rfl h
            · exact h
          have hstay : c1 = c.putValue ver k0 none := by
            unfold Tree.put Tree.insertAt at e1
            rw [hnull] at e1
            have hpath : (c.putValue ver k0 none).rootNodeKey.path = [] := by
              rcases hc0.root with ⟨t, ht, rk, hM, hsame⟩ | ⟨rk, hM, hr⟩ | ⟨rv, hv, rk, hM, hb, h0⟩
              · exact absurd rfl ‹_›
              · rw [rk]
              · rw [rk]
            have hver : ¬ ((c.putValue ver k0 none).rootNodeKey.version = ver ∧ True) := fun h => h3 h.1
            simp only [Option.map_none, Tree.insertAt.insertNull, hpath, List.isEmpty_nil, ensure_true, Res.ok_bind, if_neg hver] at e1
            cases e1; rfl
          subst hstay
          refine ⟨.inr hnull, ?_⟩
          intro a k b hab
          rcases hs ((k0, none) :: a) k b (by rw [hab]; rfl) with h | ⟨g1, g2, g3⟩
          · exact .inl h
          · refine .inr ⟨?_, fun e he => g2 e (by simp [he]), g3⟩
            intro k'
            split
            · rfl
            · exact g1 k'
    obtain ⟨i1, i2⟩ := ih c1 _ (fun k' => if k' = k0 then x0 else f k') e3 hw1 ht1.1 (hf.applyOne ver m k0 x0) ht1.2
    constructor
    · intro c' hc'
      simp only [Tree.putSet] at hc' ⊢
      rw [e1] at hc'
      have : (c.over r).putValue ver k0 x0 = (c.putValue ver k0 x0).over r := rfl
      rw [this]
      rcases hv with hv | ⟨hl, e, hv⟩
      · rw [hv]
        exact i1 c' hc'
      · rw [hv]
        exact .inr ⟨hl, e, rfl⟩
    · intro c' hc'
      simp only [Tree.putSet, e1, Res.ok_bind] at hc'
      exact i2 c' hc'

theorem freeze_nodeCache {H : Hasher D} {c c' : TreeCache D} (h : c.freeze H = .ok c') : c'.nodeCache = .empty := by
  unfold TreeCache.freeze at h
  cases h1 : c.freezeRoot with
  | error e => rw [h1] at h; cases h
  | ok a =>
    rw [h1] at h
    simp only [Res.ok_bind] at h
    cases h2 : (a.1.pushRoot (a.2.hash H)).freezeCopy with
    | error e => rw [h2] at h; cases h
    | ok b => rw [h2] at h; cases h; rfl

theorem putSets_over {H : Hasher D} {St0 : Version → NodeKey → Prop} {v0 first lo : Version} (m : Bool) (sets : List Tree.ValueSet)
    (hist : List Commit) (c : TreeCache D) (t : VTree D) (f : Key → Option Value) (r : Reader D) (hL : ∀ nk : NodeKey, nk.path = [] → ¬ L nk)
    (h : CacheInv H St0 v0 first lo hist c t)
    (hk : RootThere c t) (he : c.nodeCache = .empty) (hw : Within L c r) (hf : Holding H t f) (hs : Spec.Steady f sets) :
    Carries L (TreeCache.over r) (Tree.putSets H m (v0 + hist.length) sets c) (Tree.putSets H m (v0 + hist.length) sets (c.over r)) := by
  induction sets generalizing hist c t f with
  | nil => exact Carries.pure (TreeCache.over r) c
  | cons s sets ih =>
    have hM : ∀ nk, c.M nk = none := by intro nk; unfold TreeCache.M; rw [he]; rfl
    have hroot : c.rootNodeKey.version ≠ v0 + hist.length := by
      have h1 := h.cur.rootSome hk
      rw [TreeCache.getNodeOption_eq, hM] at h1
      exact Nat.ne_of_lt (h.cur.fresh _ h1)
    obtain ⟨c1, e1, e2, e3, e4, e5, e6, e7⟩ := putSet_spec H m (v0 + hist.length) s c t t h.cur
    have hkn : RootKnown c1 (applySet (v0 + hist.length) m (hashSet H s) t) := e7 (hk.known h.cur)
    obtain ⟨c2, f1, f2, f3, f4⟩ := h.step (.seq m s) e2 hkn (quiet_seq H m s h.wf0) e3 e4 (e5 (by rw [h.vempty]; exact FMap.nodupKeys_empty)) (by
      intro v k
      rw [e6, h.vempty]
      simp [Commit.updates])
    obtain ⟨g1, g2⟩ := putSet_over H m (v0 + hist.length) s c t t f r hL h.cur hw hk hf (by
      intro a k b hab
      rcases hs.1 a k b hab with h1 | ⟨h1, h2⟩
      · exact .inl h1
      · exact .inr ⟨h1, h2, hroot⟩)
    have hthere := g2 c1 e1
    have hw1 : Within L c1 r := by intro nk n hn; rw [e4] at hn; exact hw nk n hn
    obtain ⟨n1, hn1⟩ := Option.isSome_iff_exists.1 (e2.rootSome hthere)
    have hn2 : (c1.over r).getNodeOption c1.rootNodeKey = some n1 := by
      rcases hw1.getNodeOption hn1 with h | ⟨hl, _⟩
      · exact h
      · exact absurd hl (hL _ e2.rootPath)
    have hv := freeze_over H c1 r hw1 hn1 hn2 c2 f1
    have hw2 : Within L c2 r := by intro nk n hn; rw [f4] at hn; exact hw nk n hn
    have hlen : v0 + (hist ++ [Commit.seq m s]).length = v0 + hist.length + 1 := by simp; omega
    have := ih (hist ++ [.seq m s]) c2 _ (Spec.applyUpdates f s) f2 f3 (freeze_nodeCache f1) hw2 (hf.applySet _ m s) hs.2
    rw [hlen] at this
    intro c' hc'
    simp only [Tree.putSets, e1, f1, Res.ok_bind] at hc'
    rcases g1 c1 e1 with g1 | ⟨hl, e, g1⟩
    · rcases hv with hv | ⟨hl, e, hv⟩
      · simp only [Tree.putSets, g1, hv, Res.ok_bind]
        exact this c' hc'
      · simp only [Tree.putSets, g1, hv, Res.ok_bind]
        exact .inr ⟨hl, e, rfl⟩
    · simp only [Tree.putSets, g1]
      exact .inr ⟨hl, e, rfl⟩

/-! the nodes of one version -/

/-- The store with the nodes of version `v` alone. -/
def thin (H : Hasher D) (v0 : Version) (hist : List Commit) (v : Version) (s : Store D) : Store D :=
  { s with
    nodes := ⟨s.nodes.entries.filter (fun e => (stored H v (treeAt H v0 hist v) e.1.version e.1.path).isSome)⟩
    staleNodes := .empty }

theorem lookupL_filter_key {K V : Type} [DecidableEq K] (p : K → Bool) (l : List (K × V)) (k : K) :
    FMap.lookupL (l.filter (fun e => p e.1)) k = if p k = true then FMap.lookupL l k else none := by
  induction l with
  | nil => simp [FMap.lookupL]
  | cons e l ih =>
    obtain ⟨a, x⟩ := e
    by_cases h : p a = true
    · rw [List.filter_cons_of_pos (by simpa using h)]
      simp only [FMap.lookupL, ih]
      by_cases ha : a = k
      · subst ha; simp [h]
      · simp [ha]
    · rw [List.filter_cons_of_neg (by simpa using h), ih]
      simp only [FMap.lookupL]
      by_cases ha : a = k
      · subst ha; simp [h]
      · simp [ha]

theorem thin_get {H : Hasher D} {v0 : Version} {hist : List Commit} {v : Version} {s : Store D} (nk : NodeKey) :
    (thin H v0 hist v s).nodes.get nk = if (stored H v (treeAt H v0 hist v) nk.version nk.path).isSome = true then s.nodes.get nk else none :=
  lookupL_filter_key (fun nk : NodeKey => (stored H v (treeAt H v0 hist v) nk.version nk.path).isSome) s.nodes.entries nk

theorem StoreInv.thin {H : Hasher D} {v0 lo : Version} {hist : List Commit} {s : Store D} (h : StoreInv H v0 hist lo s) (hne : hist ≠ []) :
    StoreInv H v0 hist (v0 + hist.length - 1) (thin H v0 hist (v0 + hist.length - 1) s) := by
  have hpos : 0 < hist.length := List.length_pos_iff.2 hne
  have hi := h.inv
  have hlo : lo ≤ v0 + hist.length - 1 := by have := hi.loLt; omega
  refine ⟨⟨hi.le, .inl (by omega), by omega, hi.tree, hi.chain, ?_, ?_, ?_, ?_, ?_, ?_, ?_⟩, ?_, ?_, h.values, h.vnodup⟩
  · intro w h0 h1 v q n hn
    have hw : w = v0 + hist.length - 1 := by omega
    subst hw
    rw [thin_get, if_pos (by rw [hn]; rfl)]
    exact hi.nodes _ hlo (by omega) v q n hn
  · intro v q n hn
    rw [thin_get] at hn
    split at hn
    · exact hi.dom v q n hn
    · cases hn
  · intro sv v q hs; simp [Verif.Jmt.thin] at hs
  · intro sv sv' nk hs; simp [Verif.Jmt.thin] at hs
  · intro w h0 h1; omega
  · intro sv v i q hs; simp [Verif.Jmt.thin] at hs
  · intro v i q n hn
    rw [thin_get] at hn
    split at hn
    · rename_i hst
      refine ⟨v0 + hist.length - 1, Nat.le_refl _, by omega, ?_⟩
      obtain ⟨n', hn'⟩ := Option.isSome_iff_exists.1 hst
      have := hi.nodes _ hlo (by omega) v (i :: q) n' hn'
      rw [hn] at this
      cases this
      rwa [stored_cons] at hn'
    · cases hn
  · exact (List.filter_sublist.map _).nodup h.nodup
  · simp [Verif.Jmt.thin, FSet.empty]

/-- `put_value_sets` gives the same on every store that holds the nodes of the version it starts from; where some of them other than the
root are missing it may report an error. -/
theorem putValueSets_over {H : Hasher D} {v0 lo : Version} {hist : List Commit} {s : Store D} (h : StoreInv H v0 hist lo s)
    (hne : hist ≠ []) {r : Reader D} (hL : ∀ nk : NodeKey, nk.path = [] → ¬ L nk)
    (hr : ∀ nk n, s.reader.getNodeOption nk = some n → r.getNodeOption nk = some n ∨ (L nk ∧ r.getNodeOption nk = none)) (m : Bool)
    (sets : List Tree.ValueSet) (hs : Spec.Steady (Spec.contents (hist.map Commit.updates)) sets) {x : List D × TreeUpdateBatch D}
    (hx : Tree.putValueSets H m s.reader sets (v0 + hist.length) = .ok x) :
    Tree.putValueSets H m r sets (v0 + hist.length) = .ok x ∨
      ((∃ nk, L nk) ∧ ∃ e, Tree.putValueSets H m r sets (v0 + hist.length) = .error (.err e)) := by
  have hpos : 0 < hist.length := List.length_pos_iff.2 hne
  have hv : v0 + hist.length ≠ 0 := by omega
  obtain ⟨t, h1, h2, h3, h4, h5⟩ := h.start
  have hw : Within L (TreeCache.new s.reader (v0 + hist.length)) r := by intro nk n hn; rw [new_reader hv] at hn; exact hr nk n hn
  have hf : Holding H t (Spec.contents (hist.map Commit.updates)) := by
    have hh := holding_treeAt H v0 hist (v0 + hist.length - 1)
    rw [List.take_of_length_le (by omega)] at hh
    have hl := h1.run.last (by omega)
    refine ⟨h1.wf0, ?_⟩
    rw [← entries_setVersion 0 t, hl, entries_setVersion]
    exact hh.2
  have hc := putSets_over m sets hist _ t _ r hL h1 (h3 (.inl hne)) (by unfold TreeCache.new; simp only [if_neg hv]) hw hf hs
  unfold Tree.putValueSets at hx ⊢
  rw [← new_over (r0 := s.reader) hv]
  exact hc.bind (g' := id) (fun a _ => Carries.pure id a.into) x hx

theorem putValueSets_more {H : Hasher D} {v0 lo : Version} {hist : List Commit} {s : Store D} (h : StoreInv H v0 hist lo s)
    (hne : hist ≠ []) {r : Reader D} (hr : ∀ nk n, s.reader.getNodeOption nk = some n → r.getNodeOption nk = some n) (m : Bool)
    (sets : List Tree.ValueSet) (hs : Spec.Steady (Spec.contents (hist.map Commit.updates)) sets) {x : List D × TreeUpdateBatch D}
    (hx : Tree.putValueSets H m s.reader sets (v0 + hist.length) = .ok x) :
    Tree.putValueSets H m r sets (v0 + hist.length) = .ok x := by
  rcases putValueSets_over (L := fun _ => False) h hne (fun _ _ h => h) (fun nk n hn => .inl (hr nk n hn)) m sets hs hx with h | ⟨⟨_, h⟩, _⟩
  · exact h
  · exact h.elim

end Verif.Jmt
