import Verif.Proofs.Rename
import Verif.Proofs.Fork
/-! The batch path, too, looks at versions only as parts of node keys. -/

set_option autoImplicit false

namespace Verif.Jmt
variable {D : Type}

/-! ### the next version -/

/-- A step that does not touch the next version. -/
def NextKept {β : Type} (v : Version) (x : Res (TreeCache D × β)) : Prop := ∀ a, x = .ok a → a.1.nextVersion = v

section
variable {α β : Type} {v : Version}

theorem NextKept.pure {c : TreeCache D} {b : β} (h : c.nextVersion = v) : NextKept v (.ok (c, b)) := by
  intro a ha; cases ha; exact h

theorem NextKept.error {e : Err} : NextKept v (.error e : Res (TreeCache D × β)) := by
  intro a ha; cases ha

theorem NextKept.same {x : Res α} {f : α → Res (TreeCache D × β)} (h : ∀ a, NextKept v (f a)) : NextKept v (x >>= f) := by
  intro a ha
  cases x with
  | error e => cases ha
  | ok b => exact h b a ha

theorem NextKept.bind {x : Res (TreeCache D × α)} {f : TreeCache D × α → Res (TreeCache D × β)} (hx : NextKept v x)
    (h : ∀ a, a.1.nextVersion = v → NextKept v (f a)) : NextKept v (x >>= f) := by
  intro a ha
  cases hx' : x with
  | error e => rw [hx'] at ha; cases ha
  | ok b => rw [hx'] at ha; exact h b (hx b hx') a ha

theorem NextKept.put {c : TreeCache D} (hc : c.nextVersion = v) {nk : NodeKey} {n : Node D} {f : TreeCache D → Res (TreeCache D × β)}
    (h : ∀ c', c'.nextVersion = v → NextKept v (f c')) : NextKept v (c.putNode nk n >>= f) := by
  intro a ha
  cases hp : c.putNode nk n with
  | error e => rw [hp] at ha; cases ha
  | ok c1 =>
    rw [hp] at ha
    refine h c1 ?_ a ha
    unfold TreeCache.putNode at hp
    split at hp
    · cases hp
    · cases hp; exact hc

theorem NextKept.delete {c : TreeCache D} (hc : c.nextVersion = v) {nk : NodeKey} {b : Bool} {f : TreeCache D → Res (TreeCache D × β)}
    (h : ∀ c', c'.nextVersion = v → NextKept v (f c')) : NextKept v (c.deleteNode nk b >>= f) := by
  intro a ha
  cases hp : c.deleteNode nk b with
  | error e => rw [hp] at ha; cases ha
  | ok c1 =>
    rw [hp] at ha
    refine h c1 ?_ a ha
    unfold TreeCache.deleteNode at hp
    split at hp
    · split at hp
      · cases hp
      · cases hp; exact hc
    · split at hp
      · cases hp
      · cases hp; exact hc

theorem batchChildren_next (H : Hasher D) (hc : Option (Tree.HashCache D)) (ver : Version)
    {f : Nibble → List (Key × D) → TreeCache D → Res (TreeCache D × (NodeKey × Node D))}
    (hf : ∀ i g c, c.nextVersion = v → NextKept v (f i g c)) (l : List (Nibble × List (Key × D))) (ch : Children D) {c : TreeCache D}
    (h : c.nextVersion = v) : NextKept v (Tree.batchChildren H hc ver f l ch c) := by
  induction l generalizing ch c with
  | nil => exact NextKept.pure h
  | cons e l ih =>
    unfold Tree.batchChildren
    exact (hf e.1 e.2 c h).bind (fun a ha => NextKept.same (fun _ => NextKept.same (fun _ => ih _ ha)))

theorem batchFinish_next {m : Bool} {nk : NodeKey} {ch : Children D} {c : TreeCache D} (h : c.nextVersion = v) :
    NextKept v (do
        let internal ← InternalNode.newMigration ch m
        let c ← c.putNode nk (.internal internal)
        pure (c, (nk, .internal internal)) : Res (TreeCache D × (NodeKey × Node D))) :=
  NextKept.same (fun _ => NextKept.put h (fun _ h' => NextKept.pure h'))

theorem batchCreateSubtree_next (H : Hasher D) (m : Bool) (hc : Option (Tree.HashCache D)) (ver : Version) (height : Nat) (nk : NodeKey)
    (kvs : List (Key × D)) {c : TreeCache D} (h : c.nextVersion = v) : NextKept v (Tree.batchCreateSubtree H m hc ver height nk kvs c) := by
  induction height generalizing nk kvs c with
  | zero =>
    unfold Tree.batchCreateSubtree
    split
    · exact NextKept.put h (fun _ h' => NextKept.pure h')
    · exact NextKept.error
  | succ height ih =>
    unfold Tree.batchCreateSubtree
    split
    · exact NextKept.put h (fun _ h' => NextKept.pure h')
    · exact (batchChildren_next H hc ver (fun i g c hc => NextKept.same (fun k => ih k g hc)) _ _ h).bind (fun a ha => batchFinish_next ha)

theorem batchWithLeaf_next (H : Hasher D) (m : Bool) (hc : Option (Tree.HashCache D)) (ver : Version) (e : LeafNode D) (height : Nat)
    (nk : NodeKey) (kvs : List (Key × D)) {c : TreeCache D} (h : c.nextVersion = v) :
    NextKept v (Tree.batchWithLeaf H m hc ver e height nk kvs c) := by
  induction height generalizing nk kvs c with
  | zero =>
    unfold Tree.batchWithLeaf
    split
    · exact NextKept.put h (fun _ h' => NextKept.pure h')
    · exact NextKept.error
  | succ height ih =>
    unfold Tree.batchWithLeaf
    split
    · exact NextKept.put h (fun _ h' => NextKept.pure h')
    · refine (batchChildren_next H hc ver (fun i g c hc' => NextKept.same (fun k => ?_)) _ _ h).bind (fun a ha => ?_)
      · split
        · exact ih k g hc'
        · exact batchCreateSubtree_next H m hc ver height k g hc'
      · refine NextKept.bind (?_ : NextKept v (Tree.batchWithLeaf.isolated H ver e nk _ _ _ a.1)) (fun a ha => batchFinish_next ha)
        unfold Tree.batchWithLeaf.isolated
        split
        · exact NextKept.same (fun _ => NextKept.put ha (fun _ h' => NextKept.pure h'))
        · exact NextKept.pure ha

theorem batchInsertAt_next (H : Hasher D) (m : Bool) (hc : Option (Tree.HashCache D)) (ver : Version) (height : Nat) (nk : NodeKey)
    (kvs : List (Key × D)) {c : TreeCache D} (h : c.nextVersion = v) : NextKept v (Tree.batchInsertAt H m hc ver height nk kvs c) := by
  induction height generalizing nk kvs c with
  | zero =>
    unfold Tree.batchInsertAt
    refine NextKept.same (fun _ => NextKept.same (fun n => ?_))
    cases n with
    | internal n => exact NextKept.delete h (fun _ _ => NextKept.error)
    | leaf l => exact NextKept.delete h (fun _ h' => batchWithLeaf_next H m hc ver l 0 _ kvs h')
    | null =>
      refine NextKept.same (fun _ => ?_)
      dsimp only
      split
      · exact NextKept.delete h (fun _ h' => batchCreateSubtree_next H m hc ver 0 _ kvs h')
      · exact batchCreateSubtree_next H m hc ver 0 _ kvs h
  | succ height ih =>
    unfold Tree.batchInsertAt
    refine NextKept.same (fun _ => NextKept.same (fun n => ?_))
    cases n with
    | internal n =>
      refine NextKept.delete h (fun _ h' => ?_)
      refine (batchChildren_next H hc ver (fun i g c hc' => ?_) _ _ h').bind (fun a ha => batchFinish_next ha)
      cases n.child i with
      | some ch => exact NextKept.same (fun k => ih k g hc')
      | none => exact NextKept.same (fun k => batchCreateSubtree_next H m hc ver height k g hc')
    | leaf l => exact NextKept.delete h (fun _ h' => batchWithLeaf_next H m hc ver l (height + 1) _ kvs h')
    | null =>
      refine NextKept.same (fun _ => ?_)
      dsimp only
      split
      · exact NextKept.delete h (fun _ h' => batchCreateSubtree_next H m hc ver (height + 1) _ kvs h')
      · exact batchCreateSubtree_next H m hc ver (height + 1) _ kvs h

end

/-! ### renaming -/

namespace Sim
variable {ρ : Version → Version} {pre : List D} {ps : List NodeStats} {pv : Version → Key → Option (Option Value)} {c c' : TreeCache D} (hρ : Function.Injective ρ)

/-- Related results of a loop over children: related caches, renamed children. -/
def OutC (ρ : Version → Version) (pre : List D) (ps : List NodeStats) (pv : Version → Key → Option (Option Value)) (a b : TreeCache D × Children D) : Prop :=
  Sim ρ pre ps pv a.1 b.1 ∧ b.2 = a.2.ren ρ

theorem batchChildren (H : Hasher D) (hc : Option (Tree.HashCache D)) (ver : Version)
    {f f' : Nibble → List (Key × D) → TreeCache D → Res (TreeCache D × (NodeKey × Node D))}
    (hf : ∀ i g c c', Sim ρ pre ps pv c c' → ResRel (Out ρ pre ps pv) (f i g c) (f' i g c'))
    (l : List (Nibble × List (Key × D))) (ch : Children D) (h : Sim ρ pre ps pv c c') :
    ResRel (OutC ρ pre ps pv) (Tree.batchChildren H hc ver f l ch c) (Tree.batchChildren H hc (ρ ver) f' l (ch.ren ρ) c') := by
  induction l generalizing ch c c' with
  | nil => exact .ok ⟨h, rfl⟩
  | cons e l ih =>
    obtain ⟨i, g⟩ := e
    unfold Tree.batchChildren
    refine (hf i g c c' h).bind ?_
    rintro ⟨a, nk, n⟩ ⟨b, nk', n'⟩ ⟨hab, hr⟩
    simp only [Prod.mk.injEq] at hr
    obtain ⟨rfl, rfl⟩ := hr
    have hh : Tree.getHash H hc (nk.ren ρ) (n.ren ρ) = Tree.getHash H hc nk n := by
      unfold Tree.getHash
      rw [Node.hash_ren]; rfl
    dsimp only
    rw [hh, Node.nodeType_ren]
    refine (ResRel.refl _).bind (fun d d' hd => (ResRel.refl _).bind (fun ty ty' hty => ?_))
    subst hd hty
    have := ih (ch.insert i ⟨d', ver, ty'⟩) hab
    rw [← Children.insert_ren] at this
    exact this

include hρ

/-- The last step of the three recursive functions. -/
theorem batchFinish (m : Bool) (nk : NodeKey) (ch : Children D) (h : Sim ρ pre ps pv c c') :
    ResRel (Out ρ pre ps pv)
      (do
        let internal ← InternalNode.newMigration ch m
        let c ← c.putNode nk (.internal internal)
        pure (c, (nk, .internal internal)) : Res (TreeCache D × (NodeKey × Node D)))
      (do
        let internal ← InternalNode.newMigration (ch.ren ρ) m
        let c ← c'.putNode (nk.ren ρ) (.internal internal)
        pure (c, (nk.ren ρ, .internal internal)) : Res (TreeCache D × (NodeKey × Node D))) := by
  rw [InternalNode.newMigration_ren]
  refine (ResRel.ofMap rfl).bind (fun n n' hn => ?_)
  subst hn
  exact (h.putNode hρ nk (.internal n)).bind (fun a b hab => .ok ⟨hab, rfl⟩)

theorem batchLeaf (nk : NodeKey) (l : LeafNode D) (h : Sim ρ pre ps pv c c') :
    ResRel (Out ρ pre ps pv)
      (do let c ← c.putNode nk (.leaf l); pure (c, (nk, Node.leaf l)) : Res (TreeCache D × (NodeKey × Node D)))
      (do let c ← c'.putNode (nk.ren ρ) (.leaf l); pure (c, (nk.ren ρ, Node.leaf l)) : Res (TreeCache D × (NodeKey × Node D))) :=
  (h.putNode hρ nk (.leaf l)).bind (fun a b hab => .ok ⟨hab, rfl⟩)

omit hρ in
theorem genChild (nk : NodeKey) (v : Version) (i : Nibble) {F F' : NodeKey → Res (TreeCache D × (NodeKey × Node D))}
    (h : ∀ k, ResRel (Out ρ pre ps pv) (F k) (F' (k.ren ρ))) :
    ResRel (Out ρ pre ps pv) (do let k ← nk.genChild v i; F k) (do let k ← (nk.ren ρ).genChild (ρ v) i; F' k) := by
  refine (ResRel.ofMap (NodeKey.genChild_ren ρ nk v i)).bind (fun k k' hk => ?_)
  subst hk
  exact h k

theorem batchCreateSubtree (H : Hasher D) (m : Bool) (hc : Option (Tree.HashCache D)) (ver : Version) (height : Nat) (nk : NodeKey)
    (kvs : List (Key × D)) (h : Sim ρ pre ps pv c c') :
    ResRel (Out ρ pre ps pv) (Tree.batchCreateSubtree H m hc ver height nk kvs c)
      (Tree.batchCreateSubtree H m hc (ρ ver) height (nk.ren ρ) kvs c') := by
  induction height generalizing nk kvs c c' with
  | zero =>
    unfold Tree.batchCreateSubtree
    split
    · exact h.batchLeaf hρ nk _
    · exact .error _
  | succ height ih =>
    unfold Tree.batchCreateSubtree
    split
    · exact h.batchLeaf hρ nk _
    · have hk := batchChildren (ρ := ρ) (pre := pre) (ps := ps) (pv := pv) H hc ver
        (f := fun i g c => do let childKey ← nk.genChild ver i; Tree.batchCreateSubtree H m hc ver height childKey g c)
        (f' := fun i g c => do let childKey ← (nk.ren ρ).genChild (ρ ver) i; Tree.batchCreateSubtree H m hc (ρ ver) height childKey g c)
        (fun i g c c' h => genChild nk ver i (fun k => ih k g h)) (nibbleGroups kvs (rootNibbleHeight - (height + 1))) Children.new h
      refine hk.bind ?_
      rintro ⟨a, ch⟩ ⟨b, ch'⟩ ⟨hab, hr⟩
      simp only at hr hab
      subst hr
      exact hab.batchFinish hρ m nk ch

theorem isolated (H : Hasher D) (ver : Version) (e : LeafNode D) (nk : NodeKey) (i : Nibble) (b : Bool) (ch : Children D)
    (h : Sim ρ pre ps pv c c') :
    ResRel (OutC ρ pre ps pv) (Tree.batchWithLeaf.isolated H ver e nk i b ch c)
      (Tree.batchWithLeaf.isolated H (ρ ver) e (nk.ren ρ) i b (ch.ren ρ) c') := by
  unfold Tree.batchWithLeaf.isolated
  split
  · refine (ResRel.ofMap (NodeKey.genChild_ren ρ nk ver i)).bind (fun k k' hk => ?_)
    subst hk
    exact (h.putNode hρ k (.leaf e)).bind (fun a b hab => .ok ⟨hab, Children.insert_ren ρ ch i ⟨e.hash H, ver, .leaf⟩⟩)
  · exact .ok ⟨h, rfl⟩

theorem batchWithLeaf (H : Hasher D) (m : Bool) (hc : Option (Tree.HashCache D)) (ver : Version) (e : LeafNode D) (height : Nat) (nk : NodeKey)
    (kvs : List (Key × D)) (h : Sim ρ pre ps pv c c') :
    ResRel (Out ρ pre ps pv) (Tree.batchWithLeaf H m hc ver e height nk kvs c)
      (Tree.batchWithLeaf H m hc (ρ ver) e height (nk.ren ρ) kvs c') := by
  induction height generalizing nk kvs c c' with
  | zero =>
    unfold Tree.batchWithLeaf
    split
    · exact h.batchLeaf hρ nk _
    · exact .error _
  | succ height ih =>
    unfold Tree.batchWithLeaf
    split
    · exact h.batchLeaf hρ nk _
    · have hk := batchChildren (ρ := ρ) (pre := pre) (ps := ps) (pv := pv) H hc ver
        (f := fun i g c => do
            let childKey ← nk.genChild ver i
            if e.keyHash.nibble (rootNibbleHeight - (height + 1)) = i then Tree.batchWithLeaf H m hc ver e height childKey g c
            else Tree.batchCreateSubtree H m hc ver height childKey g c)
        (f' := fun i g c => do
            let childKey ← (nk.ren ρ).genChild (ρ ver) i
            if e.keyHash.nibble (rootNibbleHeight - (height + 1)) = i then Tree.batchWithLeaf H m hc (ρ ver) e height childKey g c
            else Tree.batchCreateSubtree H m hc (ρ ver) height childKey g c)
        (fun i g c c' h => genChild nk ver i (fun k => by
          split
          · exact ih k g h
          · exact h.batchCreateSubtree hρ H m hc ver height k g))
        (nibbleGroups kvs (rootNibbleHeight - (height + 1))) Children.new h
      refine hk.bind ?_
      rintro ⟨a, ch⟩ ⟨b, ch'⟩ ⟨hab, hr⟩
      simp only at hr hab
      subst hr
      refine (hab.isolated hρ H ver e nk _ _ ch).bind ?_
      rintro ⟨a, ch⟩ ⟨b, ch'⟩ ⟨hab, hr⟩
      simp only at hr hab
      subst hr
      exact hab.batchFinish hρ m nk ch

theorem batchNull (H : Hasher D) (m : Bool) (hc : Option (Tree.HashCache D)) (ver : Version) (height : Nat) (nk : NodeKey)
    (kvs : List (Key × D)) (h : Sim ρ pre ps pv c c') :
    ResRel (Out ρ pre ps pv)
      (do
        ensure nk.path.isEmpty "Null node exists for non-root node"
        let c ← if nk.version = ver then c.deleteNode nk false else pure c
        Tree.batchCreateSubtree H m hc ver height (.newEmptyPath ver) kvs c)
      (do
        ensure (nk.ren ρ).path.isEmpty "Null node exists for non-root node"
        let c ← if (nk.ren ρ).version = ρ ver then c'.deleteNode (nk.ren ρ) false else pure c'
        Tree.batchCreateSubtree H m hc (ρ ver) height (.newEmptyPath (ρ ver)) kvs c) := by
  refine (ResRel.refl _).bind (fun _ _ _ => ?_)
  rw [show (nk.ren ρ).version = ρ nk.version from rfl]
  have h1 := fun a b (hab : Sim ρ pre ps pv a b) => hab.batchCreateSubtree hρ H m hc ver height (.newEmptyPath ver) kvs
  simp only [hρ.eq_iff]
  split
  · exact (h.deleteNode hρ nk false).bind h1
  · exact h1 c c' h

theorem batchInsertAt (H : Hasher D) (m : Bool) (hc : Option (Tree.HashCache D)) (ver : Version) (height : Nat) (nk : NodeKey)
    (kvs : List (Key × D)) (h : Sim ρ pre ps pv c c') :
    ResRel (Out ρ pre ps pv) (Tree.batchInsertAt H m hc ver height nk kvs c)
      (Tree.batchInsertAt H m hc (ρ ver) height (nk.ren ρ) kvs c') := by
  induction height generalizing nk kvs c c' with
  | zero =>
    unfold Tree.batchInsertAt
    refine (ResRel.refl _).bind (fun _ _ _ => ?_)
    refine (ResRel.ofMap (h.getNode hρ nk)).bind (fun n n' hn => ?_)
    subst hn
    cases n with
    | internal n => exact (h.deleteNode hρ nk false).bind (fun _ _ _ => .error _)
    | leaf l => exact (h.deleteNode hρ nk true).bind (fun a b hab => hab.batchWithLeaf hρ H m hc ver l 0 (nk.setVersion ver) kvs)
    | null => exact h.batchNull hρ H m hc ver 0 nk kvs
  | succ height ih =>
    unfold Tree.batchInsertAt
    refine (ResRel.refl _).bind (fun _ _ _ => ?_)
    refine (ResRel.ofMap (h.getNode hρ nk)).bind (fun n n' hn => ?_)
    subst hn
    cases n with
    | internal n =>
      refine (h.deleteNode hρ nk false).bind (fun a b hab => ?_)
      have hk := batchChildren (ρ := ρ) (pre := pre) (ps := ps) (pv := pv) H hc ver
        (f := fun i g c =>
            match n.child i with
            | some child => do
              let childKey ← nk.genChild child.version i
              Tree.batchInsertAt H m hc ver height childKey g c
            | none => do
              let childKey ← nk.genChild ver i
              Tree.batchCreateSubtree H m hc ver height childKey g c)
        (f' := fun i g c =>
            match (n.ren ρ).child i with
            | some child => do
              let childKey ← (nk.ren ρ).genChild child.version i
              Tree.batchInsertAt H m hc (ρ ver) height childKey g c
            | none => do
              let childKey ← (nk.ren ρ).genChild (ρ ver) i
              Tree.batchCreateSubtree H m hc (ρ ver) height childKey g c)
        (fun i g c c' h => by
          rw [show (n.ren ρ).child i = (n.child i).map (Child.ren ρ) from rfl]
          cases n.child i with
          | some ch => exact genChild nk ch.version i (fun k => ih k g h)
          | none => exact genChild nk ver i (fun k => h.batchCreateSubtree hρ H m hc ver height k g))
        (nibbleGroups kvs (rootNibbleHeight - (height + 1))) n.children hab
      refine hk.bind ?_
      rintro ⟨a, ch⟩ ⟨b, ch'⟩ ⟨hab, hr⟩
      simp only at hr hab
      subst hr
      exact hab.batchFinish hρ m (nk.setVersion ver) ch
    | leaf l => exact (h.deleteNode hρ nk true).bind (fun a b hab => hab.batchWithLeaf hρ H m hc ver l (height + 1) (nk.setVersion ver) kvs)
    | null => exact h.batchNull hρ H m hc ver (height + 1) nk kvs

theorem foldl_putValue (ver : Version) (kvs : List (Key × Value)) (h : Sim ρ pre ps pv c c') :
    Sim ρ pre ps pv (kvs.foldl (fun c e => c.putValue ver e.1 (some e.2)) c) (kvs.foldl (fun c e => c.putValue (ρ ver) e.1 (some e.2)) c') := by
  induction kvs generalizing c c' with
  | nil => exact h
  | cons e kvs ih =>
    refine ih ?_
    exact { h with
      vcache := FMap.set_map (g := id) (renVal_inj hρ) h.vcache (ver, e.1) (some e.2) }

theorem batchPutSet (H : Hasher D) (m : Bool) (hc : Option (Tree.HashCache D)) (ver : Version) (s : List (Key × Value)) (h : Sim ρ pre ps pv c c')
    (hs : ρ (c.nextVersion + 1) = ρ c.nextVersion + 1) :
    ResRel (fun a b => Sim ρ pre ps pv a b ∧ a.nextVersion = c.nextVersion + 1) (Tree.batchPutSet H m hc ver s c) (Tree.batchPutSet H m hc (ρ ver) s c') := by
  unfold Tree.batchPutSet
  refine (ResRel.refl _).bind (fun _ _ _ => ?_)
  dsimp only
  have h0 := h.foldl_putValue hρ ver (Tree.sortDedup s)
  have hn : ∀ kvs : List (Key × Value), ∀ c : TreeCache D, (kvs.foldl (fun c e => c.putValue ver e.1 (some e.2)) c).nextVersion = c.nextVersion := by
    intro kvs
    induction kvs with
    | nil => exact fun _ => rfl
    | cons e kvs ih => exact fun c => ih _
  have hn := hn (Tree.sortDedup s) c
  generalize (Tree.sortDedup s).foldl (fun c e => c.putValue ver e.1 (some e.2)) c = c0 at *
  generalize (Tree.sortDedup s).foldl (fun c e => c.putValue (ρ ver) e.1 (some e.2)) c' = c0' at *
  rw [h0.root]
  refine ((h0.batchInsertAt hρ H m hc ver rootNibbleHeight c0.rootNodeKey _).and (P := fun a => a.1.nextVersion = c.nextVersion ∧ a.1.nodeCache.isEmpty = false)
    (fun a ha => ⟨batchInsertAt_next H m hc ver _ _ _ hn a ha, ?_⟩)).bind ?_
  · have := batchInsertAt_puts _ _ _ _ _ _ _ _ a ha
    cases he : a.1.nodeCache.entries with
    | nil =>
      unfold FMap.get at this
      rw [he] at this; cases this
    | cons e l => unfold FMap.isEmpty; rw [he]; rfl
  · rintro ⟨a, nk, n⟩ ⟨b, nk', n'⟩ ⟨⟨hab, hr⟩, hnext, hne⟩
    simp only [Prod.mk.injEq] at hr hnext hne hab
    obtain ⟨rfl, rfl⟩ := hr
    have h1 : Sim ρ pre ps pv (a.setRootNodeKey nk) (b.setRootNodeKey (nk.ren ρ)) := { hab with root := rfl }
    have h2 : (a.setRootNodeKey nk).nextVersion = c.nextVersion := hnext
    have := h1.freeze hρ H (by rw [h2]; exact hs) (.inr (fun hh => by
      have h3 : a.nodeCache.isEmpty = true := hh.1
      rw [hne] at h3; cases h3))
    generalize (a.setRootNodeKey nk).freeze H = x at *
    generalize (b.setRootNodeKey (nk.ren ρ)).freeze H = y at *
    cases this with
    | error e => exact .error e
    | ok hh => exact .ok ⟨hh.1, by rw [hh.2.1, h2]⟩

/-- The loop of `batch_put_value_sets`. -/
theorem batchPutSets (H : Hasher D) (m : Bool) (ver : Version) (sets : List (List (Key × Value) × Option (Tree.HashCache D)))
    (h : Sim ρ pre ps pv c c') (hver : c.nextVersion = ver) (hs : ∀ v, ver ≤ v → v < ver + sets.length → ρ (v + 1) = ρ v + 1) :
    ResRel (Sim ρ pre ps pv) (Tree.batchPutSets H m ver sets c) (Tree.batchPutSets H m (ρ ver) sets c') := by
  induction sets generalizing ver c c' with
  | nil => exact .ok h
  | cons s sets ih =>
    unfold Tree.batchPutSets
    simp only [List.length_cons] at hs
    have h1 := hs ver (Nat.le_refl _) (by omega)
    refine (h.batchPutSet hρ H m s.2 ver s.1 (by rw [hver]; exact h1)).bind (fun a b hab => ?_)
    rw [← h1]
    exact ih (ver + 1) hab.1 (by rw [hab.2, hver]) (fun v hv hv' => hs v (by omega) (by omega))

end Sim
end Verif.Jmt
