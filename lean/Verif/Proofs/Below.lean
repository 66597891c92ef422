import Verif.Jmt.Versioned
import Verif.Jmt.Exclusion
import Verif.Jmt.Ics23
import Verif.Jmt.Iterator
/-! Reads from a store that lacks some nodes and values of another one. -/

set_option autoImplicit false

namespace Verif.Jmt
variable {D : Type} {α β : Type}

/-- The answer `y`, or an error. -/
def OrErr (x y : Res α) : Prop := x = y ∨ ∃ m, x = .error (.err m)

/-- `r` holds no node and no value that `r'` does not hold. -/
structure Below (r r' : Reader D) : Prop where
  node : ∀ nk n, r.getNodeOption nk = some n → r'.getNodeOption nk = some n
  value : ∀ v k x, r.getValueOption v k = some x → r'.getValueOption v k = some x

namespace OrErr

theorem rfl' {x : Res α} : OrErr x x := .inl rfl

theorem err {m : String} {y : Res α} : OrErr (.error (.err m)) y := .inr ⟨m, rfl⟩

theorem bind {x y : Res α} {f g : α → Res β} (h : OrErr x y) (hf : ∀ a, OrErr (f a) (g a)) : OrErr (x >>= f) (y >>= g) := by
  rcases h with rfl | ⟨m, rfl⟩
  · cases x with
    | ok a => exact hf a
    | error e => exact .inl rfl
  · exact err

end OrErr
open OrErr

variable {r r' : Reader D}

theorem Below.getNode (h : Below r r') (nk : NodeKey) : OrErr (r.getNode nk) (r'.getNode nk) := by
  unfold Reader.getNode
  cases hn : r.getNodeOption nk with
  | none => exact err
  | some n => rw [h.node nk n hn]; exact rfl'

theorem Below.getValue (h : Below r r') (v : Version) (k : Key) : OrErr (r.getValue v k) (r'.getValue v k) := by
  unfold Reader.getValue
  cases hx : r.getValueOption v k with
  | none => exact err
  | some x => rw [h.value v k x hx]; exact rfl'

theorem Below.trans {r'' : Reader D} (h : Below r r') (h' : Below r' r'') : Below r r'' :=
  ⟨fun nk n hn => h'.node nk n (h.node nk n hn), fun v k x hx => h'.value v k x (h.value v k x hx)⟩

theorem Below.getWithProof (h : Below r r') (H : Hasher D) (key : Key) (version : Version) :
    OrErr (Tree.getWithProof H r key version) (Tree.getWithProof H r' key version) := by
  unfold Tree.getWithProof
  have : ∀ fuel depth nk nibs sibs, OrErr (Tree.getWithProofLoop H r key version fuel depth nk nibs sibs)
      (Tree.getWithProofLoop H r' key version fuel depth nk nibs sibs) := by
    intro fuel
    induction fuel with
    | zero => intro depth nk nibs sibs; exact rfl'
    | succ fuel ih =>
      intro depth nk nibs sibs
      unfold Tree.getWithProofLoop
      cases hn : r.getNodeOption nk with
      | none => exact err
      | some n =>
        rw [h.node nk n hn]
        cases n with
        | null => exact rfl'
        | leaf l =>
          simp only
          by_cases e : l.keyHash = key
          · rw [if_pos e, if_pos e]
            cases hx : r.getValueOption version l.keyHash with
            | none => exact err
            | some x => rw [h.value _ _ x hx]; exact rfl'
          · rw [if_neg e, if_neg e]; exact rfl'
        | internal n =>
          simp only
          split
          · exact rfl'
          · split
            · exact rfl'
            · exact rfl'
            · exact ih _ _ _ _
  exact this _ _ _ _ _

theorem Below.getProof (h : Below r r') (H : Hasher D) (key : Key) (version : Version) :
    OrErr (Tree.getProof H r key version) (Tree.getProof H r' key version) :=
  (h.getWithProof H key version).bind (fun _ => rfl')

theorem Below.verifyProof [DecidableEq D] (h : Below r r') (H : Hasher D) (key : Key) (version : Version) (root : D) (p : SparseMerkleProof D) :
    OrErr (Tree.verifyProof H r key version root p) (Tree.verifyProof H r' key version root p) :=
  (h.getWithProof H key version).bind (fun _ => rfl')

theorem Below.getRangeProof (h : Below r r') (H : Hasher D) (key : Key) (version : Version) :
    OrErr (Tree.getRangeProof H r key version) (Tree.getRangeProof H r' key version) :=
  (h.getWithProof H key version).bind (fun _ => rfl')

theorem Below.getRootNode (h : Below r r') (version : Version) : OrErr (Tree.getRootNode r version) (Tree.getRootNode r' version) := by
  unfold Tree.getRootNode
  cases hn : r.getNodeOption (.newEmptyPath version) with
  | none => exact err
  | some n => rw [h.node _ n hn]; exact rfl'

theorem Below.getRootHash (h : Below r r') (H : Hasher D) (version : Version) :
    OrErr (Tree.getRootHash H r version) (Tree.getRootHash H r' version) :=
  (h.getRootNode version).bind (fun _ => rfl')

theorem Below.getLeafCount (h : Below r r') (m : Bool) (version : Version) :
    OrErr (Tree.getLeafCount m r version) (Tree.getLeafCount m r' version) := by
  unfold Tree.getLeafCount
  split
  · exact (h.getRootNode version).bind (fun _ => rfl')
  · exact rfl'

theorem Below.getExtremeKeyHash (h : Below r r') (nk : NodeKey) (depth : Nat) (e : Tree.Extreme) :
    OrErr (Tree.getExtremeKeyHash r nk depth e) (Tree.getExtremeKeyHash r' nk depth e) := by
  unfold Tree.getExtremeKeyHash
  have : ∀ fuel depth nk, OrErr (Tree.getExtremeKeyHashLoop r e fuel depth nk) (Tree.getExtremeKeyHashLoop r' e fuel depth nk) := by
    intro fuel
    induction fuel with
    | zero => intro depth nk; exact rfl'
    | succ fuel ih =>
      intro depth nk
      unfold Tree.getExtremeKeyHashLoop
      cases hn : r.getNodeOption nk with
      | none => exact err
      | some n =>
        rw [h.node nk n hn]
        cases n with
        | null => exact rfl'
        | leaf l => exact rfl'
        | internal n =>
          simp only
          split
          · exact rfl'
          · split
            · exact rfl'
            · exact rfl'
            · exact ih _ _
  exact this _ _ _

theorem Below.searchClosest (h : Below r r') (version : Version) (e : Tree.Extreme) (to : List Nibble) (parents : List (InternalNode D)) :
    OrErr (Tree.searchClosestExtremeNode r version e to parents) (Tree.searchClosestExtremeNode r' version e to parents) := by
  unfold Tree.searchClosestExtremeNode
  refine OrErr.bind rfl' (fun a => ?_)
  cases a with
  | none => exact rfl'
  | some path => exact (h.getExtremeKeyHash _ _ _).bind (fun _ => rfl')

theorem Below.searchForClosest (h : Below r r') (version : Version) (key : Key) :
    OrErr (Tree.searchForClosestNode r version key) (Tree.searchForClosestNode r' version key) := by
  unfold Tree.searchForClosestNode
  have : ∀ fuel depth nk nibs vis ps, OrErr (Tree.searchLoop r fuel depth nk nibs vis ps) (Tree.searchLoop r' fuel depth nk nibs vis ps) := by
    intro fuel
    induction fuel with
    | zero => intro depth nk nibs vis ps; exact rfl'
    | succ fuel ih =>
      intro depth nk nibs vis ps
      unfold Tree.searchLoop
      cases hn : r.getNodeOption nk with
      | none => exact err
      | some n =>
        rw [h.node nk n hn]
        cases n with
        | null => exact rfl'
        | leaf l => exact rfl'
        | internal n =>
          simp only
          split
          · exact rfl'
          · split
            · exact rfl'
            · exact rfl'
            · exact ih _ _ _ _ _
  exact this _ _ _ _ _ _

theorem Below.getBoundingPath (h : Below r r') (key : Key) (version : Version) :
    OrErr (Tree.getBoundingPath r key version) (Tree.getBoundingPath r' key version) := by
  unfold Tree.getBoundingPath
  refine (h.searchForClosest version key).bind (fun a => ?_)
  cases a with
  | foundLeaf l path parents =>
    simp only
    split
    · exact (h.searchClosest _ _ _ _).bind (fun _ => rfl')
    · split
      · exact rfl'
      · exact (h.searchClosest _ _ _ _).bind (fun _ => rfl')
  | foundInternal path parents =>
    exact (h.searchClosest _ _ _ _).bind (fun _ => (h.searchClosest _ _ _ _).bind (fun _ => rfl'))

theorem Below.getWithExclusionProof (h : Below r r') (H : Hasher D) (key : Key) (version : Version) :
    OrErr (Tree.getWithExclusionProof H r key version) (Tree.getWithExclusionProof H r' key version) := by
  unfold Tree.getWithExclusionProof
  refine (h.getWithProof H key version).bind (fun a => ?_)
  obtain ⟨x, p⟩ := a
  cases x with
  | some x => exact rfl'
  | none =>
    refine (h.getBoundingPath key version).bind (fun b => ?_)
    obtain ⟨a, b⟩ := b
    cases a with
    | none =>
      cases b with
      | none => exact rfl'
      | some b => exact (h.getWithProof H _ version).bind (fun _ => rfl')
    | some a =>
      cases b with
      | none => exact (h.getWithProof H _ version).bind (fun _ => rfl')
      | some b => exact (h.getWithProof H _ version).bind (fun _ => (h.getWithProof H _ version).bind (fun _ => rfl'))

theorem Below.getWithIcs23Proof {r r' : Reader Key} (h : Below r r') (sha : List UInt8 → Key) (pre : Key → Option (List UInt8)) (key : List UInt8)
    (version : Version) : OrErr (Tree.getWithIcs23Proof sha r pre key version) (Tree.getWithIcs23Proof sha r' pre key version) := by
  unfold Tree.getWithIcs23Proof
  refine (h.getWithExclusionProof _ _ version).bind (fun a => ?_)
  have hn : ∀ p, OrErr (Tree.toNeighbour sha r pre version p) (Tree.toNeighbour sha r' pre version p) := by
    intro p
    unfold Tree.toNeighbour Tree.get
    cases p.leaf with
    | none => exact rfl'
    | some l =>
      simp only
      cases pre l.keyHash with
      | none => exact rfl'
      | some key =>
        simp only
        cases hx : r.getValueOption version l.keyHash with
        | none => exact err
        | some x => rw [h.value _ _ x hx]; exact rfl'
  cases a with
  | present x p => exact rfl'
  | absent p =>
    refine OrErr.bind ?_ (fun _ => rfl')
    cases p with
    | leftmost b => exact (hn b).bind (fun _ => rfl')
    | middle a b => exact (hn a).bind (fun _ => (hn b).bind (fun _ => rfl'))
    | rightmost a => exact (hn a).bind (fun _ => rfl')

/-! iterators -/

theorem Below.newIter (h : Below r r') (version : Version) (key : Key) : OrErr (Iter.new r version key) (Iter.new r' version key) := by
  unfold Iter.new
  have hb : ∀ nk st, OrErr (Iter.newBottom r version key nk st) (Iter.newBottom r' version key nk st) :=
    fun nk st => (h.getNode nk).bind (fun _ => rfl')
  have : ∀ nibs nk st, OrErr (Iter.newLoop r version key nibs nk st) (Iter.newLoop r' version key nibs nk st) := by
    intro nibs
    induction nibs with
    | nil =>
      intro nk st
      unfold Iter.newLoop
      rcases h.getNode nk with e | ⟨m, e⟩
      · rw [e]
        split
        · exact rfl'
        · exact rfl'
        · exact hb _ _
      · rw [e]; exact err
    | cons i nibs ih =>
      intro nk st
      unfold Iter.newLoop
      rcases h.getNode nk with e | ⟨m, e⟩
      · rw [e]
        split
        · exact rfl'
        · simp only
          split
          · split
            · exact rfl'
            · split
              · exact rfl'
              · exact ih _ _
          · exact rfl'
        · exact hb _ _
      · rw [e]; exact err
  exact this _ _ _

theorem Below.newByIndex (h : Below r r') (version : Version) (i : Nat) : OrErr (Iter.newByIndex r version i) (Iter.newByIndex r' version i) := by
  unfold Iter.newByIndex
  refine (h.getNode _).bind (fun n => ?_)
  have : ∀ fuel nk n sk st, OrErr (Iter.byIndexLoop r version i fuel nk n sk st) (Iter.byIndexLoop r' version i fuel nk n sk st) := by
    intro fuel
    induction fuel with
    | zero => intro nk n sk st; exact rfl'
    | succ fuel ih =>
      intro nk n sk st
      cases n with
      | null => exact rfl'
      | leaf l => exact rfl'
      | internal n =>
        unfold Iter.byIndexLoop
        split
        · exact rfl'
        · split
          · exact rfl'
          · split
            · exact rfl'
            · rename_i nk' _ _ _ _
              rcases h.getNode nk' with e | ⟨m, e⟩
              · rw [e]
                split
                · exact rfl'
                · exact ih _ _ _ _
              · rw [e]; exact err
  split
  · exact rfl'
  · split
    · exact rfl'
    · exact this _ _ _ _ _

theorem Below.next (h : Below r r') (it : Iter D) :
    it.next r = it.next r' ∨ ∃ m it', it.next r = .ok (some (.error (.err m)), it') := by
  unfold Iter.next
  split
  · exact .inl rfl
  · split
    · unfold Iter.nextRoot
      rcases h.getNode (.newEmptyPath it.version) with e | ⟨m, e⟩
      · rw [e]
        split
        · rename_i l _
          rcases h.getValue it.version l.keyHash with g | ⟨m, g⟩
          · rw [g]; exact .inl rfl
          · rw [g]; exact .inr ⟨_, _, rfl⟩
        · exact .inl rfl
        · exact .inl rfl
        · exact .inl rfl
      · rw [e]; exact .inr ⟨_, _, rfl⟩
    · have : ∀ fuel st, Iter.nextLoop r it.version fuel st = Iter.nextLoop r' it.version fuel st ∨
          ∃ m it', Iter.nextLoop r it.version fuel st = .ok (some (.error (.err m)), it') := by
        intro fuel
        induction fuel with
        | zero => intro st; exact .inl rfl
        | succ fuel ih =>
          intro st
          cases st with
          | nil => exact .inl rfl
          | cons info st =>
            unfold Iter.nextLoop
            simp only
            split
            · exact .inl rfl
            · split
              · exact .inl rfl
              · rename_i nk _
                rcases h.getNode nk with e | ⟨m, e⟩
                · rw [e]
                  split
                  · split
                    · exact .inl rfl
                    · exact ih _
                  · rename_i l _
                    rcases h.getValue nk.version l.keyHash with g | ⟨m, g⟩
                    · rw [g]; exact .inl rfl
                    · rw [g]; exact .inr ⟨_, _, rfl⟩
                  · exact .inl rfl
                  · exact .inl rfl
                · rw [e]; exact .inr ⟨_, _, rfl⟩
      exact this _ _

end Verif.Jmt
