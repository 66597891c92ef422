import Verif.Spec.Failing
import Mathlib.Tactic.SplitIfs
/-! A call with failing lookups gives the result of the call without failures, or the error of a lookup. -/

set_option autoImplicit false

namespace Verif.Spec.OrFail
variable {α β : Type} {P : String → Prop}

theorem same {x : Res α} : OrFail P x x := .inl rfl

theorem fail {m : String} {y : Res α} (h : P m) : OrFail P (.error (.err m)) y := .inr ⟨m, h, rfl⟩

theorem bind {x y : Res α} {f g : α → Res β} (h : OrFail P x y) (hf : ∀ a, y = .ok a → OrFail P (f a) (g a)) : OrFail P (x >>= f) (y >>= g) := by
  rcases h with rfl | ⟨m, hm, rfl⟩
  · cases x with
    | ok a => exact hf a rfl
    | error e => exact .inl rfl
  · exact fail hm

theorem bind' {x y : Res α} {f : α → Res β} (h : OrFail P x y) : OrFail P (x >>= f) (y >>= f) := OrFail.bind h (fun _ _ => same)

theorem mono {Q : String → Prop} (hPQ : ∀ m, P m → Q m) {x y : Res α} (h : OrFail P x y) : OrFail Q x y :=
  h.imp id (fun ⟨m, hm, e⟩ => ⟨m, hPQ m hm, e⟩)

end Verif.Spec.OrFail

namespace Verif.Jmt
variable {D : Type} {α β : Type}
open Spec
open OrFail

namespace FReader
variable {r : FReader D} {P : String → Prop} (hP : ∀ m, Fails r m → P m)
include hP

theorem option_fail (nk : NodeKey) : OrFail P (r.getNodeOption nk) (.ok (r.held.getNodeOption nk)) := by
  unfold getNodeOption answer
  cases h : r.nodeError nk with
  | none => exact same
  | some m => exact fail (hP m (.inl ⟨nk, h⟩))

theorem valueOption_fail (v : Version) (k : Key) : OrFail P (r.getValueOption v k) (.ok (r.held.getValueOption v k)) := by
  unfold getValueOption answer
  cases h : r.valueError v k with
  | none => exact same
  | some m => exact fail (hP m (.inr (.inl ⟨v, k, h⟩)))

theorem preimage_fail (k : Key) : OrFail P (r.preimage k) (.ok (r.heldPreimage k)) := by
  unfold preimage answer
  cases h : r.preimageError k with
  | none => exact same
  | some m => exact fail (hP m (.inr (.inr (.inl ⟨k, h⟩))))

theorem node_fail (nk : NodeKey) : OrFail P (r.getNode nk) (r.held.getNode nk) := by
  unfold getNode Reader.getNode
  refine OrFail.bind (option_fail hP nk) (g := fun o => match o with | some n => .ok n | none => .error (.err "Missing node")) (fun a _ => ?_)
  cases a <;> exact same

theorem value_fail (v : Version) (k : Key) : OrFail P (r.getValue v k) (r.held.getValue v k) := by
  unfold getValue Reader.getValue
  refine OrFail.bind (valueOption_fail hP v k) (g := fun o => match o with | some n => .ok n | none => .error (.err "Missing value")) (fun a _ => ?_)
  cases a <;> exact same

omit hP in
theorem nodeAt_fail {version : Version} (hP : ∀ m, FailsAt r version m → P m) (depth : Nat) (nk : NodeKey) (hd : depth = 0 → nk = ⟨version, []⟩) :
    OrFail P (r.getNodeAt depth nk)
      (match r.held.getNodeOption nk with | none => .error (.err (if depth = 0 then "Missing root" else "Missing node")) | some n => .ok n) := by
  unfold getNodeAt getNode getNodeOption answer
  cases h : r.nodeError nk with
  | none =>
    cases hn : r.held.getNodeOption nk with
    | some n => exact same
    | none =>
      by_cases h0 : depth = 0
      · subst h0; exact same
      · simp only [h0, if_false]; exact same
  | some m =>
    by_cases h0 : depth = 0
    · rw [hd h0] at h
      subst h0
      exact fail (hP _ (.inr ⟨rfl, m, h⟩))
    · simp only [h0, if_false]
      exact fail (hP _ (.inl (.inl ⟨nk, h⟩)))

/-! reads -/

section
variable {version : Version}
omit hP
variable (hQ : ∀ m, FailsAt r version m → P m)
include hQ

theorem getWithProof_fail (H : Hasher D) (key : Key) : OrFail P (r.getWithProof H key version) (Tree.getWithProof H r.held key version) := by
  unfold FReader.getWithProof Tree.getWithProof
  have : ∀ fuel depth nk nibs sibs, (depth = 0 → nk = ⟨version, []⟩) → OrFail P (r.getWithProofLoop H key version fuel depth nk nibs sibs)
      (Tree.getWithProofLoop H r.held key version fuel depth nk nibs sibs) := by
    intro fuel
    induction fuel with
    | zero => intros; exact same
    | succ fuel ih =>
      intro depth nk nibs sibs hd
      unfold FReader.getWithProofLoop Tree.getWithProofLoop
      rcases nodeAt_fail hQ depth nk hd with e | ⟨m, hm, e⟩
      · rw [e]
        cases hn : r.held.getNodeOption nk with
        | none => exact same
        | some n =>
          cases n with
          | null => exact same
          | leaf l =>
            simp only
            split_ifs
            · rcases value_fail (fun m h => hQ m (.inl h)) version l.keyHash with e | ⟨m, hm, e⟩
              · rw [e]
                unfold Reader.getValue
                cases r.held.getValueOption version l.keyHash <;> exact same
              · rw [e]; exact fail hm
            · exact same
          | internal n =>
            simp only
            cases nibs with
            | nil => exact same
            | cons q nibs =>
              simp only
              cases n.getChildWithSiblings H nk q with
              | error e => exact same
              | ok a =>
                obtain ⟨o, s⟩ := a
                cases o with
                | none => exact same
                | some nk' => exact ih _ _ _ _ (fun h => absurd h (Nat.succ_ne_zero _))
      · rw [e]; exact fail hm
  exact this _ _ _ _ _ (fun _ => rfl)

theorem getRangeProof_fail (H : Hasher D) (key : Key) : OrFail P (r.getRangeProof H key version) (Tree.getRangeProof H r.held key version) :=
  (getWithProof_fail hQ H key).bind'

theorem getProof_fail (H : Hasher D) (key : Key) : OrFail P (r.getProof H key version) (Tree.getProof H r.held key version) :=
  (getWithProof_fail hQ H key).bind'

theorem verifyProof_fail (H : Hasher D) [DecidableEq D] (key : Key) (root : D) (p : SparseMerkleProof D) :
    OrFail P (r.verifyProof H key version root p) (Tree.verifyProof H r.held key version root p) :=
  (getWithProof_fail hQ H key).bind'

theorem extreme_fail (ex : Tree.Extreme) (fuel depth : Nat) (nk : NodeKey) (hd : depth ≠ 0) :
    OrFail P (r.getExtremeKeyHashLoop ex fuel depth nk) (Tree.getExtremeKeyHashLoop r.held ex fuel depth nk) := by
  induction fuel generalizing depth nk with
  | zero => exact same
  | succ fuel ih =>
    unfold FReader.getExtremeKeyHashLoop Tree.getExtremeKeyHashLoop
    rcases nodeAt_fail hQ depth nk (fun h => absurd h hd) with e | ⟨m, hm, e⟩
    · rw [e]
      cases hn : r.held.getNodeOption nk with
      | none => exact same
      | some n =>
        cases n with
        | null => exact same
        | leaf l => exact same
        | internal n =>
          simp only
          cases Tree.minOrMax n ex with
          | none => exact same
          | some q =>
            simp only
            cases n.getChildWithoutSiblings nk q with
            | error e => exact same
            | ok o =>
              cases o with
              | none => exact same
              | some nk' => exact ih _ _ (Nat.succ_ne_zero _)
    · rw [e]; exact fail hm

omit hQ in
theorem climb_ne (e : Tree.Extreme) (path : List Nibble) (parents : List (InternalNode D)) (p : List Nibble)
    (h : Tree.climb e path parents = .ok (some p)) : p ≠ [] := by
  induction parents generalizing path with
  | nil => cases path <;> simp [Tree.climb] at h
  | cons q parents ih =>
    cases path with
    | nil => simp [Tree.climb] at h
    | cons i path =>
      simp only [Tree.climb] at h
      split at h
      · exact ih _ h
      · split at h
        · cases h; simp
        · cases h

theorem searchClosest_fail (e : Tree.Extreme) (to : List Nibble) (parents : List (InternalNode D)) :
    OrFail P (r.searchClosestExtremeNode version e to parents) (Tree.searchClosestExtremeNode r.held version e to parents) := by
  unfold FReader.searchClosestExtremeNode Tree.searchClosestExtremeNode Tree.getExtremeKeyHash
  refine OrFail.bind same (fun a ha => ?_)
  cases a with
  | none => exact same
  | some path =>
    refine (extreme_fail hQ _ _ _ _ ?_).bind'
    have := climb_ne _ _ _ _ ha
    cases path with
    | nil => exact absurd rfl this
    | cons => simp

theorem search_fail (key : Key) : OrFail P (r.searchLoop (rootNibbleHeight + 1) 0 (.newEmptyPath version) key.nibbles [] [])
    (Tree.searchForClosestNode r.held version key) := by
  unfold Tree.searchForClosestNode
  have : ∀ fuel depth nk nibs vis ps, (depth = 0 → nk = ⟨version, []⟩) →
      OrFail P (r.searchLoop fuel depth nk nibs vis ps) (Tree.searchLoop r.held fuel depth nk nibs vis ps) := by
    intro fuel
    induction fuel with
    | zero => intros; exact same
    | succ fuel ih =>
      intro depth nk nibs vis ps hd
      unfold FReader.searchLoop Tree.searchLoop
      rcases nodeAt_fail hQ depth nk hd with e | ⟨m, hm, e⟩
      · rw [e]
        cases hn : r.held.getNodeOption nk with
        | none => exact same
        | some n =>
          cases n with
          | null => exact same
          | leaf l => exact same
          | internal n =>
            simp only
            cases nibs with
            | nil => exact same
            | cons q nibs =>
              simp only
              cases n.getChildWithoutSiblings nk q with
              | error e => exact same
              | ok o =>
                cases o with
                | none => exact same
                | some nk' => exact ih _ _ _ _ _ (fun h => absurd h (Nat.succ_ne_zero _))
      · rw [e]; exact fail hm
  exact this _ _ _ _ _ _ (fun _ => rfl)

theorem getBoundingPath_fail (key : Key) : OrFail P (r.getBoundingPath key version) (Tree.getBoundingPath r.held key version) := by
  unfold FReader.getBoundingPath Tree.getBoundingPath
  refine (search_fail hQ key).bind (fun a _ => ?_)
  cases a with
  | foundLeaf l path parents =>
    simp only
    split_ifs
    · exact (searchClosest_fail hQ _ _ _).bind'
    · exact same
    · exact (searchClosest_fail hQ _ _ _).bind'
  | foundInternal path parents =>
    exact (searchClosest_fail hQ _ _ _).bind (fun _ _ => (searchClosest_fail hQ _ _ _).bind')

theorem getWithExclusionProof_fail (H : Hasher D) (key : Key) :
    OrFail P (r.getWithExclusionProof H key version) (Tree.getWithExclusionProof H r.held key version) := by
  unfold FReader.getWithExclusionProof Tree.getWithExclusionProof
  refine (getWithProof_fail hQ H key).bind (fun a _ => ?_)
  obtain ⟨x, p⟩ := a
  cases x with
  | some x => exact same
  | none =>
    refine (getBoundingPath_fail hQ key).bind (fun b _ => ?_)
    obtain ⟨a, b⟩ := b
    cases a with
    | none =>
      cases b with
      | none => exact same
      | some b => exact (getWithProof_fail hQ H _).bind'
    | some a =>
      cases b with
      | none => exact (getWithProof_fail hQ H _).bind'
      | some b => exact (getWithProof_fail hQ H _).bind (fun _ _ => (getWithProof_fail hQ H _).bind')

omit hQ in
theorem getWithIcs23Proof_fail {r : FReader Key} (hQ : ∀ m, FailsAt r version m → P m) (sha : List UInt8 → Key) (key : List UInt8) :
    OrFail P (r.getWithIcs23Proof sha key version) (Tree.getWithIcs23Proof sha r.held r.heldPreimage key version) := by
  unfold FReader.getWithIcs23Proof Tree.getWithIcs23Proof
  refine (getWithExclusionProof_fail hQ _ _).bind (fun a _ => ?_)
  have hn : ∀ p, OrFail P (r.toNeighbour sha version p) (Tree.toNeighbour sha r.held r.heldPreimage version p) := by
    intro p
    unfold FReader.toNeighbour Tree.toNeighbour Tree.get FReader.get
    cases p.leaf with
    | none => exact same
    | some l =>
      simp only
      rcases preimage_fail (fun m h => hQ m (.inl h)) l.keyHash with e | ⟨m, hm, e⟩
      · rw [e]
        cases hx : r.heldPreimage l.keyHash with
        | none => exact same
        | some key =>
          simp only [Bind.bind, Except.bind]
          rcases valueOption_fail (fun m h => hQ m (.inl h)) version l.keyHash with e | ⟨m, hm, e⟩
          · rw [e]
            cases r.held.getValueOption version l.keyHash <;> exact same
          · rw [e]; exact fail hm
      · rw [e]; exact fail hm
  cases a with
  | present x p => exact same
  | absent p =>
    refine OrFail.bind' ?_
    cases p with
    | leftmost b => exact (hn b).bind'
    | middle a b => exact (hn a).bind (fun _ _ => (hn b).bind')
    | rightmost a => exact (hn a).bind'
end

theorem getRootNode_fail (version : Version) : OrFail P (r.getRootNode version) (Tree.getRootNode r.held version) := by
  unfold FReader.getRootNode Tree.getRootNode
  refine OrFail.bind (option_fail hP _) (g := fun o => match o with | some n => .ok n | none => .error (.err "Root node not found for version"))
    (fun a _ => ?_)
  cases a <;> exact same

theorem getRootHash_fail (H : Hasher D) (version : Version) : OrFail P (r.getRootHash H version) (Tree.getRootHash H r.held version) :=
  (getRootNode_fail hP version).bind'

theorem getRootHashOption_fail (H : Hasher D) (version : Version) :
    OrFail P (r.getRootHashOption H version) (.ok (Tree.getRootHashOption H r.held version)) :=
  OrFail.bind (option_fail hP (.newEmptyPath version)) (g := fun o => .ok (o.map (fun n => n.hash H))) (fun a _ => by exact same)

theorem getLeafCount_fail (m : Bool) (version : Version) : OrFail P (r.getLeafCount m version) (Tree.getLeafCount m r.held version) := by
  unfold FReader.getLeafCount Tree.getLeafCount
  split
  · exact (getRootNode_fail hP version).bind'
  · exact same

theorem get_fail (key : Key) (version : Version) : OrFail P (r.get key version) (.ok (Tree.get r.held key version)) :=
  valueOption_fail hP version key

theorem contains_fail (key : Key) (version : Version) : OrFail P (r.contains key version) (.ok (Tree.contains r.held key version)) :=
  OrFail.bind (get_fail hP key version) (g := fun o => .ok o.isSome) (fun a _ => by exact same)

/-! iterators -/

theorem newIter_fail (version : Version) (key : Key) : OrFail P (r.newIter version key) (Iter.new r.held version key) := by
  unfold FReader.newIter Iter.new
  have hb : ∀ nk st, OrFail P (r.newBottom version key nk st) (Iter.newBottom r.held version key nk st) :=
    fun nk st => (node_fail hP nk).bind'
  have : ∀ nibs nk st, OrFail P (r.newLoop version key nibs nk st) (Iter.newLoop r.held version key nibs nk st) := by
    intro nibs
    induction nibs with
    | nil =>
      intro nk st
      unfold FReader.newLoop Iter.newLoop
      rcases node_fail hP nk with e | ⟨m, hm, e⟩
      · rw [e]
        cases r.held.getNode nk with
        | error e => exact same
        | ok n =>
          cases n with
          | internal n => exact same
          | leaf l => exact hb _ _
          | null => exact hb _ _
      · rw [e]; exact fail hm
    | cons i nibs ih =>
      intro nk st
      unfold FReader.newLoop Iter.newLoop
      rcases node_fail hP nk with e | ⟨m, hm, e⟩
      · rw [e]
        cases r.held.getNode nk with
        | error e => exact same
        | ok n =>
          cases n with
          | leaf l => exact hb _ _
          | null => exact hb _ _
          | internal n =>
            simp only
            cases n.child i with
            | none => exact same
            | some c =>
              simp only
              cases NodeVisitInfo.newNextChildToVisit nk n i with
              | error e => exact same
              | ok info =>
                simp only
                cases nk.genChild c.version i with
                | error e => exact same
                | ok nk' => exact ih _ _
      · rw [e]; exact fail hm
  exact this _ _ _

theorem newByIndex_fail (version : Version) (i : Nat) : OrFail P (r.newByIndex version i) (Iter.newByIndex r.held version i) := by
  unfold FReader.newByIndex Iter.newByIndex
  refine (node_fail hP _).bind (fun n _ => ?_)
  have : ∀ fuel nk n sk st, OrFail P (r.byIndexLoop version i fuel nk n sk st) (Iter.byIndexLoop r.held version i fuel nk n sk st) := by
    intro fuel
    induction fuel with
    | zero => intros; exact same
    | succ fuel ih =>
      intro nk n sk st
      cases n with
      | null => exact same
      | leaf l => exact same
      | internal n =>
        unfold FReader.byIndexLoop Iter.byIndexLoop
        cases Iter.skipLeaves n.children.iterSorted sk i with
        | error e => exact same
        | ok a =>
          obtain ⟨sk', j, c⟩ := a
          simp only
          cases nk.genChild c.version j with
          | error e => exact same
          | ok nk' =>
            simp only
            cases NodeVisitInfo.newNextChildToVisit nk n j with
            | error e => exact same
            | ok info =>
              simp only
              rcases node_fail hP nk' with e | ⟨m, hm, e⟩
              · rw [e]
                cases r.held.getNode nk' with
                | error e => exact same
                | ok n' => exact ih _ _ _ _
              · rw [e]; exact fail hm
  cases n.leafCount with
  | none => exact same
  | some total =>
    simp only
    split_ifs
    · exact same
    · exact this _ _ _ _ _

theorem next_fail (it : Iter D) :
    r.next it = it.next r.held ∨ ∃ m it', P m ∧ r.next it = .ok (some (.error (.err m)), it') := by
  unfold FReader.next Iter.next
  split_ifs
  · exact .inl rfl
  · unfold FReader.nextRoot Iter.nextRoot
    rcases node_fail hP (.newEmptyPath it.version) with e | ⟨m, hm, e⟩
    · rw [e]
      cases r.held.getNode (.newEmptyPath it.version) with
      | error e => exact .inl rfl
      | ok n =>
        cases n with
        | null => exact .inl rfl
        | internal n => exact .inl rfl
        | leaf l =>
          rcases value_fail hP it.version l.keyHash with g | ⟨m, hm, g⟩
          · simp only; rw [g]; exact .inl rfl
          · simp only; rw [g]; exact .inr ⟨_, _, hm, rfl⟩
    · rw [e]; exact .inr ⟨_, _, hm, rfl⟩
  · have : ∀ fuel st, r.nextLoop it.version fuel st = Iter.nextLoop r.held it.version fuel st ∨
        ∃ m it', P m ∧ r.nextLoop it.version fuel st = .ok (some (.error (.err m)), it') := by
      intro fuel
      induction fuel with
      | zero => intro st; exact .inl rfl
      | succ fuel ih =>
        intro st
        cases st with
        | nil => exact .inl rfl
        | cons info st =>
          unfold FReader.nextLoop Iter.nextLoop
          simp only
          cases info.node.child (InternalNode.onlyChildIndex info.nextChildToVisit) with
          | none => exact .inl rfl
          | some c =>
            simp only
            cases info.nodeKey.genChild c.version (InternalNode.onlyChildIndex info.nextChildToVisit) with
            | error e => exact .inl rfl
            | ok nk =>
              simp only
              rcases node_fail hP nk with e | ⟨m, hm, e⟩
              · rw [e]
                cases r.held.getNode nk with
                | error e => exact .inl rfl
                | ok n =>
                  cases n with
                  | null => exact .inl rfl
                  | internal n =>
                    simp only
                    cases NodeVisitInfo.new nk n with
                    | error e => exact .inl rfl
                    | ok info' => exact ih _
                  | leaf l =>
                    simp only
                    rcases value_fail hP nk.version l.keyHash with g | ⟨m, hm, g⟩
                    · rw [g]
                      cases r.held.getValue nk.version l.keyHash with
                      | error e => exact .inl rfl
                      | ok x =>
                        simp only
                        cases Iter.cleanupStack (info :: st) <;> exact .inl rfl
                    · rw [g]; exact .inr ⟨_, _, hm, rfl⟩
              · rw [e]; exact .inr ⟨_, _, hm, rfl⟩
    exact this _ _

end FReader
end Verif.Jmt
