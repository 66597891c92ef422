import Verif.Props.JmtVersioned
import Verif.Spec.Damage
/-! Properties C71 (reads from a damaged store) and C72 (iteration after an error). -/

set_option autoImplicit false

namespace Verif.Props
open Verif Verif.Jmt Verif.Spec
variable {D : Type}

theorem below_of {r : Reader D} {s : Store D} (h : Damaged r s) : Below r s.reader := ⟨h.node, h.value⟩

/-! ### C71 -/

/-- **C71.** Nodes and values are lost from a store, `r` reads what is left. Every read then gives the answer of the undamaged store, or an
error, and not another answer. Partial: a value that is lost is not found at all; false if a single
entry of a history is lost, and an older one found (`C71_history_false`). -/
theorem C71_as_undamaged_partial (H : Hasher D) [DecidableEq D] (s : Store D) (r : Reader D) (hd : Damaged r s) (v : Version) (k : Key) :
    OrErr (Tree.getWithProof H r k v) (Tree.getWithProof H s.reader k v) ∧
    OrErr (Tree.getRootHash H r v) (Tree.getRootHash H s.reader v) ∧
    OrErr (Tree.getRangeProof H r k v) (Tree.getRangeProof H s.reader k v) ∧
    OrErr (Tree.getLeafCount true r v) (Tree.getLeafCount true s.reader v) ∧
    OrErr (Tree.getWithExclusionProof H r k v) (Tree.getWithExclusionProof H s.reader k v) ∧
    (∀ root p, OrErr (Tree.verifyProof H r k v root p) (Tree.verifyProof H s.reader k v root p)) ∧
    OrErr (Iter.new r v k) (Iter.new s.reader v k) ∧
    ∀ i, OrErr (Iter.newByIndex r v i) (Iter.newByIndex s.reader v i) := by
  have hb := below_of hd
  exact ⟨hb.getWithProof H k v, hb.getRootHash H v, hb.getRangeProof H k v, hb.getLeafCount true v, hb.getWithExclusionProof H k v,
    fun root p => hb.verifyProof H k v root p, hb.newIter v k, hb.newByIndex v⟩

/-- **C71**, `get_with_ics23_proof`. -/
theorem C71_ics23 (sha : List UInt8 → Key) (s : Store Key) (r : Reader Key) (hd : Damaged r s) (preimage : Key → Option (List UInt8))
    (key : List UInt8) (v : Version) :
    OrErr (Tree.getWithIcs23Proof sha r preimage key v) (Tree.getWithIcs23Proof sha s.reader preimage key v) :=
  (below_of hd).getWithIcs23Proof sha preimage key v

/-- **C71**, `get_with_proof`: whatever nodes and values a store has lost, at any version it does not panic, and what it returns is right. -/
theorem C71_get_with_proof (H : Hasher D) [DecidableEq D] (v0 next : Version) (ops : List Op) (s : Store D) (h : Reached H v0 ops s next)
    (r : Reader D) (hd : Damaged r s) (v : Version) (k : Key) :
    NoPanic (Tree.getWithProof H r k v) ∧
    ∀ x p, Tree.getWithProof H r k v = .ok (x, p) →
      v0 ≤ v ∧ v < next ∧ x = contentsAt v0 ops v k ∧ ∀ L, Lists H (contentsAt v0 ops v) L → p.verify H (smtRoot H L) k x = .ok () := by
  have h63 := C63_get_with_proof H v0 next ops s h v k
  rcases (below_of hd).getWithProof H k v with e | ⟨m, e⟩
  · rw [e]; exact h63
  · rw [e]; exact ⟨fun m hm => (by cases hm), fun x p hx => (by cases hx)⟩

/-- **C71**, `get_root_hash` and `get_leaf_count`. -/
theorem C71_root_hash (H : Hasher D) (v0 next : Version) (ops : List Op) (s : Store D) (h : Reached H v0 ops s next) (r : Reader D)
    (hd : Damaged r s) (v : Version) (L : List (Key × D)) (hL : Lists H (contentsAt v0 ops v) L) :
    NoPanic (Tree.getRootHash H r v) ∧ (∀ root, Tree.getRootHash H r v = .ok root → v0 ≤ v ∧ v < next ∧ root = smtRoot H L) ∧
    NoPanic (Tree.getLeafCount true r v) ∧ (∀ c, Tree.getLeafCount true r v = .ok c → v0 ≤ v ∧ v < next ∧ c = some L.length) := by
  obtain ⟨h1, h2, h3, h4⟩ := C63_root_hash H v0 next ops s h v L hL
  have a : NoPanic (Tree.getRootHash H r v) ∧ (∀ root, Tree.getRootHash H r v = .ok root → v0 ≤ v ∧ v < next ∧ root = smtRoot H L) := by
    rcases (below_of hd).getRootHash H v with e | ⟨m, e⟩
    · rw [e]; exact ⟨h1, h2⟩
    · rw [e]; exact ⟨fun m hm => (by cases hm), fun x hx => (by cases hx)⟩
  have b : NoPanic (Tree.getLeafCount true r v) ∧ (∀ c, Tree.getLeafCount true r v = .ok c → v0 ≤ v ∧ v < next ∧ c = some L.length) := by
    rcases (below_of hd).getLeafCount true v with e | ⟨m, e⟩
    · rw [e]; exact ⟨h3, h4⟩
    · rw [e]; exact ⟨fun m hm => (by cases hm), fun x hx => (by cases hx)⟩
  exact ⟨a.1, a.2, b.1, b.2⟩

theorem breaks_below {r r' : Reader D} (h : Below r r') {it : Iter D} {l : List (Key × Value)} (hy : Breaks r' it l) :
    ∃ l', l' <+: l ∧ Breaks r it l' := by
  induction hy with
  | stop hn =>
    rename_i it it' m
    rcases h.next it with e | ⟨m, it', e⟩
    · exact ⟨[], List.nil_prefix, .stop (e.trans hn)⟩
    · exact ⟨[], List.nil_prefix, .stop e⟩
  | step hn _ ih =>
    rename_i it it' e l _
    rcases h.next it with g | ⟨m, it', g⟩
    · obtain ⟨l', h1, h2⟩ := ih
      exact ⟨e :: l', by simpa using h1, .step (g.trans hn) h2⟩
    · exact ⟨[], List.nil_prefix, .stop g⟩

/-- **C71**, iteration: at any version, an iterator is made without panic, and the pairs it yields are those of the version from the
given key on, in order: all of them, or the first ones and then an error. -/
theorem C71_iterate (H : Hasher D) (v0 next : Version) (ops : List Op) (s : Store D) (h : Reached H v0 ops s next) (r : Reader D)
    (hd : Damaged r s) (v : Version) (k : Key) :
    NoPanic (Iter.new r v k) ∧ ∀ it, Iter.new r v k = .ok it → v0 ≤ v ∧ v < next ∧
      ∃ l, Listing (fun k' => if k ≤ k' then contentsAt v0 ops v k' else none) l ∧
        (Yields r it l ∨ ∃ l', l' <+: l ∧ Breaks r it l') := by
  obtain ⟨h1, h2⟩ := C63_iterate H v0 next ops s h v k
  have hb := below_of hd
  rcases hb.newIter v k with e | ⟨m, e⟩
  · rw [e]
    refine ⟨h1, fun it hit => ?_⟩
    obtain ⟨g1, g2, l, g3, g4⟩ := h2 it hit
    refine ⟨g1, g2, l, g3, ?_⟩
    rcases g4 with g4 | ⟨l', g4, g5⟩
    · exact yields_below hb g4
    · obtain ⟨l'', g6, g7⟩ := breaks_below hb g5
      exact .inr ⟨l'', g6.trans g4, g7⟩
  · rw [e]; exact ⟨fun m hm => (by cases hm), fun x hx => (by cases hx)⟩

/-- A store read with one value and one node missing. -/
def exWorn (s : Store D) : Reader D :=
  ⟨fun nk => if nk = ⟨1, []⟩ then none else s.reader.getNodeOption nk, fun v k => if k = key 0xF0 0 then none else s.reader.getValueOption v k⟩

theorem exWorn_damaged (s : Store D) : Damaged (exWorn s) s := by
  constructor
  · intro nk n h
    simp only [exWorn] at h
    split at h
    · cases h
    · exact h
  · intro v k x h
    simp only [exWorn] at h
    split at h
    · cases h
    · exact h

/-- The hypotheses of C71 are met. -/
example : ∃ s, Reached termHasher 0 exOps s 3 ∧ Damaged (exWorn s) s ∧ NoPanic (Tree.getWithProof termHasher (exWorn s) (key 0xF0 0) 2) ∧
    Tree.getRootHash termHasher (exWorn s) 1 = .error (.err "Root node not found for version") := by
  obtain ⟨s, h⟩ := exOps_reached
  refine ⟨s, h, exWorn_damaged s, (C71_get_with_proof _ _ _ _ _ h _ (exWorn_damaged s) 2 _).1, rfl⟩

/-- Two versions with different values of one key. -/
def exTwice : List Op := [.update true [[(key 1 1, some [1])], [(key 1 1, some [2])]]]

/-- The store after these, without the newest entry of the history of the key. -/
def exForgot : Res (Store Term) :=
  (runOps termHasher exTwice (Store.empty, 0)).map (fun s => { s.1 with valueHistory := s.1.valueHistory.set (key 1 1) [(0, some [1])] })

/-- **C71 is false** when a single entry of the history of a key is lost: the older entry is then found in its place, and `get_with_proof` returns
the old value with a proof of the new one; the value is not compared with the hash in the leaf (`tree.rs:884-898`). -/
theorem C71_history_false : contentsAt 0 exTwice 1 (key 1 1) = some [2] ∧
    ((exForgot.bind (fun s => Tree.getWithProof termHasher s.reader (key 1 1) 1)).map (fun a => (a.1, a.2.leaf.map LeafNode.valueHash))).toOption
      = some (some [1], some (termHasher.value [2])) := ⟨by decide +kernel, by decide +kernel⟩

/-! ### C72 -/

/-- Calling `next` yields the pairs `l`, and from then on the same error at every call. -/
inductive Stuck (r : Reader D) : Iter D → List (Key × Value) → Prop
  | here {it it' : Iter D} {m : Err} (h : it.next r = .ok (some (.error m), it')) (h' : it'.next r = .ok (some (.error m), it')) :
      Stuck r it []
  | step {it it' : Iter D} {e : Key × Value} {l : List (Key × Value)} (h : it.next r = .ok (some (.ok e), it'))
      (hl : Stuck r it' l) : Stuck r it (e :: l)

theorem nextLoop_repeats (r : Reader D) (v : Version) (fuel : Nat) (st : List (NodeVisitInfo D)) (e : Err) (it : Iter D)
    (h : Iter.nextLoop r v fuel st = .ok (some (.error e), it)) : it.next r = .ok (some (.error e), it) := by
  induction fuel generalizing st with
  | zero => cases h
  | succ fuel ih =>
    cases st with
    | nil => cases h
    | cons info st =>
      unfold Iter.nextLoop at h
      simp only at h
      cases hc : info.node.child (InternalNode.onlyChildIndex info.nextChildToVisit) with
      | none => rw [hc] at h; cases h
      | some c =>
        rw [hc] at h
        simp only at h
        cases hk : info.nodeKey.genChild c.version (InternalNode.onlyChildIndex info.nextChildToVisit) with
        | error x => rw [hk] at h; cases h
        | ok nk =>
          rw [hk] at h
          simp only at h
          cases hn : r.getNode nk with
          | error x =>
            rw [hn] at h
            cases h
            unfold Iter.next
            simp only [Bool.false_eq_true, if_false, List.isEmpty_cons]
            unfold Iter.nextLoop
            simp only [hc, hk, hn]
          | ok n =>
            rw [hn] at h
            cases n with
            | null =>
              cases h
              unfold Iter.next
              simp only [Bool.false_eq_true, if_false, List.isEmpty_cons]
              unfold Iter.nextLoop
              simp only [hc, hk, hn]
            | internal n =>
              simp only at h
              cases hi : NodeVisitInfo.new nk n with
              | error x => rw [hi] at h; cases h
              | ok info' => rw [hi] at h; exact ih _ h
            | leaf l =>
              simp only at h
              cases hv : r.getValue nk.version l.keyHash with
              | error x =>
                rw [hv] at h
                cases h
                unfold Iter.next
                simp only [Bool.false_eq_true, if_false, List.isEmpty_cons]
                unfold Iter.nextLoop
                simp only [hc, hk, hn, hv]
              | ok x =>
                rw [hv] at h
                simp only at h
                cases hs : Iter.cleanupStack (info :: st) with
                | error y => rw [hs] at h; cases h
                | ok st' => rw [hs] at h; cases h

/-- **C72.** When `next` has reported an error, the iterator has ended, or it reports the same error at every later call. -/
theorem C72_repeats (r : Reader D) (it it' : Iter D) (e : Err) (h : it.next r = .ok (some (.error e), it')) :
    it'.next r = .ok (none, it') ∨ it'.next r = .ok (some (.error e), it') := by
  have h0 := h
  unfold Iter.next at h
  by_cases hd : it.done = true
  · rw [if_pos hd] at h; cases h
  rw [if_neg hd] at h
  by_cases hs : it.parentStack.isEmpty = true
  · rw [if_pos hs] at h
    unfold Iter.nextRoot at h
    cases hn : r.getNode (.newEmptyPath it.version) with
    | error x => rw [hn] at h; cases h; exact .inr h0
    | ok n =>
      rw [hn] at h
      cases n with
      | null => cases h
      | internal n => cases h
      | leaf l =>
        simp only [Except.ok.injEq, Prod.mk.injEq] at h
        rw [← h.2]
        exact .inl rfl
  · rw [if_neg hs] at h
    exact .inr (nextLoop_repeats r _ _ _ e it' h)

/-- Calling `next` yields the pairs `l`, then an error, and then the end. -/
inductive EndsBadly (r : Reader D) : Iter D → List (Key × Value) → Prop
  | here {it it' : Iter D} {m : String} (h : it.next r = .ok (some (.error (.err m)), it')) (h' : it'.next r = .ok (none, it')) :
      EndsBadly r it []
  | step {it it' : Iter D} {e : Key × Value} {l : List (Key × Value)} (h : it.next r = .ok (some (.ok e), it'))
      (hl : EndsBadly r it' l) : EndsBadly r it (e :: l)

theorem stuck_of_breaks {r : Reader D} {it : Iter D} {l : List (Key × Value)} (h : Breaks r it l) : Stuck r it l ∨ EndsBadly r it l := by
  induction h with
  | stop h =>
    rcases C72_repeats r _ _ _ h with g | g
    · exact .inr (.here h g)
    · exact .inl (.here h g)
  | step h _ ih => exact ih.imp (.step h) (.step h)

/-- **C72** for what the iterator does before an error. At any version of a damaged store it yields finitely many pairs, all those from the given
key on or the first ones of them. Then it ends; or it reports an error and ends; or it reports an error, and reports it again at every later call.
Missing from the full statement: in the last case it does not end (`C72_endless_false`). -/
theorem C72_ends_partial (H : Hasher D) (v0 next : Version) (ops : List Op) (s : Store D) (h : Reached H v0 ops s next) (r : Reader D)
    (hd : Damaged r s) (v : Version) (k : Key) (it : Iter D) (hi : Iter.new r v k = .ok it) :
    ∃ l, Listing (fun k' => if k ≤ k' then contentsAt v0 ops v k' else none) l ∧
      (Yields r it l ∨ ∃ l', l' <+: l ∧ (EndsBadly r it l' ∨ Stuck r it l')) := by
  obtain ⟨_, _, l, h1, h2⟩ := (C71_iterate H v0 next ops s h r hd v k).2 it hi
  refine ⟨l, h1, h2.imp id ?_⟩
  rintro ⟨l', h3, h4⟩
  exact ⟨l', h3, (stuck_of_breaks h4).symm⟩

/-- Two keys, of which the second is changed in the next version. -/
def exOpen : List Op := [.update true [[(key 1 1, some [1]), (key 2 2, some [2])], [(key 2 2, some [3])]]]

/-- The item of a call: a pair, an error (`none`), or the end. -/
def item (a : Option (Res (Key × Value)) × Iter D) : Option (Option (Key × Value)) := a.1.map Except.toOption

theorem exOpen_calls : ((runOps termHasher exOpen (Store.empty, 0)).bind (fun s => (runOps termHasher (exOpen ++ [.purge 1]) (Store.empty, 0)).bind
    (fun s' => (Iter.new s.1.reader 0 (key 0 0)).bind (fun it => (it.next s'.1.reader).bind (fun a => (a.2.next s'.1.reader).bind (fun b =>
      (b.2.next s'.1.reader).map (fun c => [item a, item b, item c]))))))).toOption
    = some [some (some (key 1 1, [1])), some none, some none] := by decide +kernel

/-- **C72 is false**: an iterator is made at a version, and the version is pruned while it is in use. It yields the first pair and then reports
an error at every call; it never ends. -/
theorem C72_endless_false : ∃ s s' it, Reached termHasher 0 exOpen s 2 ∧ Reached termHasher 0 (exOpen ++ [.purge 1]) s' 2 ∧
    Iter.new s.reader 0 (key 0 0) = .ok it ∧ Stuck s'.reader it [(key 1 1, [1])] := by
  obtain ⟨s, h⟩ := Reached.exists (v0 := 0) (ops := exOpen) termHasher ⟨.inl rfl, by simp [exOpen, commitsOf, Op.commits]⟩
  obtain ⟨s', h'⟩ := Reached.exists (v0 := 0) (ops := exOpen ++ [.purge 1]) termHasher ⟨.inl rfl, by simp [exOpen, commitsOf, Op.commits]⟩
  have h : Reached termHasher 0 exOpen s 2 := h
  have h' : Reached termHasher 0 (exOpen ++ [.purge 1]) s' 2 := h'
  have hd := exOpen_calls
  rw [h.run, h'.run] at hd
  simp only [Except.bind] at hd
  cases h1 : Iter.new s.reader 0 (key 0 0) with
  | error e => rw [h1] at hd; cases hd
  | ok it =>
    rw [h1] at hd
    simp only at hd
    cases h2 : it.next s'.reader with
    | error e => rw [h2] at hd; cases hd
    | ok a =>
      rw [h2] at hd
      simp only at hd
      cases h3 : a.2.next s'.reader with
      | error e => rw [h3] at hd; cases hd
      | ok b =>
        rw [h3] at hd
        simp only at hd
        cases h4 : b.2.next s'.reader with
        | error e => rw [h4] at hd; cases hd
        | ok c =>
          rw [h4] at hd
          obtain ⟨a1, a2⟩ := a
          obtain ⟨b1, b2⟩ := b
          obtain ⟨c1, c2⟩ := c
          simp only [Except.map, Except.toOption, item, Option.some.injEq, List.cons.injEq, and_true] at hd
          refine ⟨s, s', it, h, h', h1, ?_⟩
          obtain ⟨e1, e2, e3⟩ := hd
          obtain ⟨x, rfl, ex⟩ := Option.map_eq_some_iff.1 e1
          obtain ⟨y, rfl, ey⟩ := Option.map_eq_some_iff.1 e2
          obtain ⟨z, rfl, ez⟩ := Option.map_eq_some_iff.1 e3
          cases x with
          | error _ => cases ex
          | ok x =>
            cases ex
            cases y with
            | ok _ => cases ey
            | error y =>
              rcases C72_repeats _ _ _ _ h3 with g | g
              · rw [g] at h4; cases h4
              · exact .step h2 (.here h3 g)

end Verif.Props
