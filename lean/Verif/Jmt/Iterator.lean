import Verif.Jmt.Store
/-!
Model of `/repo/jmt/src/iterator.rs`.

`u16` bitmaps are naturals below `2 ^ 16`; a left shift drops the bits above the sixteenth.
-/

set_option autoImplicit false

namespace Verif.Jmt
variable {D : Type}

/-- `u16::leading_zeros`. -/
def leadingZeros16 (b : Nat) : Nat := if b = 0 then 16 else 15 - b.log2

/-- `iterator.rs:27-42` `NodeVisitInfo`. -/
structure NodeVisitInfo (D : Type) where
  nodeKey : NodeKey
  node : InternalNode D
  childrenBitmap : Nat
  nextChildToVisit : Nat

namespace NodeVisitInfo

/-- `iterator.rs:47-56` `new`. -/
def new (nk : NodeKey) (n : InternalNode D) : Res (NodeVisitInfo D) := do
  let bm := n.generateBitmaps.1
  assert (decide (bm ≠ 0)) "assertion failed: children_bitmap != 0"
  pure ⟨nk, n, bm, (1 <<< InternalNode.trailingZeros bm) % 2 ^ 16⟩

/-- The loop `while next & bitmap == 0 { next <<= 1 }` (`iterator.rs:69-71` and `90-92`). Sixteen shifts
of a `u16` leave 0, on which the loop runs forever; that outcome is the error value. -/
def scan (bm : Nat) : (fuel : Nat) → (next : Nat) → Res Nat
  | 0, _ => .error (.panic "loop does not terminate")
  | fuel + 1, next => if next &&& bm = 0 then scan bm fuel ((next <<< 1) % 2 ^ 16) else .ok next

/-- `iterator.rs:61-78` `new_next_child_to_visit`. -/
def newNextChildToVisit (nk : NodeKey) (n : InternalNode D) (next : Nibble) : Res (NodeVisitInfo D) := do
  let bm := n.generateBitmaps.1
  assert (decide (bm ≥ 1 <<< next.val)) "assertion failed: children_bitmap >= next_child_to_visit"
  let nx ← scan bm 17 (1 <<< next.val)
  pure ⟨nk, n, bm, nx⟩

/-- `iterator.rs:81-84` `is_rightmost`. -/
def isRightmost (i : NodeVisitInfo D) : Res Bool := do
  assert (decide (leadingZeros16 i.nextChildToVisit ≥ leadingZeros16 i.childrenBitmap)) "assertion failed: leading_zeros"
  pure (leadingZeros16 i.nextChildToVisit == leadingZeros16 i.childrenBitmap)

/-- `iterator.rs:87-93` `advance`. -/
def advance (i : NodeVisitInfo D) : Res (NodeVisitInfo D) := do
  let b ← i.isRightmost
  assert (!b) "Advancing past rightmost child."
  let nx ← scan i.childrenBitmap 17 ((i.nextChildToVisit <<< 1) % 2 ^ 16)
  pure { i with nextChildToVisit := nx }

end NodeVisitInfo

/-- `iterator.rs:103-117` `JellyfishMerkleIterator` (the reader is a separate argument of the functions
below). The head of `parentStack` is the last element of the vector. -/
structure Iter (D : Type) where
  version : Version
  parentStack : List (NodeVisitInfo D)
  done : Bool

namespace Iter

/-- `iterator.rs:193-202` `cleanup_stack`. -/
def cleanupStack : List (NodeVisitInfo D) → Res (List (NodeVisitInfo D))
  | [] => .ok []
  | info :: st => do
    let b ← info.isRightmost
    if b then cleanupStack st
    else do
      let info' ← info.advance
      pure (info' :: st)

/-- `iterator.rs:172-190` the second match of `new`, at the bottom of the tree. -/
def newBottom (r : Reader D) (version : Version) (startingKey : Key) (nk : NodeKey) (st : List (NodeVisitInfo D)) : Res (Iter D) := do
  let n ← r.getNode nk
  match n with
  | .internal _ => .error (.panic "Should have reached the bottom of the tree.")
  | .leaf l =>
    if l.keyHash < startingKey then do
      let st' ← cleanupStack st
      pure ⟨version, st', st'.isEmpty⟩
    else pure ⟨version, st, false⟩
  | .null => pure ⟨version, st, true⟩

/-- `iterator.rs:147-168` the `None` arm of `new`: the wanted child does not exist. In a node without children `15 - bitmap.leading_zeros()` overflows
(without overflow checks the assertion in `new_next_child_to_visit` fails instead). -/
def newAbsent (version : Version) (nk : NodeKey) (n : InternalNode D) (childIndex : Nibble) (st : List (NodeVisitInfo D)) : Res (Iter D) :=
  let bm := n.generateBitmaps.1
  if bm = 0 then .error (.panic "attempt to subtract with overflow")
  else if childIndex.val < 15 - leadingZeros16 bm then do
    let info ← NodeVisitInfo.newNextChildToVisit nk n childIndex
    pure ⟨version, info :: st, false⟩
  else do
    let st' ← cleanupStack st
    pure ⟨version, st', false⟩

/-- `iterator.rs:134-170` the `while let` loop of `new`, over the nibbles left. -/
def newLoop (r : Reader D) (version : Version) (startingKey : Key) :
    (nibbles : List Nibble) → NodeKey → List (NodeVisitInfo D) → Res (Iter D)
  | nibs, nk, st =>
    match r.getNode nk with
    | .error e => .error e
    | .ok (.internal n) =>
      match nibs with
      | [] => .error (.panic "Should have enough nibbles.")
      | i :: nibs' =>
        match n.child i with
        | some c =>
          match NodeVisitInfo.newNextChildToVisit nk n i with
          | .error e => .error e
          | .ok info =>
            match nk.genChild c.version i with
            | .error e => .error e
            | .ok nk' => newLoop r version startingKey nibs' nk' (info :: st)
        | none => newAbsent version nk n i st
    | .ok _ => newBottom r version startingKey nk st

/-- `iterator.rs:126-191` `new`. -/
def new (r : Reader D) (version : Version) (startingKey : Key) : Res (Iter D) :=
  newLoop r version startingKey startingKey.nibbles (.newEmptyPath version) []

/-- `iterator.rs:259-275` `skip_leaves` over the sorted children still to look at; returns the number of
leaves skipped, the nibble and the child. -/
def skipLeaves : List (Nibble × Child D) → (skipped : Nat) → (target : Nat) → Res (Nat × Nibble × Child D)
  | [], _, _ => .error (.err "Bug: Internal node has less leaves than expected.")
  | (i, c) :: l, skipped, target =>
    match c.leafCount with
    | none => .error (.panic "Leaf count available.")
    | some n => if skipped + n ≤ target then skipLeaves l (skipped + n) target else .ok (skipped, i, c)

/-- `iterator.rs:223-256` the loop of `new_by_index`; the first argument counts the remaining iterations. -/
def byIndexLoop (r : Reader D) (version : Version) (startIdx : Nat) :
    (fuel : Nat) → NodeKey → Node D → (skipped : Nat) → List (NodeVisitInfo D) → Res (Iter D)
  | 0, _, _, _, _ => .error (.err "Bug: potential infinite loop.")
  | _ + 1, _, .null, _, _ => .error (.panic "The Node::Null case has already been covered before loop.")
  | _ + 1, _, .leaf _, skipped, st =>
    if skipped = startIdx then .ok ⟨version, st, false⟩
    else .error (.err "Bug: The leaf should be the exact one we are looking for.")
  | fuel + 1, nk, .internal n, skipped, st =>
    match skipLeaves n.children.iterSorted skipped startIdx with
    | .error e => .error e
    | .ok (skipped', i, c) =>
      match nk.genChild c.version i with
      | .error e => .error e
      | .ok nk' =>
        match NodeVisitInfo.newNextChildToVisit nk n i with
        | .error e => .error e
        | .ok info =>
          match r.getNode nk' with
          | .error e => .error e
          | .ok n' => byIndexLoop r version startIdx fuel nk' n' skipped' (info :: st)

/-- `iterator.rs:206-257` `new_by_index`. -/
def newByIndex (r : Reader D) (version : Version) (startIdx : Nat) : Res (Iter D) := do
  let nk := NodeKey.newEmptyPath version
  let n ← r.getNode nk
  match n.leafCount with
  | none => .error (.err "Leaf counts not available.")
  | some total =>
    if startIdx ≥ total then pure ⟨version, [], true⟩
    else byIndexLoop r version startIdx (rootNibbleHeight + 1) nk n 0 []

/-- `iterator.rs:316-352` the loop of `next` on a non-empty stack. The item may be an error; an outer error
is a panic. Each round that does not return pushes a node whose path is one nibble longer, and
`gen_child_node_key` panics on a path of 64 nibbles, so 66 rounds are never used up. -/
def nextLoop (r : Reader D) (version : Version) :
    (fuel : Nat) → List (NodeVisitInfo D) → Res (Option (Res (Key × Value)) × Iter D)
  | 0, _ => .error (.panic "out of fuel")
  | _ + 1, [] => .error (.panic "We have checked that self.parent_stack is not empty.")
  | fuel + 1, info :: st =>
    let i := InternalNode.onlyChildIndex info.nextChildToVisit
    match info.node.child i with
    | none => .error (.panic "Child should exist.")
    | some c =>
      match info.nodeKey.genChild c.version i with
      | .error e => .error e
      | .ok nk =>
        match r.getNode nk with
        | .ok (.internal n) =>
          match NodeVisitInfo.new nk n with
          | .error e => .error e
          | .ok info' => nextLoop r version fuel (info' :: info :: st)
        | .ok (.leaf l) =>
          match r.getValue nk.version l.keyHash with
          | .ok value =>
            match cleanupStack (info :: st) with
            | .error e => .error e
            | .ok st' => .ok (some (.ok (l.keyHash, value)), ⟨version, st', false⟩)
          | .error e => .ok (some (.error e), ⟨version, info :: st, false⟩)
        | .ok .null => .ok (some (.error (.err "Should not reach a null node.")), ⟨version, info :: st, false⟩)
        | .error e => .ok (some (.error e), ⟨version, info :: st, false⟩)

/-- `iterator.rs:289-314` `next` on an empty stack. -/
def nextRoot (r : Reader D) (it : Iter D) : Res (Option (Res (Key × Value)) × Iter D) :=
  match r.getNode (.newEmptyPath it.version) with
  | .ok (.leaf l) => .ok (some ((r.getValue it.version l.keyHash).map (fun v => (l.keyHash, v))), { it with done := true })
  | .ok (.internal _) => .ok (none, it)
  | .ok .null => .error (.panic "We would have set done to true in new.")
  | .error e => .ok (some (.error e), it)

/-- `iterator.rs:284-353` `next`. -/
def next (r : Reader D) (it : Iter D) : Res (Option (Res (Key × Value)) × Iter D) :=
  if it.done then .ok (none, it)
  else if it.parentStack.isEmpty then nextRoot r it
  else nextLoop r it.version 66 it.parentStack

end Iter

/-- `tree.rs:86-88` `iter` of `VersionedTrie`. -/
def Tree.iter (r : Reader D) (version : Version) : Res (Iter D) := Iter.newByIndex r version 0

end Verif.Jmt
