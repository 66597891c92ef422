import Verif.Jmt.NodeType
/-!
Model of `/repo/jmt/src/types/nibble/nibble_path.rs`: nibble paths packed two nibbles to a byte, and their
iterators. The rest of the model works with lists of nibbles; `Verif/Props/JmtPath.lean` relates the two.

`Nibble::from(u8)` asserts that its argument is below 16; here `Fin.ofNat 16` (all arguments are masked or shifted
bytes, so the assertion holds). `checked_precondition!`, `precondition!` and `assume!` (crate `mirai_annotations`) are
only annotations in release builds (`checked_precondition!` asserts; its condition is an explicit check below).
-/

set_option autoImplicit false

namespace Verif.Jmt

/-- `nibble_path.rs:30-42` `NibblePath`. -/
structure NibblePath where
  numNibbles : Nat
  bytes : List UInt8
deriving DecidableEq, Repr

/-- `u8::from(nibble)` (`nibble.rs:32-36`). -/
def nibbleByte (n : Nibble) : UInt8 := UInt8.ofNat n.val

/-- `Nibble::from(byte)` (`nibble.rs:25-30`). -/
def byteNibble (b : UInt8) : Nibble := Fin.ofNat 16 b.toNat

namespace NibblePath

/-- `nibble_path.rs:97-101` `new`. -/
def new (bytes : List UInt8) : Res NibblePath := do
  assert (decide (bytes.length ≤ rootNibbleHeight / 2)) "assertion failed: bytes.len() <= ROOT_NIBBLE_HEIGHT / 2"
  pure ⟨bytes.length * 2, bytes⟩

/-- `nibble_path.rs:104-113` `new_odd`. -/
def newOdd (bytes : List UInt8) : Res NibblePath := do
  assert (decide (bytes.length ≤ rootNibbleHeight / 2)) "assertion failed: bytes.len() <= ROOT_NIBBLE_HEIGHT / 2"
  match bytes.getLast? with
  | none => .error (.panic "Should have odd number of nibbles.")
  | some b => do
    assert (b &&& 0x0f == 0) "Last nibble must be 0."
    pure ⟨bytes.length * 2 - 1, bytes⟩

/-- `nibble_path.rs:116-124` `push`. -/
def push (p : NibblePath) (n : Nibble) : Res NibblePath := do
  assert (decide (rootNibbleHeight > p.numNibbles)) "assertion failed: ROOT_NIBBLE_HEIGHT > self.num_nibbles"
  if p.numNibbles % 2 = 0 then pure ⟨p.numNibbles + 1, p.bytes ++ [nibbleByte n <<< 4]⟩
  else do
    assert (decide (p.numNibbles / 2 < p.bytes.length)) "index out of bounds"
    pure ⟨p.numNibbles + 1, p.bytes.modify (p.numNibbles / 2) (fun b => b ||| nibbleByte n)⟩

/-- `nibble_path.rs:127-141` `pop`. -/
def pop (p : NibblePath) : Option Nibble × NibblePath :=
  match p.bytes.getLast? with
  | none => (none, p)
  | some b =>
    if p.numNibbles % 2 = 0 then
      (some (byteNibble (b &&& 0x0f)), ⟨p.numNibbles - 1, p.bytes.dropLast ++ [b &&& 0xf0]⟩)
    else (some (byteNibble (b >>> 4)), ⟨p.numNibbles - 1, p.bytes.dropLast⟩)

/-- `nibble_path.rs:144-152` `last`. -/
def last (p : NibblePath) : Res (Option Nibble) :=
  if p.numNibbles % 2 = 0 then .ok (p.bytes.getLast?.map (fun b => byteNibble (b &&& 0x0f)))
  else
    match p.bytes.getLast? with
    | none => .error (.panic "Last byte must exist if num_nibbles is odd.")
    | some b => .ok (some (byteNibble (b >>> 4)))

/-- `nibble_path.rs:155-160` `get_bit`. -/
def getBit (p : NibblePath) (i : Nat) : Res Bool := do
  assert (decide (i < p.numNibbles * 4)) "assertion failed: i < self.num_nibbles * 4"
  match p.bytes[i / 8]? with
  | none => .error (.panic "index out of bounds")
  | some b => pure ((b >>> UInt8.ofNat (7 - i % 8)) &&& 1 != 0)

/-- `nibble_path.rs:163-166` `get_nibble`. -/
def getNibble (p : NibblePath) (i : Nat) : Res Nibble := do
  assert (decide (i < p.numNibbles)) "assertion failed: i < self.num_nibbles"
  match p.bytes[i / 2]? with
  | none => .error (.panic "index out of bounds")
  | some b => pure (byteNibble ((b >>> (if i % 2 = 1 then 0 else 4)) &&& 0xf))

/-- `nibble_path.rs:51-59` `from_iter`. -/
def fromIter (l : List Nibble) : Res NibblePath := go l ⟨0, []⟩
where
  /-- the loop -/
  go : List Nibble → NibblePath → Res NibblePath
    | [], p => .ok p
    | n :: l, p => do
      let p ← p.push n
      go l p

/-- `nibble_path.rs:188-190` `is_empty`. -/
def isEmpty (p : NibblePath) : Bool := p.numNibbles == 0

end NibblePath

/-- `nibble_path.rs:204-207` `BitIterator`. -/
structure BitIter where
  path : NibblePath
  lo : Nat
  hi : Nat

namespace BitIter

/-- `nibble_path.rs:211-217` `peek`. -/
def peek (it : BitIter) : Res (Option Bool) :=
  if it.lo < it.hi then do
    let b ← it.path.getBit it.lo
    pure (some b)
  else .ok none

/-- `nibble_path.rs:223-225` `next`. -/
def next (it : BitIter) : Res (Option Bool × BitIter) :=
  if it.lo < it.hi then do
    let b ← it.path.getBit it.lo
    pure (some b, { it with lo := it.lo + 1 })
  else .ok (none, it)

/-- `nibble_path.rs:230-232` `next_back`. -/
def nextBack (it : BitIter) : Res (Option Bool × BitIter) :=
  if it.lo < it.hi then do
    let b ← it.path.getBit (it.hi - 1)
    pure (some b, { it with hi := it.hi - 1 })
  else .ok (none, it)

end BitIter

/-- `nibble_path.rs:236-253` `NibbleIterator`; `pos = lo..hi`. -/
structure NibbleIter where
  path : NibblePath
  lo : Nat
  hi : Nat
  start : Nat

namespace NibbleIter

/-- `nibble_path.rs:259-261` `next`. -/
def next (it : NibbleIter) : Res (Option Nibble × NibbleIter) :=
  if it.lo < it.hi then do
    let n ← it.path.getNibble it.lo
    pure (some n, { it with lo := it.lo + 1 })
  else .ok (none, it)

/-- `nibble_path.rs:266-272` `peek`. -/
def peek (it : NibbleIter) : Res (Option Nibble) :=
  if it.lo < it.hi then do
    let n ← it.path.getNibble it.lo
    pure (some n)
  else .ok none

/-- `nibble_path.rs:276-285` `new`. -/
def new (p : NibblePath) (start stop : Nat) : NibbleIter := ⟨p, start, stop, start⟩

/-- `nibble_path.rs:288-292` `visited_nibbles`. -/
def visitedNibbles (it : NibbleIter) : NibbleIter := new it.path it.start it.lo

/-- `nibble_path.rs:295-299` `remaining_nibbles`. -/
def remainingNibbles (it : NibbleIter) : NibbleIter := new it.path it.lo it.hi

/-- `nibble_path.rs:302-309` `bits`. -/
def bits (it : NibbleIter) : BitIter := ⟨it.path, it.lo * 4, it.hi * 4⟩

/-- Everything `next` returns until it returns `None` (`Iterator::collect`); every item raises `lo`, so `hi - lo`
rounds suffice. -/
def collect (it : NibbleIter) : Res (List Nibble) := go (it.hi - it.lo) it
where
  /-- the loop -/
  go : Nat → NibbleIter → Res (List Nibble)
    | 0, _ => .ok []
    | fuel + 1, it => do
      let (x, it) ← it.next
      match x with
      | none => pure []
      | some n => do
        let l ← go fuel it
        pure (n :: l)

/-- `nibble_path.rs:313-317` `get_nibble_path`. -/
def getNibblePath (it : NibbleIter) : Res NibblePath := do
  let a ← it.visitedNibbles.collect
  let b ← it.remainingNibbles.collect
  NibblePath.fromIter (a ++ b)

/-- `nibble_path.rs:320-323` `num_nibbles`. -/
def numNibbles (it : NibbleIter) : Nat := it.hi - it.start

/-- `nibble_path.rs:326-328` `is_finished`. -/
def isFinished (it : NibbleIter) : Res Bool := do
  let x ← it.peek
  pure x.isNone

end NibbleIter

/-- Everything the bit iterator returns until `None`, front to back. -/
def BitIter.collect (it : BitIter) : Res (List Bool) := go (it.hi - it.lo) it
where
  /-- the loop -/
  go : Nat → BitIter → Res (List Bool)
    | 0, _ => .ok []
    | fuel + 1, it => do
      let (x, it) ← it.next
      match x with
      | none => pure []
      | some n => do
        let l ← go fuel it
        pure (n :: l)

/-- Everything the reversed bit iterator (`.rev()`) returns until `None`. -/
def BitIter.collectBack (it : BitIter) : Res (List Bool) := go (it.hi - it.lo) it
where
  /-- the loop -/
  go : Nat → BitIter → Res (List Bool)
    | 0, _ => .ok []
    | fuel + 1, it => do
      let (x, it) ← it.nextBack
      match x with
      | none => pure []
      | some n => do
        let l ← go fuel it
        pure (n :: l)

/-- `nibble_path.rs:169-175` `bits`. -/
def NibblePath.bits (p : NibblePath) : BitIter := ⟨p, 0, p.numNibbles * 4⟩

/-- `nibble_path.rs:178-181` `nibbles`. -/
def NibblePath.nibbles (p : NibblePath) : NibbleIter := .new p 0 p.numNibbles

/-- `nibble_path.rs:333-353` `skip_common_prefix` on two nibble iterators. Every round advances the first one, so
`hi - lo + 1` rounds suffice. -/
def skipCommon : (fuel : Nat) → NibbleIter → NibbleIter → Res (Nat × NibbleIter × NibbleIter)
  | 0, _, _ => .error (.panic "out of fuel")
  | fuel + 1, x, y => do
    match ← x.peek, ← y.peek with
    | some a, some b =>
      if a = b then do
        let (_, x) ← x.next
        let (_, y) ← y.next
        let (n, x, y) ← skipCommon fuel x y
        pure (n + 1, x, y)
      else pure (0, x, y)
    | _, _ => pure (0, x, y)

end Verif.Jmt
