import Verif.Common.Err
/-!
The ICS23 standard: proof formats and their verification, as far as `/repo/jmt/src/tree/ics23_impl.rs` uses it.

The verifier is the external crate `ics23` 0.10 (`jmt/Cargo.toml:34`), whose source is not in the repository. The definitions below are
transcribed from the published standard and its reference implementation (`verify.rs`, `ops.rs`); they are part of the trusted base.
Not transcribed: batch and compressed proofs, the extra rules for IAVL specs, the length operations other than the one used here
(a host function), the optional fields of a spec (`leaf_spec` and `inner_spec` are always present here).
-/

set_option autoImplicit false

namespace Verif.Ics23

abbrev Bytes := List UInt8

/-- Code of a hash operation in the protocol buffers; `1` is SHA-256. -/
abbrev HashOp := Int
def sha256 : HashOp := 1
/-- Code of a length operation; `0` is "no prefix". -/
abbrev LengthOp := Int
def noPrefix : LengthOp := 0

structure LeafOp where
  hash : HashOp
  prehashKey : HashOp
  prehashValue : HashOp
  length : LengthOp
  pre : Bytes
deriving DecidableEq

structure InnerOp where
  hash : HashOp
  pre : Bytes
  suf : Bytes
deriving DecidableEq

structure ExistenceProof where
  key : Bytes
  value : Bytes
  leaf : Option LeafOp
  path : List InnerOp
deriving DecidableEq

structure NonExistenceProof where
  key : Bytes
  left : Option ExistenceProof
  right : Option ExistenceProof
deriving DecidableEq

/-- The two kinds of commitment proof used here. -/
inductive CommitmentProof where
  | exist (p : ExistenceProof)
  | nonexist (p : NonExistenceProof)
deriving DecidableEq

structure InnerSpec where
  childOrder : List Nat
  childSize : Nat
  minPrefixLength : Nat
  maxPrefixLength : Nat
  emptyChild : Bytes
  hash : HashOp

structure ProofSpec where
  leafSpec : LeafOp
  innerSpec : InnerSpec
  maxDepth : Nat
  minDepth : Nat
  prehashKeyBeforeComparison : Bool

/-- The hash and length functions of the host. -/
structure Host where
  hash : HashOp → Bytes → Res Bytes
  length : LengthOp → Bytes → Res Bytes

variable (host : Host)

/-- Key and value are hashed, and prefixed by their length, before they enter the leaf. Empty data are refused. -/
def prepareLeafData (op : HashOp) (len : LengthOp) (data : Bytes) : Res Bytes := do
  ensure (decide (data ≠ [])) "Input to prepare_leaf_data missing"
  let h ← host.hash op data
  host.length len h

def applyLeaf (leaf : LeafOp) (key value : Bytes) : Res Bytes := do
  let k ← prepareLeafData host leaf.prehashKey leaf.length key
  let v ← prepareLeafData host leaf.prehashValue leaf.length value
  host.hash leaf.hash (leaf.pre ++ k ++ v)

def applyInner (op : InnerOp) (child : Bytes) : Res Bytes := do
  ensure (decide (child ≠ [])) "Missing child hash"
  host.hash op.hash (op.pre ++ child ++ op.suf)

/-- The root hash at the end of a path. -/
def climbPath (childSize : Nat) : List InnerOp → Bytes → Res Bytes
  | [], h => .ok h
  | op :: path, h => do
    let h' ← applyInner host op h
    ensure (decide (¬ (childSize < h'.length ∧ 32 ≤ childSize))) "Invalid inner operation (child_size)"
    climbPath childSize path h'

/-- `calculate_existence_root_for_spec`. -/
def calculateRoot (spec : ProofSpec) (p : ExistenceProof) : Res Bytes := do
  ensure (decide (p.key ≠ [])) "Existence proof must have key set"
  ensure (decide (p.value ≠ [])) "Existence proof must have value set"
  match p.leaf with
  | none => .error (.err "No leaf operation set")
  | some leaf => do
    let h ← applyLeaf host leaf p.key p.value
    climbPath host spec.innerSpec.childSize p.path h

/-- `ensure_leaf`: the operations are those of the spec, and the prefix begins with that of the spec. -/
def ensureLeaf (leaf spec : LeafOp) : Res Unit :=
  ensure (decide (leaf.hash = spec.hash ∧ leaf.prehashKey = spec.prehashKey ∧ leaf.prehashValue = spec.prehashValue ∧
    leaf.length = spec.length ∧ spec.pre <+: leaf.pre)) "Leaf does not match spec"

/-- `ensure_inner`: the prefix may contain the children to the left of the path and must not look like a leaf; the suffix is a number
of children. -/
def ensureInner (op : InnerOp) (spec : ProofSpec) : Res Unit :=
  ensure (decide (op.hash = spec.innerSpec.hash ∧ ¬ spec.leafSpec.pre <+: op.pre ∧ spec.innerSpec.minPrefixLength ≤ op.pre.length ∧
    op.pre.length ≤ spec.innerSpec.maxPrefixLength + (spec.innerSpec.childOrder.length - 1) * spec.innerSpec.childSize ∧
    0 < spec.innerSpec.childSize ∧ op.suf.length % spec.innerSpec.childSize = 0)) "Inner node does not match spec"

/-- All steps of a list of checks. -/
def allOk {α : Type} (f : α → Res Unit) : List α → Res Unit
  | [] => .ok ()
  | a :: l => do f a; allOk f l

/-- `check_existence_spec`. A depth limit of 0 is no limit. -/
def checkExistenceSpec (p : ExistenceProof) (spec : ProofSpec) : Res Unit :=
  match p.leaf with
  | none => .error (.err "No leaf operation set")
  | some leaf => do
    ensureLeaf leaf spec.leafSpec
    ensure (decide (spec.minDepth = 0 ∨ spec.minDepth ≤ p.path.length)) "Too few inner ops"
    ensure (decide (spec.maxDepth = 0 ∨ p.path.length ≤ spec.maxDepth)) "Too many inner ops"
    allOk (fun op => ensureInner op spec) p.path

/-- `verify_existence`. -/
def verifyExistence (p : ExistenceProof) (spec : ProofSpec) (root key value : Bytes) : Res Unit := do
  checkExistenceSpec p spec
  ensure (decide (p.key = key)) "Provided key doesn't match proof"
  ensure (decide (p.value = value)) "Provided value doesn't match proof"
  let top ← calculateRoot host spec p
  ensure (decide (top = root)) "Root hash doesn't match"

/-- Lengths of prefix and suffix of a step on branch `branch`. -/
structure Padding where
  minPrefix : Nat
  maxPrefix : Nat
  suffix : Nat

/-- `get_padding`. -/
def getPadding (spec : InnerSpec) (branch : Nat) : Res Padding :=
  match spec.childOrder.idxOf? branch with
  | none => .error (.err "Branch not found in spec")
  | some idx => .ok ⟨idx * spec.childSize + spec.minPrefixLength, idx * spec.childSize + spec.maxPrefixLength,
      spec.childSize * (spec.childOrder.length - 1 - idx)⟩

/-- `has_padding`. -/
def hasPadding (op : InnerOp) (pad : Padding) : Bool :=
  decide (pad.minPrefix ≤ op.pre.length ∧ op.pre.length ≤ pad.maxPrefix ∧ op.suf.length = pad.suffix)

/-- `order_from_padding`: the branch a step is on, by its paddings. -/
def orderFromPadding (spec : InnerSpec) (op : InnerOp) : Res Nat :=
  go 0 spec.childOrder.length
where
  /-- the loop over the branches -/
  go (branch : Nat) : Nat → Res Nat
  | 0 => .error (.err "padding doesn't match branch")
  | n + 1 => do
    let pad ← getPadding spec branch
    if hasPadding op pad then pure branch else go (branch + 1) n

/-- Whether `count` children starting at `start` in `bytes` are all empty. -/
def childrenEmpty (spec : InnerSpec) (bytes : Bytes) (start count : Nat) : Bool :=
  (List.range count).all fun i => decide ((bytes.drop (start + i * spec.childSize)).take spec.childSize = spec.emptyChild)

/-- `left_branches_are_empty`. -/
def leftBranchesAreEmpty (spec : InnerSpec) (op : InnerOp) : Res Bool := do
  let left ← orderFromPadding spec op
  if left = 0 then pure false
  else if op.pre.length < left * spec.childSize then pure false
  else pure (childrenEmpty spec op.pre (op.pre.length - left * spec.childSize) left)

/-- `right_branches_are_empty`. -/
def rightBranchesAreEmpty (spec : InnerSpec) (op : InnerOp) : Res Bool := do
  let idx ← orderFromPadding spec op
  let right := spec.childOrder.length - 1 - idx
  if right = 0 then pure false
  else if op.suf.length ≠ right * spec.childSize then pure false
  else pure (childrenEmpty spec op.suf 0 right)

/-- One step of `ensure_left_most`. -/
def leftMostStep (spec : InnerSpec) (pad : Padding) (op : InnerOp) : Res Unit :=
  if hasPadding op pad then .ok ()
  else do
    let e ← leftBranchesAreEmpty spec op
    ensure e "step not leftmost"

/-- One step of `ensure_right_most`. -/
def rightMostStep (spec : InnerSpec) (pad : Padding) (op : InnerOp) : Res Unit :=
  if hasPadding op pad then .ok ()
  else do
    let e ← rightBranchesAreEmpty spec op
    ensure e "step not rightmost"

/-- `ensure_left_most`: nothing lies to the left of the path. -/
def ensureLeftMost (spec : InnerSpec) (path : List InnerOp) : Res Unit := do
  let pad ← getPadding spec 0
  allOk (leftMostStep spec pad) path

/-- `ensure_right_most`: nothing lies to the right of the path. -/
def ensureRightMost (spec : InnerSpec) (path : List InnerOp) : Res Unit := do
  let pad ← getPadding spec (spec.childOrder.length - 1)
  allOk (rightMostStep spec pad) path

/-- `is_left_step`. -/
def isLeftStep (spec : InnerSpec) (left right : InnerOp) : Res Bool := do
  let l ← orderFromPadding spec left
  let r ← orderFromPadding spec right
  pure (decide (l + 1 = r))

/-- The loop of `ensure_left_neighbor`; the paths are given topmost step first. The Rust code unwraps the popped steps. -/
def leftNeighborLoop (spec : InnerSpec) : List InnerOp → List InnerOp → Res Unit
  | a :: left, b :: right =>
    if a.pre = b.pre ∧ a.suf = b.suf then leftNeighborLoop spec left right
    else do
      let s ← isLeftStep spec a b
      ensure s "Not left neighbor at first divergent step"
      ensureRightMost spec left.reverse
      ensureLeftMost spec right.reverse
  | _, _ => .error (.panic "called `Option::unwrap()` on a `None` value")

/-- `ensure_left_neighbor`: the two paths part once, by one branch, and nothing lies between them. -/
def ensureLeftNeighbor (spec : InnerSpec) (left right : List InnerOp) : Res Unit :=
  leftNeighborLoop spec left.reverse right.reverse

/-- The key as it is compared. -/
def keyForComparison (spec : ProofSpec) (key : Bytes) : Res Bytes :=
  if spec.prehashKeyBeforeComparison then host.hash spec.leafSpec.prehashKey key else .ok key

/-- One of the two bounds: its proof verifies, and its key is on the right side of `key`. -/
def verifyBound (spec : ProofSpec) (root key : Bytes) (before : Bool) : Option ExistenceProof → Res Unit
  | none => .ok ()
  | some p => do
    verifyExistence host p spec root p.key p.value
    let a ← keyForComparison host spec p.key
    let k ← keyForComparison host spec key
    ensure (if before then decide (a < k) else decide (k < a)) "bound is on the wrong side of the key"

/-- `verify_non_existence`. -/
def verifyNonExistence (p : NonExistenceProof) (spec : ProofSpec) (root key : Bytes) : Res Unit := do
  verifyBound host spec root key true p.left
  verifyBound host spec root key false p.right
  match p.left, p.right with
  | some l, none => ensureRightMost spec.innerSpec l.path
  | none, some r => ensureLeftMost spec.innerSpec r.path
  | some l, some r => ensureLeftNeighbor spec.innerSpec l.path r.path
  | none, none => .error (.err "neither left nor right proof defined")

end Verif.Ics23
