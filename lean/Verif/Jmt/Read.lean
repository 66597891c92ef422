import Verif.Jmt.Proof
import Verif.Jmt.Store
/-!
Model of the read functions of `/repo/jmt/src/tree.rs`.
-/

set_option autoImplicit false

namespace Verif.Jmt
namespace Tree
variable {D : Type}

/-- `tree.rs:856-911` the loop of `get_with_proof`; the first argument counts the remaining iterations of
`for nibble_depth in 0..=ROOT_NIBBLE_HEIGHT`, `depth` is `nibble_depth`. -/
def getWithProofLoop (H : Hasher D) (r : Reader D) (key : Key) (version : Version) :
    (fuel : Nat) → (depth : Nat) → NodeKey → List Nibble → List D → Res (Option Value × SparseMerkleProof D)
  | 0, _, _, _, _ => .error (.err "Jellyfish Merkle tree has cyclic graph inside.")
  | fuel + 1, depth, nk, nibs, sibs =>
    match r.getNodeOption nk with
    | none => .error (.err (if depth = 0 then "Missing root" else "Missing node"))
    | some (.internal n) =>
      match nibs with
      | [] => .error (.err "ran out of nibbles")
      | q :: nibs' =>
        match n.getChildWithSiblings H nk q with
        | .error e => .error e
        | .ok (none, s) => .ok (none, ⟨none, (sibs ++ s).reverse⟩)
        | .ok (some nk', s) => getWithProofLoop H r key version fuel (depth + 1) nk' nibs' (sibs ++ s)
    | some (.leaf l) =>
      if l.keyHash = key then
        match r.getValueOption version l.keyHash with
        | none => .error (.err "Missing value")
        | some v => .ok (some v, ⟨some l, sibs.reverse⟩)
      else .ok (none, ⟨some l, sibs.reverse⟩)
    | some .null =>
      if depth = 0 then .ok (none, ⟨none, []⟩)
      else .error (.err "Non-root null node exists with node key")

/-- `tree.rs:842-913` `get_with_proof`. -/
def getWithProof (H : Hasher D) (r : Reader D) (key : Key) (version : Version) : Res (Option Value × SparseMerkleProof D) :=
  getWithProofLoop H r key version (rootNibbleHeight + 1) 0 (.newEmptyPath version) key.nibbles []

/-- `tree.rs:1225-1233` `get_root_node`. -/
def getRootNode (r : Reader D) (version : Version) : Res (Node D) :=
  match r.getNodeOption (.newEmptyPath version) with
  | some n => .ok n
  | none => .error (.err "Root node not found for version")

/-- `tree.rs:1235-1237` `get_root_hash`. -/
def getRootHash (H : Hasher D) (r : Reader D) (version : Version) : Res D := do
  let n ← getRootNode r version
  pure (n.hash H)

/-- `tree.rs:1239-1243` `get_root_hash_option`. -/
def getRootHashOption (H : Hasher D) (r : Reader D) (version : Version) : Option D :=
  (r.getNodeOption (.newEmptyPath version)).map (fun n => n.hash H)

/-- `tree.rs:1246-1256` `get_leaf_count`. -/
def getLeafCount (migration : Bool) (r : Reader D) (version : Version) : Res (Option Nat) :=
  if migration then do
    let n ← getRootNode r version
    pure n.leafCount
  else .ok none

/-- `tree.rs:66-68` `get` of `VersionedTrie`: reads the value history. -/
def get (r : Reader D) (key : Key) (version : Version) : Option Value := r.getValueOption version key

/-- `tree.rs:1199-1223` `get_range_proof`: keep the siblings on the right, where the key bit is 0. -/
def getRangeProof (H : Hasher D) (r : Reader D) (key : Key) (version : Version) : Res (SparseMerkleRangeProof D) := do
  let (account, proof) ← getWithProof H r key version
  ensure account.isSome "rightmost_key_to_prove must exist."
  pure ⟨((proof.siblings.reverse.zip key.bits).filterMap (fun sb => if sb.2 then none else some sb.1)).reverse⟩

end Tree
end Verif.Jmt
