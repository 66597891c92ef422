import Verif.Pmt.System
import Verif.Pmt.Iter
/-!
Programs in which every `commit` meets the entries of its hash map and hash set in an order of its own.
-/

set_option autoImplicit false

namespace Verif.Pmt

/-- The order in which one `commit` meets the entries of `cache` (`self.cache.drain()`, `inner.rs:292`) and those of `passing_keys` that are
removed (`self.passing_keys.iter()`, `inner.rs:301-307`). -/
structure Order where
  inserted : FMap H256 Bytes → List (H256 × Bytes)
  removed : List H256 → List H256

/-- Each entry of the map is met once, and the members of the set and nothing else. -/
structure Order.Ok (o : Order) : Prop where
  inserted : ∀ m, (o.inserted m).Perm m.entries
  removed : ∀ l h, h ∈ o.removed l ↔ h ∈ l

/-- `inner.rs:279-320` `commit`, in a given order. The map `cache` is made by its insertions. -/
def Trie.commitIn (K : Keccak) (o : Order) (t : Trie) (db : Db) : Res (Trie × Db × Except String H256) := do
  let (t, h) ← t.writeRoot K
  let db := db.insertBatch (o.inserted (FMap.empty.extend t.cache))
  let db := db.removeBatch (o.removed (t.passingKeys.filter (fun k => !(t.genKeys.contains k))))
  let t := { t with cache := [], rootHash := h, genKeys := [], passingKeys := [] }
  match recover db h with
  | .error (.panic m) => .error (.panic m)
  | .error (.err m) => .ok (t, db, .error m)
  | .ok none => .error (.panic "The root that was just created is missing")
  | .ok (some n) => .ok ({ t with root := n }, db, .ok h)

namespace Sys

/-- One call; a `commit` in the given order. -/
def stepIn (K : Keccak) (s : Sys) (o : Order) : Op → Res (Sys × Ret)
  | .commit i =>
    match s.tries[i]? with
    | .none => .ok (s, .none)
    | .some t =>
      match t.commitIn K o s.db with
      | .error e => .error e
      | .ok (t, db, .ok h) => .ok (⟨db, s.tries.set i t, s.roots ++ [h]⟩, .root h)
      | .ok (t, db, .error m) => .ok (⟨db, s.tries.set i t, s.roots⟩, .failed m)
  | op => s.step K op

/-- A program, with an order for each call. -/
def runIn (K : Keccak) (s : Sys) : List (Order × Op) → Res (Sys × List Ret)
  | [] => .ok (s, [])
  | (o, op) :: ops =>
    match s.stepIn K o op with
    | .error e => .error e
    | .ok (s, r) =>
      match runIn K s ops with
      | .error e => .error e
      | .ok (s, rs) => .ok (s, r :: rs)

end Sys
end Verif.Pmt
