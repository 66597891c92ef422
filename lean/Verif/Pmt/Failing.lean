import Verif.Pmt.Faulty
import Verif.Pmt.Iter
/-!
The functions of `Pmt/Trie` and `Pmt/Iter` that read the database, once more, over a database whose `get` may return an error. The argument `bad`
says which lookups fail during the call; a lookup fails each time it is made during one call, or never.
-/

set_option autoImplicit false

namespace Verif.Pmt

/-- `TrieError::Database` (`inner.rs:832`). -/
def dbError {α : Type} : Res α := .error (.err "database error")

/-- `inner.rs:828-840` `recover_from_db`. -/
def recoverF (db : Db) (bad : H256 → Bool) (h : H256) : Res (Option Node) := if bad h then dbError else recover db h

/-- Replacing a hash node by the node in the database: `fetch` with `recoverF`. -/
def fetchF (db : Db) (bad : H256 → Bool) (h : H256) : Res Node :=
  match recoverF db bad h with
  | .error e => .error e
  | .ok none => missing
  | .ok (some n) => .ok n

/-- `inner.rs:327-395` `get_at`. -/
def getAtF (db : Db) (bad : H256 → Bool) : (fuel : Nat) → Node → Nibbles → Res (Option Bytes)
  | 0 => getStep (fun _ _ => .error (.panic "endless recursion"))
  | fuel + 1 => getStep (fun h p =>
      match fetchF db bad h with
      | .error e => .error e
      | .ok n => getAtF db bad fuel n p)

/-- `inner.rs:397-510` `insert_at`. -/
def insertAtF (db : Db) (bad : H256 → Bool) (value : Bytes) : (fuel : Nat) → Node → Nibbles → Out Node
  | 0 => insertStep (fun h _ => ([h], .error (.panic "endless recursion"))) value
  | fuel + 1 => insertStep (fun h p =>
      Out.andThen ([h], fetchF db bad h) (fun n => insertAtF db bad value fuel n p)) value

/-- `inner.rs:622-656` `degenerate` on an extension. -/
def degenerateExtAtF (db : Db) (bad : H256 → Bool) : (fuel : Nat) → Nibbles → Node → Out Node
  | 0 => degenerateExt (fun h _ => ([h], .error (.panic "endless recursion")))
  | fuel + 1 => degenerateExt (fun h pre =>
      Out.andThen ([h], fetchF db bad h) (fun n => degenerateExtAtF db bad fuel pre n))

/-- `inner.rs:592-660` `degenerate`. -/
def degenerateF (db : Db) (bad : H256 → Bool) (n : Node) : Out Node :=
  match n with
  | .branch children value =>
    match usedIndexes children, value with
    | [], some v => .of (.ok (.leaf [16] v))
    | [i], none => degenerateExtAtF db bad (db.len + 1) [i.val] (children i)
    | _, _ => .of (.ok n)
  | .ext pre sub => degenerateExtAtF db bad (db.len + 1) pre sub
  | _ => .of (.ok n)

/-- `inner.rs:577-581` the end of `delete_at`. -/
def afterDeleteF (db : Db) (bad : H256 → Bool) (x : Node × Bool) : Out (Node × Bool) :=
  if x.2 then (degenerateF db bad x.1).map (fun n => (n, true)) else .of (.ok x)

/-- `inner.rs:512-586` `delete_at`; `hop` treats hash nodes. -/
def deleteStepF (db : Db) (bad : H256 → Bool) (hop : H256 → Nibbles → Out (Node × Bool)) : Node → Nibbles → Out (Node × Bool)
  | .empty, _ => .of (.ok (.empty, false))
  | .leaf key value, p => if key = p then .of (.ok (.empty, true)) else .of (.ok (.leaf key value, false))
  | .branch children value, p =>
    match p with
    | [] => .of (.error (.panic "index out of bounds"))
    | x :: t =>
      if x = 16 then .of (.ok (.branch children none, true))
      else if h : x < 16 then
        (deleteStepF db bad hop (children ⟨x, h⟩) t).andThen (fun r =>
          afterDeleteF db bad (if r.2 then .branch (fun j => if j = ⟨x, h⟩ then r.1 else children j) value else .branch children value, r.2))
      else .of (.error (.panic "index out of bounds"))
  | .ext pre sub, p =>
    if Nibbles.commonPrefix p pre = pre.length then
      (deleteStepF db bad hop sub (p.drop pre.length)).andThen (fun r => afterDeleteF db bad (if r.2 then .ext pre r.1 else .ext pre sub, r.2))
    else .of (.ok (.ext pre sub, false))
  | .hash h, p => (hop h p).andThen (afterDeleteF db bad)

/-- `inner.rs:512-586` `delete_at` with the `Hash` arm (560-574). -/
def deleteAtF (db : Db) (bad : H256 → Bool) : (fuel : Nat) → Node → Nibbles → Out (Node × Bool)
  | 0 => deleteStepF db bad (fun h _ => ([h], .error (.panic "endless recursion")))
  | fuel + 1 => deleteStepF db bad (fun h p =>
      Out.andThen ([h], fetchF db bad h) (fun n => deleteAtF db bad fuel n p))

/-- `inner.rs:669-715` `get_path_at`. -/
def pathAtF (db : Db) (bad : H256 → Bool) : (fuel : Nat) → Node → Nibbles → Res (List Node)
  | 0 => pathStep (fun _ _ => .error (.panic "endless recursion"))
  | fuel + 1 => pathStep (fun h p => do
      let n ← fetchF db bad h
      let rest ← pathAtF db bad fuel n p
      pure (rest ++ [n]))

namespace Trie

/-- `inner.rs:116-136` `get`. -/
def getF (t : Trie) (db : Db) (bad : H256 → Bool) (key : Bytes) : Res (Option Bytes) := getAtF db bad (hops db (path key)) t.root (path key)

/-- `inner.rs:139-142` `contains`. -/
def containsF (t : Trie) (db : Db) (bad : H256 → Bool) (key : Bytes) : Res Bool := do
  let v ← getAtF db bad (hops db (path key)) t.root (path key)
  pure v.isSome

/-- `inner.rs:145-177` `insert`. -/
def insertF (t : Trie) (db : Db) (bad : H256 → Bool) (key value : Bytes) : Res (Trie × Option String) :=
  if value.isEmpty then .ok (t, some "value provided for key is empty")
  else
    let r := insertAtF db bad value (hops db (path key)) t.root (path key)
    let t := { t with passingKeys := r.1 ++ t.passingKeys }
    match r.2 with
    | .error (.panic m) => .error (.panic m)
    | .error (.err m) => .ok (t, some m)
    | .ok n => .ok ({ t with root := n }, none)

/-- `inner.rs:180-206` `remove`. -/
def removeF (t : Trie) (db : Db) (bad : H256 → Bool) (key : Bytes) : Res (Trie × Except String Bool) :=
  let r := deleteAtF db bad (hops db (path key)) t.root (path key)
  let t := { t with passingKeys := r.1 ++ t.passingKeys }
  match r.2 with
  | .error (.panic m) => .error (.panic m)
  | .error (.err m) => .ok (t, .error m)
  | .ok (n, b) => .ok ({ t with root := n }, .ok b)

/-- `inner.rs:279-320` `commit`: the only lookup is that of the root that was just written, when everything else is done. -/
def commitF (K : Keccak) (t : Trie) (db : Db) (bad : H256 → Bool) : Res (Trie × Db × Except String H256) := do
  let (t, h) ← t.writeRoot K
  let db := db.insertBatch t.cache
  let db := db.removeBatch (t.passingKeys.filter (fun k => !(t.genKeys.contains k)))
  let t := { t with cache := [], rootHash := h, genKeys := [], passingKeys := [] }
  match recoverF db bad h with
  | .error (.panic m) => .error (.panic m)
  | .error (.err m) => .ok (t, db, .error m)
  | .ok none => .error (.panic "The root that was just created is missing")
  | .ok (some n) => .ok ({ t with root := n }, db, .ok h)

/-- `inner.rs:224-252` `get_proof`. -/
def getProofF (K : Keccak) (t : Trie) (db : Db) (bad : H256 → Bool) (key : Bytes) : Res (Trie × Except String (List Bytes)) :=
  match pathAtF db bad (hops db (path key)) t.root (path key) with
  | .error (.panic m) => .error (.panic m)
  | .error (.err m) => .ok (t, .error m)
  | .ok l => do
    let l := match t.root with
      | .empty => l
      | _ => l ++ [t.root]
    let (bs, w) ← encodeAll K l.reverse
    pure (t.addWritten w, .ok bs)

/-- `inner.rs:93-95` `len`; `fails`: `Database::len` returns an error. -/
def lenF (db : Db) (fails : Bool) : Nat := if fails then 0 else db.len

end Trie

namespace Iter

/-- One round of the loop in `next` (`trie_iterator.rs:76-159`). -/
def roundF (db : Db) (bad : H256 → Bool) (it : Iter) : Res Round :=
  match it.nodes with
  | (.hash h, .doing) :: rest =>
    match recoverF db bad h with
    | .error (.panic m) => .error (.panic m)
    | .error (.err _) => .ok (.none ⟨it.nibble, (.hash h, .done) :: rest⟩)
    | .ok none => .ok (.go ⟨it.nibble, rest⟩)
    | .ok (some n) => .ok (.go ⟨it.nibble, (n, .start) :: rest⟩)
  | _ => round db it

/-- `trie_iterator.rs:75-160` `next`. -/
def nextF (db : Db) (bad : H256 → Bool) : (fuel : Nat) → Iter → Res (Iter × Option (Bytes × Bytes))
  | 0, _ => .error (.panic "out of fuel")
  | fuel + 1, it =>
    match roundF db bad it with
    | .error e => .error e
    | .ok (.go it) => nextF db bad fuel it
    | .ok (.pair it k v) => .ok (it, some (k, v))
    | .ok (.none it) => .ok (it, none)

/-- `next` until it returns `None`; `bad n` are the lookups that fail during the call number `n`. -/
def collectF (db : Db) (fuel : Nat) : (calls : Nat) → (bad : Nat → H256 → Bool) → Iter → Res (List (Bytes × Bytes))
  | 0, _, _ => .error (.panic "out of fuel")
  | calls + 1, bad, it =>
    match nextF db (bad 0) fuel it with
    | .error e => .error e
    | .ok (_, none) => .ok []
    | .ok (it, some x) => do
      let l ← collectF db fuel calls (fun n => bad (n + 1)) it
      pure (x :: l)

end Iter

/-- `inner.rs:97-100` `values`, which always returns `Ok`. -/
def Trie.valuesF (fuel : Nat) (t : Trie) (db : Db) (bad : Nat → H256 → Bool) : Res (List (Bytes × Bytes)) :=
  Iter.collectF db fuel fuel bad (Iter.new t)

/-- A call during which some lookups fail, or a `commit` that fails while nodes are written or removed. -/
inductive ROp where
  | call (op : Op) (bad : H256 → Bool)
  | fail (i : Nat) (f : Fault)

namespace Sys

/-- One call with failing lookups. -/
def stepR (K : Keccak) (s : Sys) : ROp → Res (Sys × Ret)
  | .fail i f => s.stepF K (.fail i f)
  | .call .new _ => s.step K .new
  | .call (.openAt j) _ => s.step K (.openAt j)
  | .call (.insert i key value) bad =>
    match s.tries[i]? with
    | .none => .ok (s, .none)
    | .some t =>
      match t.insertF s.db bad key value with
      | .error e => .error e
      | .ok (t, .none) => .ok (s.put i t, .done)
      | .ok (t, .some m) => .ok (s.put i t, .failed m)
  | .call (.remove i key) bad =>
    match s.tries[i]? with
    | .none => .ok (s, .none)
    | .some t =>
      match t.removeF s.db bad key with
      | .error e => .error e
      | .ok (t, .ok b) => .ok (s.put i t, .removed b)
      | .ok (t, .error m) => .ok (s.put i t, .failed m)
  | .call (.commit i) bad =>
    match s.tries[i]? with
    | .none => .ok (s, .none)
    | .some t =>
      match t.commitF K s.db bad with
      | .error e => .error e
      | .ok (t, db, .ok h) => .ok (⟨db, s.tries.set i t, s.roots ++ [h]⟩, .root h)
      | .ok (t, db, .error m) => .ok (⟨db, s.tries.set i t, s.roots⟩, .failed m)
  | .call (.proof i key) bad =>
    match s.tries[i]? with
    | .none => .ok (s, .none)
    | .some t =>
      match t.getProofF K s.db bad key with
      | .error e => .error e
      | .ok (t, .ok l) => .ok (s.put i t, .proof l)
      | .ok (t, .error m) => .ok (s.put i t, .failed m)

/-- A program with failing lookups and failing commits. -/
def runR (K : Keccak) (s : Sys) : List ROp → Res (Sys × List Ret)
  | [] => .ok (s, [])
  | op :: ops =>
    match s.stepR K op with
    | .error e => .error e
    | .ok (s, r) =>
      match runR K s ops with
      | .error e => .error e
      | .ok (s, rs) => .ok (s, r :: rs)

/-- A call that is made again as long as it fails with a database error: during the first attempts the lookups given fail, and then none. -/
def again (K : Keccak) (op : Op) : (bads : List (H256 → Bool)) → Sys → Res (Sys × Ret)
  | [], s => s.step K op
  | bad :: bads, s =>
    match s.stepR K (.call op bad) with
    | .error e => .error e
    | .ok (s, .failed m) => if m = "database error" then again K op bads s else .ok (s, .failed m)
    | .ok (s, r) => .ok (s, r)

/-- A program whose calls are made again after database errors. -/
def runAgain (K : Keccak) (s : Sys) : List (Op × List (H256 → Bool)) → Res (Sys × List Ret)
  | [] => .ok (s, [])
  | (op, bads) :: ops =>
    match again K op bads s with
    | .error e => .error e
    | .ok (s, r) =>
      match runAgain K s ops with
      | .error e => .error e
      | .ok (s, rs) => .ok (s, r :: rs)

end Sys

namespace Spec

/-- A call that failed with a database error. -/
def IsDbError : Ret → Bool
  | .failed m => m = "database error"
  | _ => false

/-- The calls that did not fail with a database error, with what they returned. -/
def worked : List ROp → List Ret → List (Op × Ret)
  | .call op _ :: ops, r :: rs => if IsDbError r then worked ops rs else (op, r) :: worked ops rs
  | .fail _ _ :: ops, _ :: rs => worked ops rs
  | _, _ => []

/-- The calls of a program, failing commits apart. -/
def attempted : List ROp → List Op
  | [] => []
  | .call op _ :: ops => op :: attempted ops
  | .fail _ _ :: ops => attempted ops

end Spec
end Verif.Pmt
