import Verif.Pmt.Trie
/-!
Programs over one database: several tries made by `InnerTrie::new` and `InnerTrie::at_root` share it (`Arc<D>`), and their operations
are made one after the other.
-/

set_option autoImplicit false

namespace Verif.Pmt

/-- One call. Tries are numbered in the order in which they are made; `openAt j` is `at_root` with the root hash returned by the `j`-th
successful `commit`. -/
inductive Op where
  | new
  | openAt (j : Nat)
  | insert (i : Nat) (key value : Bytes)
  | remove (i : Nat) (key : Bytes)
  | commit (i : Nat)
  | proof (i : Nat) (key : Bytes)

/-- What a call returns. `none` is used when there is no such trie or commit. -/
inductive Ret where
  | none
  | done
  | removed (b : Bool)
  | root (h : H256)
  | proof (l : List Bytes)
  | failed (msg : String)

/-- The database, the tries, and the root hashes returned by `commit`. -/
structure Sys where
  db : Db
  tries : List Trie
  roots : List H256

namespace Sys

/-- A database without entries and no tries. -/
def new (light : Bool) : Sys := ⟨Db.new light, [], []⟩

/-- Replace a trie. -/
def put (s : Sys) (i : Nat) (t : Trie) : Sys := { s with tries := s.tries.set i t }

/-- `InnerTrie::insert` on a trie. -/
def insert (s : Sys) (i : Nat) (t : Trie) (key value : Bytes) : Res (Sys × Ret) :=
  match t.insert s.db key value with
  | .error e => .error e
  | .ok (t, .none) => .ok (s.put i t, .done)
  | .ok (t, .some m) => .ok (s.put i t, .failed m)

/-- `InnerTrie::remove` on a trie. -/
def remove (s : Sys) (i : Nat) (t : Trie) (key : Bytes) : Res (Sys × Ret) :=
  match t.remove s.db key with
  | .error e => .error e
  | .ok (t, .ok b) => .ok (s.put i t, .removed b)
  | .ok (t, .error m) => .ok (s.put i t, .failed m)

/-- `InnerTrie::commit` on a trie. -/
def commit (K : Keccak) (s : Sys) (i : Nat) (t : Trie) : Res (Sys × Ret) :=
  match t.commit K s.db with
  | .error e => .error e
  | .ok (t, db, .ok h) => .ok (⟨db, s.tries.set i t, s.roots ++ [h]⟩, .root h)
  | .ok (t, db, .error m) => .ok (⟨db, s.tries.set i t, s.roots⟩, .failed m)

/-- `InnerTrie::get_proof` on a trie. -/
def proof (K : Keccak) (s : Sys) (i : Nat) (t : Trie) (key : Bytes) : Res (Sys × Ret) :=
  match t.getProof K s.db key with
  | .error e => .error e
  | .ok (t, .ok l) => .ok (s.put i t, .proof l)
  | .ok (t, .error m) => .ok (s.put i t, .failed m)

/-- One call. -/
def step (K : Keccak) (s : Sys) : Op → Res (Sys × Ret)
  | .new => .ok ({ s with tries := s.tries ++ [Trie.new K] }, .done)
  | .openAt j =>
    match s.roots[j]? with
    | .none => .ok (s, .none)
    | .some h => .ok ({ s with tries := s.tries ++ [Trie.atRoot h] }, .done)
  | .insert i key value =>
    match s.tries[i]? with
    | .none => .ok (s, .none)
    | .some t => s.insert i t key value
  | .remove i key =>
    match s.tries[i]? with
    | .none => .ok (s, .none)
    | .some t => s.remove i t key
  | .commit i =>
    match s.tries[i]? with
    | .none => .ok (s, .none)
    | .some t => s.commit K i t
  | .proof i key =>
    match s.tries[i]? with
    | .none => .ok (s, .none)
    | .some t => s.proof K i t key

/-- A program: the state afterwards and what the calls returned. -/
def run (K : Keccak) (s : Sys) : List Op → Res (Sys × List Ret)
  | [] => .ok (s, [])
  | op :: ops =>
    match s.step K op with
    | .error e => .error e
    | .ok (s, r) =>
      match run K s ops with
      | .error e => .error e
      | .ok (s, rs) => .ok (s, r :: rs)

end Sys
end Verif.Pmt
