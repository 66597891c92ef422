import Verif.Pmt.Trie
/-!
Model of `/repo/pmt/src/trie_iterator.rs`: `TrieIterator` (1-161). `OwnedTrieIterator` (163-280) differs from it only in owning the trie.
-/

set_option autoImplicit false

namespace Verif.Pmt

/-- `trie_iterator.rs:7-13` `TraceStatus`. -/
inductive Status where
  | start
  | doing
  | child (i : Nat)
  | done

/-- `trie_iterator.rs:30-42` `advance`. -/
def Status.advance (node : Node) : Status → Status
  | .start => .doing
  | .doing =>
    match node with
    | .branch _ _ => .child 0
    | _ => .done
  | .child i => if i < 15 then .child (i + 1) else .done
  | .done => .done

/-- `trie_iterator.rs:44-52` `TrieIterator` without the trie: the stack has the last node of the vector first. -/
structure Iter where
  nibble : Nibbles
  nodes : List (Node × Status)

/-- What one round of the loop in `next` does: go on, return a pair, or return `None`. -/
inductive Round where
  | go (it : Iter)
  | pair (it : Iter) (key value : Bytes)
  | none (it : Iter)

namespace Iter

/-- `trie_iterator.rs:58-66` `new`. -/
def new (t : Trie) : Iter := ⟨[], [(t.root, .start)]⟩

/-- `self.nibble.truncate(cur_len - n)`. -/
def shorten (nibble : Nibbles) (n : Nat) : Res Nibbles :=
  if n ≤ nibble.length then .ok (nibble.take (nibble.length - n)) else .error (.panic "attempt to subtract with overflow")

/-- The arm for `TraceStatus::End` (`trie_iterator.rs:82-100`): the path afterwards. -/
def leave (nibble : Nibbles) : Node → Res Nibbles
  | .leaf key _ => shorten nibble key.length
  | .ext pre _ => shorten nibble pre.length
  | .branch _ _ => .ok nibble.dropLast
  | _ => .ok nibble

/-- One round of the loop in `next` (`trie_iterator.rs:76-159`). -/
def round (db : Db) (it : Iter) : Res Round :=
  match it.nodes with
  | [] => .ok (.none it)
  | (node, status) :: rest =>
    let stack := (node, status.advance node) :: rest
    match status, node with
    | .done, node => do
      let nibble ← leave it.nibble node
      pure (.go ⟨nibble, rest⟩)
    | .doing, .ext pre sub => .ok (.go ⟨it.nibble ++ pre, (sub, .start) :: stack⟩)
    | .doing, .leaf key value => do
      let (raw, _) ← (it.nibble ++ key).encodeRaw
      pure (.pair ⟨it.nibble ++ key, stack⟩ raw value)
    | .doing, .branch _ (some value) => do
      let (raw, _) ← it.nibble.encodeRaw
      pure (.pair ⟨it.nibble, stack⟩ raw value)
    | .doing, .branch _ none => .ok (.go ⟨it.nibble, stack⟩)
    | .doing, .hash h =>
      match recover db h with
      | .error (.panic m) => .error (.panic m)
      | .error (.err _) => .ok (.none ⟨it.nibble, stack⟩)
      | .ok none => .ok (.go ⟨it.nibble, rest⟩)
      | .ok (some n) => .ok (.go ⟨it.nibble, (n, .start) :: rest⟩)
    | .child i, .branch children _ =>
      if h : i < 16 then
        .ok (.go ⟨(if i = 0 then it.nibble else it.nibble.dropLast) ++ [i], (children ⟨i, h⟩, .start) :: stack⟩)
      else .error (.panic "index out of bounds")
    | _, .empty => .ok (.go ⟨it.nibble, rest⟩)
    | _, _ => .ok (.go ⟨it.nibble, stack⟩)

/-- `trie_iterator.rs:75-160` `next`; at most `fuel` rounds. -/
def next (db : Db) : (fuel : Nat) → Iter → Res (Iter × Option (Bytes × Bytes))
  | 0, _ => .error (.panic "out of fuel")
  | fuel + 1, it =>
    match round db it with
    | .error e => .error e
    | .ok (.go it) => next db fuel it
    | .ok (.pair it k v) => .ok (it, some (k, v))
    | .ok (.none it) => .ok (it, none)

/-- `next` until it returns `None`; at most `calls` calls of at most `fuel` rounds each. -/
def collect (db : Db) (fuel : Nat) : (calls : Nat) → Iter → Res (List (Bytes × Bytes))
  | 0, _ => .error (.panic "out of fuel")
  | calls + 1, it =>
    match next db fuel it with
    | .error e => .error e
    | .ok (_, none) => .ok []
    | .ok (it, some x) => do
      let l ← collect db fuel calls it
      pure (x :: l)

end Iter

namespace Trie

/-- `inner.rs:88-90` `iter` and `inner.rs:97-100` `values`: all pairs that `iter` yields; at most `fuel` calls of at most `fuel` rounds each. -/
def values (fuel : Nat) (t : Trie) (db : Db) : Res (List (Bytes × Bytes)) := Iter.collect db fuel fuel (Iter.new t)

end Trie
end Verif.Pmt
