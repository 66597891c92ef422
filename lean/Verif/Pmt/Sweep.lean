import Verif.Pmt.Iter
import Verif.Pmt.Threads
/-!
Iterators over a trie while the database changes. `TrieIterator` (`/repo/pmt/src/trie_iterator.rs:44-161`) borrows the trie and `OwnedTrieIterator`
(163-280) owns one; both copy the root when they are made (59, 178: `trie.root()`) and use the trie afterwards for `recover_from_db` (123, 242) only,
which looks nodes up in the shared database (`inner.rs:828-838`). So an iterator is the state `Iter` of the model, and what it finds depends on the
database at the moment of the lookup. The two implementations of `next` (75-160, 194-279) have the same text.
-/

set_option autoImplicit false

namespace Verif.Pmt

/-- Several calls of `next`. -/
def Iter.calls (db : Db) (fuel : Nat) (it : Iter) : Nat → Res (Iter × List (Option (Bytes × Bytes)))
  | 0 => .ok (it, [])
  | n + 1 =>
    match it.next db fuel with
    | .error e => .error e
    | .ok (it, x) =>
      match it.calls db fuel n with
      | .error e => .error e
      | .ok (it, l) => .ok (it, x :: l)

namespace Sys

/-- Calls of `next` with other calls before each of them: the calls of the first block, `next`, the calls of the second block, and so on. -/
def sweep (K : Keccak) (fuel : Nat) (s : Sys) (it : Iter) : List (List Op) → Res (Sys × Iter × List (Option (Bytes × Bytes)))
  | [] => .ok (s, it, [])
  | ops :: blocks =>
    match s.run K ops with
    | .error e => .error e
    | .ok (s, _) =>
      match it.next s.db fuel with
      | .error e => .error e
      | .ok (it, x) =>
        match sweep K fuel s it blocks with
        | .error e => .error e
        | .ok (s, it, l) => .ok (s, it, x :: l)

end Sys

namespace Pool

/-- Threads and beside them one that iterates: `some t` is a step of the thread `t`, and `none` a round of the loop in `next`, which has at most one
lookup. The pairs that `next` has returned up to then are collected; when it has returned `None`, it is called again. -/
def sweep (K : Keccak) (p : Pool) (it : Iter) : List (Option Nat) → Res (Pool × Iter × List (Bytes × Bytes))
  | [] => .ok (p, it, [])
  | some t :: schedule => sweep K (p.step K t) it schedule
  | none :: schedule =>
    match it.round p.db with
    | .error e => .error e
    | .ok (.go it) => sweep K p it schedule
    | .ok (.none it) => sweep K p it schedule
    | .ok (.pair it k v) =>
      match sweep K p it schedule with
      | .error e => .error e
      | .ok (p, it, l) => .ok (p, it, (k, v) :: l)

end Pool
end Verif.Pmt
