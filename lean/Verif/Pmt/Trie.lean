import Verif.Common.FMap
import Verif.Pmt.Node
/-!
Model of `/repo/pmt/src/inner.rs` (`InnerTrie`) on the database of `/repo/pmt/src/db.rs` (`MemoryDB`).

The database is shared (`Arc`) between a trie and the views made from it by `at_root`; here it is an argument and a result of the
operations. The error values carry no data (`MissingTrieNode { .. }` and the wrapping done in `get`, `insert`, `remove`, `get_proof` only add
the hash, the path and the key to the error). Instead of `path` and `path_index` the functions get the rest of the path, `partial`.
`BorrowMut` and clones of nodes have no counterpart.

The recursions follow the node, except that a hash node is replaced by the node found in the database. The model counts these
replacements: `fuel` of them are allowed, and one more is the error value for an endless recursion (see `hops`).
-/

set_option autoImplicit false

namespace Verif.Pmt

/-- `db.rs:64-68` `MemoryDB`. `log` is not in the code: all byte strings ever inserted, which no function of the model reads; it is used to
state that no two of them have the same hash. -/
structure Db where
  light : Bool
  storage : FMap H256 Bytes
  log : List Bytes

namespace Db

/-- `db.rs:71-76` `new`. -/
def new (light : Bool) : Db := ⟨light, .empty, []⟩

/-- `db.rs:91-97` `get`. The keys are always hashes. -/
def get (db : Db) (h : H256) : Option Bytes := db.storage.get h

/-- `db.rs:99-102` `insert`. -/
def insert (db : Db) (h : H256) (b : Bytes) : Db := { db with storage := db.storage.set h b, log := b :: db.log }

/-- `db.rs:104-109` `remove`. -/
def remove (db : Db) (h : H256) : Db := if db.light then { db with storage := db.storage.erase h } else db

/-- `db.rs:30-41` `insert_batch`. -/
def insertBatch (db : Db) (l : List (H256 × Bytes)) : Db := l.foldl (fun db e => db.insert e.1 e.2) db

/-- `db.rs:44-49` `remove_batch`. -/
def removeBatch (db : Db) (l : List H256) : Db := l.foldl remove db

/-- `db.rs:115-117` `len`. -/
def len (db : Db) : Nat := db.storage.size

end Db

/-- `inner.rs:828-840` `recover_from_db`. -/
def recover (db : Db) (h : H256) : Res (Option Node) :=
  match db.get h with
  | none => .ok none
  | some b => do
    let n ← decodeNode b
    pure (some n)

/-- `MissingTrieNode`. -/
def missing {α : Type} : Res α := .error (.err "MissingTrieNode")

/-- Replacing a hash node by the node in the database, which must exist (for example `inner.rs:382-391`). -/
def fetch (db : Db) (h : H256) : Res Node :=
  match recover db h with
  | .error e => .error e
  | .ok none => missing
  | .ok (some n) => .ok n

/-- The number of hash nodes a recursion along `partial` can meet without meeting one of them twice at the same position. -/
def hops (db : Db) (partial_ : Nibbles) : Nat := (partial_.length + 1) * (db.len + 1)

/-- `inner.rs:327-373` `get_at` and `get_extension_node`; `hop` treats hash nodes. -/
def getStep (hop : H256 → Nibbles → Res (Option Bytes)) : Node → Nibbles → Res (Option Bytes)
  | .empty, _ => .ok none
  | .leaf key value, p => .ok (if key = p then some value else none)
  | .branch children value, p =>
    match p with
    | [] => .ok value
    | x :: t =>
      if x = 16 then .ok value
      else if h : x < 16 then getStep hop (children ⟨x, h⟩) t
      else .error (.panic "index out of bounds")
  | .ext pre node, p => if Nibbles.commonPrefix p pre = pre.length then getStep hop node (p.drop pre.length) else .ok none
  | .hash h, p => hop h p

/-- `inner.rs:327-395` `get_at` with `get_hash_node` (375-395). -/
def getAt (db : Db) : (fuel : Nat) → Node → Nibbles → Res (Option Bytes)
  | 0 => getStep (fun _ _ => .error (.panic "endless recursion"))
  | fuel + 1 => getStep (fun h p =>
      match fetch db h with
      | .error e => .error e
      | .ok n => getAt db fuel n p)

/-- The outcome of an update: hash nodes passed (inserted into `passing_keys`, also when the update fails) and the result. -/
abbrev Out (α : Type) := List H256 × Res α

namespace Out
variable {α β : Type}

/-- No hash node passed. -/
def of (r : Res α) : Out α := ([], r)

/-- Go on after a success. -/
def andThen (x : Out α) (f : α → Out β) : Out β :=
  match x.2 with
  | .error e => (x.1, .error e)
  | .ok a => (x.1 ++ (f a).1, (f a).2)

/-- Change the result. -/
def map (f : α → β) (x : Out α) : Out β := (x.1, x.2.map f)

end Out

/-- `node.rs:91-108` `BranchNode::insert`, on the children and value of a branch; `*self.children[i]` panics above 16. -/
def branchInsert (children : Fin 16 → Node) (value : Option Bytes) (i : Nat) (node : Node) : Res ((Fin 16 → Node) × Option Bytes) :=
  if i = 16 then
    match node with
    | .leaf _ v => .ok (children, some v)
    | _ => .error (.err "node must be a leaf node")
  else if h : i < 16 then .ok (fun j => if j = ⟨i, h⟩ then node else children j, value)
  else .error (.panic "index out of bounds")

/-- `self.at(i)`. -/
def at' (n : Nibbles) (i : Nat) : Res Nat :=
  match n[i]? with
  | none => .error (.panic "index out of bounds")
  | some x => .ok x

/-- `self.offset(i)`. -/
def offset (n : Nibbles) (i : Nat) : Res Nibbles :=
  if i ≤ n.length then .ok (n.drop i) else .error (.panic "range start index out of range")

/-- `inner.rs:407-437` the `Leaf` arm of `insert_at`. -/
def insertLeaf (key : Nibbles) (old : Bytes) (p : Nibbles) (value : Bytes) : Res Node :=
  let m := Nibbles.commonPrefix p key
  if m = key.length then .ok (.leaf key value)
  else do
    let k1 ← offset key (m + 1)
    let i1 ← at' key m
    let (cs, v) ← branchInsert (fun _ => .empty) none i1 (.leaf k1 old)
    let k2 ← offset p (m + 1)
    let i2 ← at' p m
    let (cs, v) ← branchInsert cs v i2 (.leaf k2 value)
    if m = 0 then pure (.branch cs v) else pure (.ext (p.take m) (.branch cs v))

/-- `inner.rs:461-481` the `Extension` arm of `insert_at` without common prefix: a branch with the old node is made, and `insert_at` is
called on it. That call finds no child at the position of the new key (it differs from `prefix.at(0)`), so that it is unfolded here. -/
def insertSplit (pre : Nibbles) (sub : Node) (p : Nibbles) (value : Bytes) : Res Node := do
  let i ← at' pre 0
  let (cs, v) ← branchInsert (fun _ => .empty) none i (if pre.length = 1 then sub else .ext (pre.drop 1) sub)
  let x ← at' p 0
  if x = 16 then pure (.branch cs (some value))
  else if h : x < 16 then pure (.branch (fun j => if j = ⟨x, h⟩ then .leaf (p.drop 1) value else cs j) v)
  else .error (.panic "index out of bounds")

/-- `inner.rs:397-510` `insert_at`; `hop` treats hash nodes. -/
def insertStep (hop : H256 → Nibbles → Out Node) (value : Bytes) : Node → Nibbles → Out Node
  | .empty, p => .of (.ok (.leaf p value))
  | .leaf key old, p => .of (insertLeaf key old p value)
  | .branch children v, p =>
    match p with
    | [] => .of (.error (.panic "index out of bounds"))
    | x :: t =>
      if x = 16 then .of (.ok (.branch children (some value)))
      else if h : x < 16 then
        (insertStep hop value (children ⟨x, h⟩) t).map (fun n => .branch (fun j => if j = ⟨x, h⟩ then n else children j) v)
      else .of (.error (.panic "index out of bounds"))
  | .ext pre sub, p =>
    let m := Nibbles.commonPrefix p pre
    if m = 0 then .of (insertSplit pre sub p value)
    else if m = pre.length then (insertStep hop value sub (p.drop m)).map (fun n => .ext pre n)
    else .of ((insertSplit (pre.drop m) sub (p.drop m) value).map (fun n => .ext (pre.take m) n))
  | .hash h, p => hop h p

/-- `inner.rs:397-510` `insert_at` with the `Hash` arm (494-508). -/
def insertAt (db : Db) (value : Bytes) : (fuel : Nat) → Node → Nibbles → Out Node
  | 0 => insertStep (fun h _ => ([h], .error (.panic "endless recursion"))) value
  | fuel + 1 => insertStep (fun h p =>
      Out.andThen ([h], fetch db h) (fun n => insertAt db value fuel n p)) value

/-- The part of `degenerate` (`inner.rs:622-656`) on an extension, given its prefix and node; `hop` treats hash nodes. -/
def degenerateExt (hop : H256 → Nibbles → Out Node) : Nibbles → Node → Out Node
  | pre, .ext pre' sub => degenerateExt hop (pre ++ pre') sub
  | pre, .leaf key value => .of (.ok (.leaf (pre ++ key) value))
  | pre, .hash h => hop h pre
  | pre, n => .of (.ok (.ext pre n))

/-- `degenerate` on an extension with the `Hash` arm (`inner.rs:638-653`). -/
def degenerateExtAt (db : Db) : (fuel : Nat) → Nibbles → Node → Out Node
  | 0 => degenerateExt (fun h _ => ([h], .error (.panic "endless recursion")))
  | fuel + 1 => degenerateExt (fun h pre =>
      Out.andThen ([h], fetch db h) (fun n => degenerateExtAt db fuel pre n))

/-- Positions of the children other than `Node::Empty` (`inner.rs:597-604`). -/
def usedIndexes (children : Fin 16 → Node) : List (Fin 16) :=
  (List.finRange 16).filter (fun i => match children i with | .empty => false | _ => true)

/-- `inner.rs:592-660` `degenerate`. Without a cycle among the stored nodes, at most `db.len` hash nodes are passed. -/
def degenerate (db : Db) (n : Node) : Out Node :=
  match n with
  | .branch children value =>
    match usedIndexes children, value with
    | [], some v => .of (.ok (.leaf [16] v))
    | [i], none => degenerateExtAt db (db.len + 1) [i.val] (children i)
    | _, _ => .of (.ok n)
  | .ext pre sub => degenerateExtAt db (db.len + 1) pre sub
  | _ => .of (.ok n)

/-- `inner.rs:577-581` the end of `delete_at`. -/
def afterDelete (db : Db) (x : Node × Bool) : Out (Node × Bool) :=
  if x.2 then (degenerate db x.1).map (fun n => (n, true)) else .of (.ok x)

/-- `inner.rs:512-586` `delete_at`; `hop` treats hash nodes. -/
def deleteStep (db : Db) (hop : H256 → Nibbles → Out (Node × Bool)) : Node → Nibbles → Out (Node × Bool)
  | .empty, _ => .of (.ok (.empty, false))
  | .leaf key value, p => if key = p then .of (.ok (.empty, true)) else .of (.ok (.leaf key value, false))
  | .branch children value, p =>
    match p with
    | [] => .of (.error (.panic "index out of bounds"))
    | x :: t =>
      if x = 16 then .of (.ok (.branch children none, true))
      else if h : x < 16 then
        (deleteStep db hop (children ⟨x, h⟩) t).andThen (fun r =>
          afterDelete db (if r.2 then .branch (fun j => if j = ⟨x, h⟩ then r.1 else children j) value else .branch children value, r.2))
      else .of (.error (.panic "index out of bounds"))
  | .ext pre sub, p =>
    if Nibbles.commonPrefix p pre = pre.length then
      (deleteStep db hop sub (p.drop pre.length)).andThen (fun r => afterDelete db (if r.2 then .ext pre r.1 else .ext pre sub, r.2))
    else .of (.ok (.ext pre sub, false))
  | .hash h, p => (hop h p).andThen (afterDelete db)

/-- `inner.rs:512-586` `delete_at` with the `Hash` arm (560-574). -/
def deleteAt (db : Db) : (fuel : Nat) → Node → Nibbles → Out (Node × Bool)
  | 0 => deleteStep db (fun h _ => ([h], .error (.panic "endless recursion")))
  | fuel + 1 => deleteStep db (fun h p =>
      Out.andThen ([h], fetch db h) (fun n => deleteAt db fuel n p))

/-- `inner.rs:669-715` `get_path_at`, deepest node first; `hop` treats hash nodes. -/
def pathStep (hop : H256 → Nibbles → Res (List Node)) : Node → Nibbles → Res (List Node)
  | .empty, _ => .ok []
  | .leaf _ _, _ => .ok []
  | .branch children _, p =>
    match p with
    | [] => .ok []
    | x :: t =>
      if x = 16 then .ok []
      else if h : x < 16 then pathStep hop (children ⟨x, h⟩) t
      else .error (.panic "index out of bounds")
  | .ext pre sub, p => if Nibbles.commonPrefix p pre = pre.length then pathStep hop sub (p.drop pre.length) else .ok []
  | .hash h, p => hop h p

/-- `inner.rs:669-715` `get_path_at` with the `Hash` arm (700-712). -/
def pathAt (db : Db) : (fuel : Nat) → Node → Nibbles → Res (List Node)
  | 0 => pathStep (fun _ _ => .error (.panic "endless recursion"))
  | fuel + 1 => pathStep (fun h p => do
      let n ← fetch db h
      let rest ← pathAt db fuel n p
      pure (rest ++ [n]))

/-- `inner.rs:26-46` `InnerTrie` without the database. The hash map `cache`, which is only written to until `commit` moves its entries to the
database, is the list of the insertions made (oldest first). Making them in this order on the database gives the same database as
moving the entries of the map (`insertBatch_cache`). -/
structure Trie where
  root : Node
  rootHash : H256
  cache : Written
  passingKeys : List H256
  genKeys : List H256

namespace Trie

/-- `inner.rs:57-68` `new`. -/
def new (K : Keccak) : Trie := ⟨.empty, K [0x80], [], [], []⟩

/-- `inner.rs:74-85` `at_root`. -/
def atRoot (h : H256) : Trie := ⟨.hash h, h, [], [], []⟩

/-- `Nibbles::from_raw(key, true)`. -/
def path (key : Bytes) : Nibbles := Nibbles.fromRaw key true

/-- `inner.rs:116-136` `get`. -/
def get (t : Trie) (db : Db) (key : Bytes) : Res (Option Bytes) := getAt db (hops db (path key)) t.root (path key)

/-- `inner.rs:139-142` `contains`. -/
def contains (t : Trie) (db : Db) (key : Bytes) : Res Bool := do
  let v ← getAt db (hops db (path key)) t.root (path key)
  pure v.isSome

/-- `inner.rs:145-177` `insert`: the state afterwards and the error message, if any. -/
def insert (t : Trie) (db : Db) (key value : Bytes) : Res (Trie × Option String) :=
  if value.isEmpty then .ok (t, some "value provided for key is empty")
  else
    let r := insertAt db value (hops db (path key)) t.root (path key)
    let t := { t with passingKeys := r.1 ++ t.passingKeys }
    match r.2 with
    | .error (.panic m) => .error (.panic m)
    | .error (.err m) => .ok (t, some m)
    | .ok n => .ok ({ t with root := n }, none)

/-- `inner.rs:180-206` `remove`: the state afterwards and the result. -/
def remove (t : Trie) (db : Db) (key : Bytes) : Res (Trie × Except String Bool) :=
  let r := deleteAt db (hops db (path key)) t.root (path key)
  let t := { t with passingKeys := r.1 ++ t.passingKeys }
  match r.2 with
  | .error (.panic m) => .error (.panic m)
  | .error (.err m) => .ok (t, .error m)
  | .ok (n, b) => .ok ({ t with root := n }, .ok b)

/-- `self.cache.insert` and `self.gen_keys.insert` of `write_node` (`inner.rs:730-732`). -/
def addWritten (t : Trie) (w : Written) : Trie :=
  { t with cache := t.cache ++ w, genKeys := w.map Prod.fst ++ t.genKeys }

/-- `inner.rs:280-288` the first part of `commit`: encode and write the root node. A short root is put into the cache, but not into
`gen_keys`. -/
def writeRoot (K : Keccak) (t : Trie) : Res (Trie × H256) := do
  let (e, w) ← writeNode K t.root
  let t := t.addWritten w
  match e with
  | .hash h => pure (t, h)
  | .inline d => pure ({ t with cache := t.cache ++ [(K d, d)] }, K d)

/-- `inner.rs:279-320` `commit`. An `Err` can only come from decoding the root read back; the database has been changed by then. -/
def commit (K : Keccak) (t : Trie) (db : Db) : Res (Trie × Db × Except String H256) := do
  let (t, h) ← t.writeRoot K
  let db := db.insertBatch t.cache
  let db := db.removeBatch (t.passingKeys.filter (fun k => !(t.genKeys.contains k)))
  let t := { t with cache := [], rootHash := h, genKeys := [], passingKeys := [] }
  match recover db h with
  | .error (.panic m) => .error (.panic m)
  | .error (.err m) => .ok (t, db, .error m)
  | .ok none => .error (.panic "The root that was just created is missing")
  | .ok (some n) => .ok ({ t with root := n }, db, .ok h)

/-- The encoding of the nodes of a proof (`inner.rs:247-251`). -/
def encodeAll (K : Keccak) : List Node → Res (List Bytes × Written)
  | [] => .ok ([], [])
  | n :: l => do
    let (b, w) ← encodeRaw K n
    let (bs, ws) ← encodeAll K l
    pure (b :: bs, w ++ ws)

/-- `inner.rs:224-252` `get_proof`: the state afterwards and the result. -/
def getProof (K : Keccak) (t : Trie) (db : Db) (key : Bytes) : Res (Trie × Except String (List Bytes)) :=
  match pathAt db (hops db (path key)) t.root (path key) with
  | .error (.panic m) => .error (.panic m)
  | .error (.err m) => .ok (t, .error m)
  | .ok l => do
    let l := match t.root with
      | .empty => l
      | _ => l ++ [t.root]
    let (bs, w) ← encodeAll K l.reverse
    pure (t.addWritten w, .ok bs)

end Trie

/-- `inner.rs:260-275` `verify_proof`: the database made of the proof. -/
def proofDb (K : Keccak) (root : H256) (proof : List Bytes) : Db :=
  proof.foldl (fun db b => if root = K b ∨ b.length ≥ 32 then db.insert (K b) b else db) (Db.new true)

/-- `inner.rs:259-277` `verify_proof`. -/
def verifyProof (K : Keccak) (root : H256) (key : Bytes) (proof : List Bytes) : Res (Option Bytes) :=
  match (Trie.atRoot root).get (proofDb K root proof) key with
  | .error (.panic m) => .error (.panic m)
  | .error (.err _) => .error (.err "InvalidProof")
  | .ok v => .ok v

end Verif.Pmt
