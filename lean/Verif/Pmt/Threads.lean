import Verif.Pmt.System
/-!
Threads that share one database. `MemoryDB` (`/repo/pmt/src/db.rs:64-68`) is shared by `Arc`, and every access takes its lock and releases it again
(`db.rs:91-109`); between two accesses of a call, other threads may have theirs. So a call is modelled once more, as the accesses to the database
that it makes, where what comes after a `get` depends on what was found. The functions are those of `Pmt/Trie`.
-/

set_option autoImplicit false

namespace Verif.Pmt

/-- A call as the accesses to the database that it makes. -/
inductive Call (α : Type) where
  | ret (a : α)
  | get (h : H256) (k : Option Bytes → Call α)
  | insert (h : H256) (b : Bytes) (k : Call α)
  | remove (h : H256) (k : Call α)

namespace Call
variable {α β : Type}

/-- Go on with another call. -/
def bind : Call α → (α → Call β) → Call β
  | .ret a, f => f a
  | .get h k, f => .get h (fun x => (k x).bind f)
  | .insert h b k, f => .insert h b (k.bind f)
  | .remove h k, f => .remove h (k.bind f)

/-- Go on after a success (`?`). -/
def thenOk (c : Call (Res α)) (f : α → Call (Res β)) : Call (Res β) :=
  c.bind (fun r => match r with
    | .error e => .ret (.error e)
    | .ok a => f a)

/-- Go on after a success, with the hash nodes passed (`Out.andThen`). -/
def thenOut (c : Call (Out α)) (f : α → Call (Out β)) : Call (Out β) :=
  c.bind (fun x => match x.2 with
    | .error e => .ret (x.1, .error e)
    | .ok a => (f a).bind (fun y => .ret (x.1 ++ y.1, y.2)))

/-- Change the result. -/
def mapOut (f : α → β) (c : Call (Out α)) : Call (Out β) := c.bind (fun x => .ret (x.map f))

/-- The accesses of a call one after the other on a database. -/
def run : Call α → Db → Db × α
  | .ret a, db => (db, a)
  | .get h k, db => (k (db.get h)).run db
  | .insert h b k, db => k.run (db.insert h b)
  | .remove h k, db => k.run (db.remove h)

/-- `db.rs:30-41` `insert_batch`. -/
def insertAll : List (H256 × Bytes) → Call α → Call α
  | [], c => c
  | e :: l, c => .insert e.1 e.2 (insertAll l c)

/-- `db.rs:44-49` `remove_batch`. -/
def removeAll : List H256 → Call α → Call α
  | [], c => c
  | h :: l, c => .remove h (removeAll l c)

/-- `inner.rs:828-840` `recover_from_db`. -/
def recover (h : H256) : Call (Res (Option Node)) :=
  .get h (fun x => .ret (match x with
    | none => .ok none
    | some b => do
      let n ← decodeNode b
      pure (some n)))

/-- Replacing a hash node by the node in the database, which must exist. -/
def fetch (h : H256) : Call (Res Node) :=
  (recover h).bind (fun r => .ret (match r with
    | .error e => .error e
    | .ok none => missing
    | .ok (some n) => .ok n))

/-- The same, for updates. -/
def hop (h : H256) : Call (Out Node) := (fetch h).bind (fun r => .ret ([h], r))

/-- `inner.rs:327-373` `get_at` and `get_extension_node`; `hop` treats hash nodes. -/
def getStep (hop : H256 → Nibbles → Call (Res (Option Bytes))) : Node → Nibbles → Call (Res (Option Bytes))
  | .empty, _ => .ret (.ok none)
  | .leaf key value, p => .ret (.ok (if key = p then some value else none))
  | .branch children value, p =>
    match p with
    | [] => .ret (.ok value)
    | x :: t =>
      if x = 16 then .ret (.ok value)
      else if h : x < 16 then getStep hop (children ⟨x, h⟩) t
      else .ret (.error (.panic "index out of bounds"))
  | .ext pre node, p => if Nibbles.commonPrefix p pre = pre.length then getStep hop node (p.drop pre.length) else .ret (.ok none)
  | .hash h, p => hop h p

/-- `inner.rs:327-395` `get_at`. -/
def getAt : (fuel : Nat) → Node → Nibbles → Call (Res (Option Bytes))
  | 0 => getStep (fun _ _ => .ret (.error (.panic "endless recursion")))
  | fuel + 1 => getStep (fun h p => (fetch h).thenOk (fun n => getAt fuel n p))

/-- `inner.rs:397-510` `insert_at`; `hop` treats hash nodes. -/
def insertStep (hop : H256 → Nibbles → Call (Out Node)) (value : Bytes) : Node → Nibbles → Call (Out Node)
  | .empty, p => .ret (.of (.ok (.leaf p value)))
  | .leaf key old, p => .ret (.of (insertLeaf key old p value))
  | .branch children v, p =>
    match p with
    | [] => .ret (.of (.error (.panic "index out of bounds")))
    | x :: t =>
      if x = 16 then .ret (.of (.ok (.branch children (some value))))
      else if h : x < 16 then
        (insertStep hop value (children ⟨x, h⟩) t).mapOut (fun n => .branch (fun j => if j = ⟨x, h⟩ then n else children j) v)
      else .ret (.of (.error (.panic "index out of bounds")))
  | .ext pre sub, p =>
    let m := Nibbles.commonPrefix p pre
    if m = 0 then .ret (.of (insertSplit pre sub p value))
    else if m = pre.length then (insertStep hop value sub (p.drop m)).mapOut (fun n => .ext pre n)
    else .ret (.of ((insertSplit (pre.drop m) sub (p.drop m) value).map (fun n => .ext (pre.take m) n)))
  | .hash h, p => hop h p

/-- `inner.rs:397-510` `insert_at`. -/
def insertAt (value : Bytes) : (fuel : Nat) → Node → Nibbles → Call (Out Node)
  | 0 => insertStep (fun h _ => .ret ([h], .error (.panic "endless recursion"))) value
  | fuel + 1 => insertStep (fun h p => (hop h).thenOut (fun n => insertAt value fuel n p)) value

/-- `degenerate` (`inner.rs:622-656`) on an extension; `hop` treats hash nodes. -/
def degenerateExt (hop : H256 → Nibbles → Call (Out Node)) : Nibbles → Node → Call (Out Node)
  | pre, .ext pre' sub => degenerateExt hop (pre ++ pre') sub
  | pre, .leaf key value => .ret (.of (.ok (.leaf (pre ++ key) value)))
  | pre, .hash h => hop h pre
  | pre, n => .ret (.of (.ok (.ext pre n)))

/-- `degenerate` on an extension. -/
def degenerateExtAt : (fuel : Nat) → Nibbles → Node → Call (Out Node)
  | 0 => degenerateExt (fun h _ => .ret ([h], .error (.panic "endless recursion")))
  | fuel + 1 => degenerateExt (fun h pre => (hop h).thenOut (fun n => degenerateExtAt fuel pre n))

/-- `inner.rs:592-660` `degenerate`. -/
def degenerate (fuel : Nat) (n : Node) : Call (Out Node) :=
  match n with
  | .branch children value =>
    match usedIndexes children, value with
    | [], some v => .ret (.of (.ok (.leaf [16] v)))
    | [i], none => degenerateExtAt fuel [i.val] (children i)
    | _, _ => .ret (.of (.ok n))
  | .ext pre sub => degenerateExtAt fuel pre sub
  | _ => .ret (.of (.ok n))

/-- `inner.rs:577-581` the end of `delete_at`. -/
def afterDelete (fuel : Nat) (x : Node × Bool) : Call (Out (Node × Bool)) :=
  if x.2 then (degenerate fuel x.1).mapOut (fun n => (n, true)) else .ret (.of (.ok x))

/-- `inner.rs:512-586` `delete_at`; `hop` treats hash nodes. -/
def deleteStep (fuel : Nat) (hop : H256 → Nibbles → Call (Out (Node × Bool))) : Node → Nibbles → Call (Out (Node × Bool))
  | .empty, _ => .ret (.of (.ok (.empty, false)))
  | .leaf key value, p => if key = p then .ret (.of (.ok (.empty, true))) else .ret (.of (.ok (.leaf key value, false)))
  | .branch children value, p =>
    match p with
    | [] => .ret (.of (.error (.panic "index out of bounds")))
    | x :: t =>
      if x = 16 then .ret (.of (.ok (.branch children none, true)))
      else if h : x < 16 then
        (deleteStep fuel hop (children ⟨x, h⟩) t).thenOut (fun r =>
          afterDelete fuel (if r.2 then .branch (fun j => if j = ⟨x, h⟩ then r.1 else children j) value else .branch children value, r.2))
      else .ret (.of (.error (.panic "index out of bounds")))
  | .ext pre sub, p =>
    if Nibbles.commonPrefix p pre = pre.length then
      (deleteStep fuel hop sub (p.drop pre.length)).thenOut (fun r => afterDelete fuel (if r.2 then .ext pre r.1 else .ext pre sub, r.2))
    else .ret (.of (.ok (.ext pre sub, false)))
  | .hash h, p => (hop h p).thenOut (afterDelete fuel)

/-- `inner.rs:512-586` `delete_at`; `d` replacements are allowed in `degenerate`. -/
def deleteAt (d : Nat) : (fuel : Nat) → Node → Nibbles → Call (Out (Node × Bool))
  | 0 => deleteStep d (fun h _ => .ret ([h], .error (.panic "endless recursion")))
  | fuel + 1 => deleteStep d (fun h p => (hop h).thenOut (fun n => deleteAt d fuel n p))

/-- `inner.rs:669-715` `get_path_at`; `hop` treats hash nodes. -/
def pathStep (hop : H256 → Nibbles → Call (Res (List Node))) : Node → Nibbles → Call (Res (List Node))
  | .empty, _ => .ret (.ok [])
  | .leaf _ _, _ => .ret (.ok [])
  | .branch children _, p =>
    match p with
    | [] => .ret (.ok [])
    | x :: t =>
      if x = 16 then .ret (.ok [])
      else if h : x < 16 then pathStep hop (children ⟨x, h⟩) t
      else .ret (.error (.panic "index out of bounds"))
  | .ext pre sub, p => if Nibbles.commonPrefix p pre = pre.length then pathStep hop sub (p.drop pre.length) else .ret (.ok [])
  | .hash h, p => hop h p

/-- `inner.rs:669-715` `get_path_at`. -/
def pathAt : (fuel : Nat) → Node → Nibbles → Call (Res (List Node))
  | 0 => pathStep (fun _ _ => .ret (.error (.panic "endless recursion")))
  | fuel + 1 => pathStep (fun h p => (fetch h).thenOk (fun n => (pathAt fuel n p).thenOk (fun rest => .ret (.ok (rest ++ [n])))))

end Call

/-- One call of a thread. -/
inductive Ask where
  | op (o : Op)
  | get (i : Nat) (key : Bytes)
  | contains (i : Nat) (key : Bytes)

/-- What it returns. -/
inductive Ans where
  | ret (r : Ret)
  | value (v : Option Bytes)
  | found (b : Bool)

/-- The calls of one thread alone, with `Pmt/System`. -/
def Sys.ask (K : Keccak) (s : Sys) : Ask → Res (Sys × Ans)
  | .op o =>
    match s.step K o with
    | .error e => .error e
    | .ok (s, r) => .ok (s, .ret r)
  | .get i key =>
    match s.tries[i]? with
    | .none => .ok (s, .ret .none)
    | .some t =>
      match t.get s.db key with
      | .error (.panic m) => .error (.panic m)
      | .error (.err m) => .ok (s, .ret (.failed m))
      | .ok v => .ok (s, .value v)
  | .contains i key =>
    match s.tries[i]? with
    | .none => .ok (s, .ret .none)
    | .some t =>
      match t.contains s.db key with
      | .error (.panic m) => .error (.panic m)
      | .error (.err m) => .ok (s, .ret (.failed m))
      | .ok b => .ok (s, .found b)

/-- A program of one thread alone. -/
def Sys.asks (K : Keccak) (s : Sys) : List Ask → Res (Sys × List Ans)
  | [] => .ok (s, [])
  | a :: as =>
    match s.ask K a with
    | .error e => .error e
    | .ok (s, r) =>
      match asks K s as with
      | .error e => .error e
      | .ok (s, rs) => .ok (s, r :: rs)

/-- What belongs to one thread: its tries, and the root hashes it knows. -/
structure Own where
  tries : List Trie
  roots : List H256

namespace Own

/-- Replace a trie. -/
def put (o : Own) (i : Nat) (t : Trie) : Own := { o with tries := o.tries.set i t }

/-- A call that ended. -/
def done (o : Own) (r : Ans) : Res (Own × Ans) := .ok (o, r)

/-- `inner.rs:145-177` `insert`; `len` is the size of the database when the call begins and serves as in `hops`. -/
def insert (o : Own) (len : Nat) (i : Nat) (t : Trie) (key value : Bytes) : Call (Res (Own × Ans)) :=
  if value.isEmpty then .ret ((o.put i t).done (.ret (.failed "value provided for key is empty")))
  else
    (Call.insertAt value (((Trie.path key).length + 1) * (len + 1)) t.root (Trie.path key)).bind (fun r =>
      let t := { t with passingKeys := r.1 ++ t.passingKeys }
      .ret (match r.2 with
        | .error (.panic m) => .error (.panic m)
        | .error (.err m) => (o.put i t).done (.ret (.failed m))
        | .ok n => (o.put i { t with root := n }).done (.ret .done)))

/-- `inner.rs:180-206` `remove`. -/
def remove (o : Own) (len : Nat) (i : Nat) (t : Trie) (key : Bytes) : Call (Res (Own × Ans)) :=
  (Call.deleteAt (len + 1) (((Trie.path key).length + 1) * (len + 1)) t.root (Trie.path key)).bind (fun r =>
    let t := { t with passingKeys := r.1 ++ t.passingKeys }
    .ret (match r.2 with
      | .error (.panic m) => .error (.panic m)
      | .error (.err m) => (o.put i t).done (.ret (.failed m))
      | .ok (n, b) => (o.put i { t with root := n }).done (.ret (.removed b))))

/-- `inner.rs:279-320` `commit`. -/
def commit (K : Keccak) (o : Own) (i : Nat) (t : Trie) : Call (Res (Own × Ans)) :=
  match t.writeRoot K with
  | .error e => .ret (.error e)
  | .ok (t, h) =>
    .insertAll t.cache (.removeAll (t.passingKeys.filter (fun k => !(t.genKeys.contains k))) ((Call.recover h).bind (fun r =>
      let t := { t with cache := [], rootHash := h, genKeys := [], passingKeys := [] }
      .ret (match r with
        | .error (.panic m) => .error (.panic m)
        | .error (.err m) => (o.put i t).done (.ret (.failed m))
        | .ok none => .error (.panic "The root that was just created is missing")
        | .ok (some n) => Own.done ⟨o.tries.set i { t with root := n }, o.roots ++ [h]⟩ (.ret (.root h))))))

/-- `inner.rs:224-252` `get_proof`. -/
def proof (K : Keccak) (o : Own) (len : Nat) (i : Nat) (t : Trie) (key : Bytes) : Call (Res (Own × Ans)) :=
  (Call.pathAt (((Trie.path key).length + 1) * (len + 1)) t.root (Trie.path key)).bind (fun r => .ret (match r with
    | .error (.panic m) => .error (.panic m)
    | .error (.err m) => (o.put i t).done (.ret (.failed m))
    | .ok l =>
      let l := match t.root with
        | .empty => l
        | _ => l ++ [t.root]
      match Trie.encodeAll K l.reverse with
      | .error e => .error e
      | .ok (bs, w) => (o.put i (t.addWritten w)).done (.ret (.proof bs))))

/-- `inner.rs:116-136` `get`. -/
def get (o : Own) (len : Nat) (t : Trie) (key : Bytes) : Call (Res (Own × Ans)) :=
  (Call.getAt (((Trie.path key).length + 1) * (len + 1)) t.root (Trie.path key)).bind (fun r => .ret (match r with
    | .error (.panic m) => .error (.panic m)
    | .error (.err m) => o.done (.ret (.failed m))
    | .ok v => o.done (.value v)))

/-- `inner.rs:139-142` `contains`. -/
def contains (o : Own) (len : Nat) (t : Trie) (key : Bytes) : Call (Res (Own × Ans)) :=
  (Call.getAt (((Trie.path key).length + 1) * (len + 1)) t.root (Trie.path key)).bind (fun r => .ret (match r with
    | .error (.panic m) => .error (.panic m)
    | .error (.err m) => o.done (.ret (.failed m))
    | .ok v => o.done (.found v.isSome)))

/-- One call. -/
def ask (K : Keccak) (o : Own) (len : Nat) : Ask → Call (Res (Own × Ans))
  | .op .new => .ret (Own.done { o with tries := o.tries ++ [Trie.new K] } (.ret .done))
  | .op (.openAt j) =>
    match o.roots[j]? with
    | .none => .ret (o.done (.ret .none))
    | .some h => .ret (Own.done { o with tries := o.tries ++ [Trie.atRoot h] } (.ret .done))
  | .op (.insert i key value) =>
    match o.tries[i]? with
    | .none => .ret (o.done (.ret .none))
    | .some t => o.insert len i t key value
  | .op (.remove i key) =>
    match o.tries[i]? with
    | .none => .ret (o.done (.ret .none))
    | .some t => o.remove len i t key
  | .op (.commit i) =>
    match o.tries[i]? with
    | .none => .ret (o.done (.ret .none))
    | .some t => o.commit K i t
  | .op (.proof i key) =>
    match o.tries[i]? with
    | .none => .ret (o.done (.ret .none))
    | .some t => o.proof K len i t key
  | .get i key =>
    match o.tries[i]? with
    | .none => .ret (o.done (.ret .none))
    | .some t => o.get len t key
  | .contains i key =>
    match o.tries[i]? with
    | .none => .ret (o.done (.ret .none))
    | .some t => o.contains len t key

end Own

/-- A thread: what belongs to it, the call it is in, the calls to come, and what the calls before have returned. -/
structure Thread where
  own : Own
  now : Option (Call (Res (Own × Ans)))
  todo : List Ask
  returned : List Ans

/-- One step of a thread: it begins a call, makes one access to the database, or ends a call. A thread that panicked makes no more steps. -/
def Thread.step (K : Keccak) (db : Db) (th : Thread) : Db × Thread :=
  match th.now, th.todo with
  | none, [] => (db, th)
  | none, a :: todo => (db, { th with now := some (th.own.ask K db.len a), todo := todo })
  | some (.ret (.error _)), _ => (db, th)
  | some (.ret (.ok (own, r))), _ => (db, { th with own := own, now := none, returned := th.returned ++ [r] })
  | some (.get h k), _ => (db, { th with now := some (k (db.get h)) })
  | some (.insert h b k), _ => (db.insert h b, { th with now := some k })
  | some (.remove h k), _ => (db.remove h, { th with now := some k })

/-- A database and the threads that share it. -/
structure Pool where
  db : Db
  threads : List Thread

namespace Pool

/-- After a program of one thread, each of several threads gets clones of the tries (`InnerTrie` is `Clone`, `inner.rs:25`, and the clones share the
database), the root hashes, and a program of its own. -/
def start (s : Sys) (progs : List (List Ask)) : Pool := ⟨s.db, progs.map (fun p => ⟨⟨s.tries, s.roots⟩, none, p, []⟩)⟩

/-- One step of the thread number `t`. -/
def step (K : Keccak) (p : Pool) (t : Nat) : Pool :=
  match p.threads[t]? with
  | none => p
  | some th => ⟨(th.step K p.db).1, p.threads.set t (th.step K p.db).2⟩

/-- The steps of the threads in some order. -/
def run (K : Keccak) (p : Pool) (schedule : List Nat) : Pool := schedule.foldl (step K) p

/-- The pool after the first `n` steps of an endless schedule. -/
def after (K : Keccak) (p : Pool) (schedule : Nat → Nat) (n : Nat) : Pool := p.run K ((List.range n).map schedule)

end Pool

/-- `db.rs:115-117` `len` and `119-121` `is_empty` take the lock with `try_read().unwrap()`: `writing` says that another thread holds it for writing. -/
def Db.lenNow (db : Db) (writing : Bool) : Res Nat :=
  if writing then .error (.panic "called `Option::unwrap()` on a `None` value") else .ok db.len

/-- `db.rs:123-133` `values`, without the values: the number of entries returned. -/
def Db.valuesNow (db : Db) (writing : Bool) : Nat := if writing then 0 else db.len

end Verif.Pmt
