import Verif.Jmt.History
/-!
`write_tree_update_batch` (`/repo/jmt/src/mock.rs:217-225`) and `purge_stale_nodes` (`mock.rs:227-246`) cut into the single changes they make
to the store, so that the states in between can be spoken of: what is found after a failure, a panic or a crash, or by another thread between
two changes (the marks are written one by one, each under its own lock, `mock.rs:212`).
-/

set_option autoImplicit false

namespace Verif.Jmt
variable {D : Type}

/-- One change made by `write_tree_update_batch`. -/
inductive Write (D : Type) where
  /-- `mock.rs:136-139`, one pass of the node loop -/
  | node (nk : NodeKey) (n : Node D)
  /-- `mock.rs:142-147`, one pass of the value loop -/
  | value (v : Version) (k : Key) (x : Option Value)
  /-- `mock.rs:211-215`, one call of `put_stale_node_index` -/
  | mark (i : StaleNodeIndex)

/-- One change applied to the store. -/
def Store.apply (s : Store D) : Write D → Res (Store D)
  | .node nk n => do
    if !s.allowOverwrite then assert ((s.nodes.get nk).isNone) "assertion failed: replaced == None"
    pure { s with nodes := s.nodes.set nk n }
  | .value v k x => do
    let vh ← Store.putValueHistory s.valueHistory v k x
    pure { s with valueHistory := vh }
  | .mark i => do
    ensure (!s.staleNodes.contains i) "Duplicated retire log."
    pure { s with staleNodes := s.staleNodes.insert i }

/-- Changes applied one after the other, up to the first that fails. -/
def Store.applyAll (s : Store D) : List (Write D) → Res (Store D)
  | [] => .ok s
  | w :: ws => do
    let s ← s.apply w
    s.applyAll ws

/-- The store when the changes end, because all are made or one of them fails. A node whose key is taken is replaced before the assertion fails
(`mock.rs:136-139`); the lock is one of `parking_lot` and stays usable after a panic. -/
def Store.attempt (s : Store D) : List (Write D) → Store D
  | [] => s
  | w :: ws =>
    match s.apply w with
    | .ok s => s.attempt ws
    | .error _ =>
      match w with
      | .node nk n => { s with nodes := s.nodes.set nk n }
      | _ => s

/-- The changes of `write_tree_update_batch(b)`, in an order in which they may be made: nodes, then values in the order of their keys, then marks. The
order of `BTreeMap` and `BTreeSet` among nodes and among marks is not modelled; any order is allowed. -/
def WritesOf (b : TreeUpdateBatch D) (ws : List (Write D)) : Prop :=
  ∃ (ns : List (NodeKey × Node D)) (ms : List StaleNodeIndex), ns.Perm b.nodeBatch.nodes.entries ∧ ms.Perm b.staleNodeIndexBatch.elems ∧
    ws = ns.map (fun e => .node e.1 e.2) ++ b.nodeBatch.values.entries.map (fun e => .value e.1.1 e.1.2 e.2) ++ ms.map .mark

/-- `s'` is what `write_tree_update_batch(b)` has made of `s` at some moment. -/
def PartWritten (s : Store D) (b : TreeUpdateBatch D) (s' : Store D) : Prop :=
  ∃ ws ws', WritesOf b (ws ++ ws') ∧ s.applyAll ws = .ok s'

/-- What repeated attempts to write the batch make of a store that allows overwriting (`mock.rs:48`), each attempt cut short at some point. -/
inductive Attempts (s : Store D) (b : TreeUpdateBatch D) : Store D → Prop
  | none : Attempts s b { s with allowOverwrite := true }
  | again {s1 s2 : Store D} {ws ws' : List (Write D)} (h : Attempts s b s1) (hw : WritesOf b (ws ++ ws')) (ha : s1.applyAll ws = .ok s2) :
      Attempts s b s2

/-- `s'` is what `purge_stale_nodes(m)` has made of `s` at some moment; the order of the marks is any order. -/
def PartPurged (s : Store D) (m : Version) (s' : Store D) : Prop :=
  ∃ l l' : List StaleNodeIndex, (l ++ l').Perm (s.staleNodes.elems.filter (fun i => decide (i.staleSinceVersion ≤ m))) ∧ Store.purgeLoop l s = .ok s'

end Verif.Jmt
