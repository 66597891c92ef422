import Verif.Pmt.System
/-!
What calls on tries may cost: the number of database entries that a call depends on, and the number of nodes that a commit may write and remove.
-/

set_option autoImplicit false

namespace Verif.Pmt.Spec

/-- What is computed from the database is determined by at most `N` of its entries: it is the same on every other database on which these are as here. -/
def ReadsAtMost {α : Type} (N : Nat) (db : Db) (f : Db → α) : Prop :=
  ∃ L : List H256, L.length ≤ N ∧ ∀ db' : Db, (∀ h ∈ L, db'.get h = db.get h) → f db' = f db

/-- What the calls on a trie since its last commit allow the next one: nodes that have changed, nodes that proofs have written before, and nodes that have
been read to be changed. -/
structure Meter where
  changed : Nat
  kept : Nat
  passed : Nat

/-- Nothing has been done since the last commit. -/
def Meter.zero : Meter := ⟨0, 0, 0⟩

/-- The effect of a call on the meter of the `i`-th trie. -/
def Meter.step (i : Nat) (m : Meter) : Op → Meter
  | .insert j k v => if j = i ∧ v ≠ [] then ⟨m.changed + (2 * k.length + 4), m.kept, m.passed + (2 * k.length + 1)⟩ else m
  | .remove j k => if j = i then ⟨m.changed + (4 * k.length + 2), m.kept, m.passed + (6 * k.length + 3)⟩ else m
  | .proof j _ => if j = i then ⟨m.changed, m.kept + m.changed, m.passed⟩ else m
  | .commit j => if j = i then Meter.zero else m
  | _ => m

/-- The meter of the `i`-th trie after a program. -/
def meter (i : Nat) (ops : List Op) : Meter := ops.foldl (Meter.step i) Meter.zero

end Verif.Pmt.Spec
