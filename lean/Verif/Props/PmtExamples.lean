import Verif.Proofs.PmtProof
/-! A hash function and programs for the examples that accompany the theorems about the Patricia trie. -/

set_option autoImplicit false

namespace Verif.Props.PmtEx
open Verif Verif.Pmt

/-- The number in 32 bytes. -/
def digest (n : Nat) : H256 := ⟨(List.range 32).map (fun i => UInt8.ofNat (n / 256 ^ i)), by simp⟩

/-- A polynomial hash. -/
def exK : Keccak := fun b => digest (b.foldl (fun a x => (a * 257 + x.toNat + 1) % 2 ^ 256) 7)

/-- The state after a program on a new database, and what the calls returned. -/
def result (light : Bool) (ops : List Op) : Sys × List Ret := ((Sys.new light).run exK ops).toOption.getD (Sys.new light, [])

theorem result_eq {light : Bool} {ops : List Op} (h : ((Sys.new light).run exK ops).toOption.isSome = true) :
    (Sys.new light).run exK ops = .ok ((result light ops).1, (result light ops).2) := by
  unfold result
  generalize (Sys.new light).run exK ops = x at *
  cases x with
  | error => cases h
  | ok => rfl

/-- A trie handle of the state after a program. -/
def handle (light : Bool) (ops : List Op) (i : Nat) : Trie := ((result light ops).1.tries[i]?).getD (Trie.new exK)

theorem handle_eq {light : Bool} {ops : List Op} {i : Nat} (h : ((result light ops).1.tries[i]?).isSome = true) :
    (result light ops).1.tries[i]? = some (handle light ops i) := by
  unfold handle
  generalize (result light ops).1.tries[i]? = x at *
  cases x with
  | none => cases h
  | some => rfl

/-- The map of a trie after a program. -/
def mapOf (ops : List Op) (i : Nat) : Spec.Map := ((Spec.run ops).maps[i]?).getD (fun _ => none)

theorem mapOf_eq {ops : List Op} {i : Nat} (h : i < (Spec.run ops).maps.length) : (Spec.run ops).maps[i]? = some (mapOf ops i) := by
  unfold mapOf
  rw [List.getElem?_eq_getElem h]
  rfl

/-- A long value, so that leaves are stored by hash. -/
def long (a : UInt8) : Bytes := List.replicate 33 a

/-- Two tries over one database: keys with common beginnings, a key that is a prefix of others, long and short values, two commits, a view of
the first commit that is changed and committed again. -/
def exOps : List Op :=
  [.new, .insert 0 [0x12, 0x34] (long 1), .insert 0 [0x12, 0x35] [7], .insert 0 [0x12] [9], .insert 0 [0x92, 0x55] (long 2), .commit 0,
   .insert 0 [0x12, 0x34] [1], .remove 0 [0x12, 0x35], .remove 0 [0x92], .commit 0,
   .openAt 0, .insert 1 [] [5], .insert 1 [0x92, 0x55, 0x01] [6], .commit 1, .insert 1 [0x33] []]

theorem exOps_run : (Sys.new false).run exK exOps = .ok ((result false exOps).1, (result false exOps).2) := result_eq (by decide +kernel)

theorem exOps_fits : ∀ op ∈ exOps, Spec.Fits op := by
  intro op hop
  simp only [exOps, List.mem_cons, List.not_mem_nil, or_false] at hop
  rcases hop with rfl | rfl | rfl | rfl | rfl | rfl | rfl | rfl | rfl | rfl | rfl | rfl | rfl | rfl | rfl <;>
    simp [Spec.Fits, long]

instance (K : Keccak) (l : List Bytes) : Decidable (Spec.Collision K l) := by unfold Spec.Collision; infer_instance

theorem exOps_noCollision : ¬ Spec.Collision exK (result false exOps).1.db.log := by decide +kernel

example : (result false exOps).1.tries.length = 2 := by decide +kernel
example : (result false exOps).1.roots.length = 3 := by decide +kernel

end Verif.Props.PmtEx
