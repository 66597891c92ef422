import Verif.Pmt.System
/-!
What programs over tries mean: every trie is a map from byte strings to byte strings, and a commit takes a snapshot of it.
-/

set_option autoImplicit false

namespace Verif.Pmt.Spec

/-- A map from keys to values. -/
abbrev Map := Bytes → Option Bytes

/-- Change one entry. -/
def Map.set (m : Map) (k : Bytes) (v : Option Bytes) : Map := fun x => if x = k then v else m x

/-- The maps of the tries and the snapshots. -/
structure State where
  maps : List Map
  snaps : List Map

/-- Change one map. -/
def State.update (s : State) (i : Nat) (f : Map → Map) : State :=
  match s.maps[i]? with
  | none => s
  | some m => { s with maps := s.maps.set i (f m) }

/-- The meaning of one call. Inserting an empty value does nothing. -/
def step (s : State) : Op → State
  | .new => { s with maps := s.maps ++ [fun _ => none] }
  | .openAt j =>
    match s.snaps[j]? with
    | none => s
    | some m => { s with maps := s.maps ++ [m] }
  | .insert i key value => s.update i (fun m => if value = [] then m else m.set key (some value))
  | .remove i key => s.update i (fun m => m.set key none)
  | .commit i =>
    match s.maps[i]? with
    | none => s
    | some m => { s with snaps := s.snaps ++ [m] }
  | .proof _ _ => s

/-- The meaning of a program. -/
def run (ops : List Op) : State := ops.foldl step ⟨[], []⟩

/-- Keys and values are of sizes that fit into memory (keys up to `2^59` bytes, values below `2^60` bytes). -/
def Fits : Op → Prop
  | .insert _ key value => key.length ≤ 2 ^ 59 ∧ value.length < 2 ^ 60
  | _ => True

/-- `a` is a proper prefix of `b`. -/
def ProperPrefix (a b : Bytes) : Prop := ∃ x, x ≠ [] ∧ b = a ++ x

/-- Two entries go on differently after the key, in the first half of the next byte. -/
def Parts (m : Map) (key : Bytes) : Prop :=
  ∃ (x y : UInt8) (s t : Bytes), x.toNat / 16 ≠ y.toNat / 16 ∧ (m (key ++ x :: s)).isSome ∧ (m (key ++ y :: t)).isSome

/-- Removing the key leaves no branch behind that the other entries do not call for: it is absent, or a proper prefix of no key present, or other
entries part at it. -/
def Smooth (m : Map) (key : Bytes) : Prop := m key = none ∨ (∀ k, ProperPrefix key k → m k = none) ∨ Parts m key

/-- A removal that leaves no such branch. -/
def PlainRemoval (s : State) : Op → Prop
  | .remove i key => ∀ m, s.maps[i]? = some m → Smooth m key
  | _ => True

/-- All removals of a program are plain. -/
def PlainFrom : State → List Op → Prop
  | _, [] => True
  | s, op :: ops => PlainRemoval s op ∧ PlainFrom (step s op) ops

def Plain (ops : List Op) : Prop := PlainFrom ⟨[], []⟩ ops

/-- The half bytes of a key. -/
def halves (k : Bytes) : List (Fin 16) := k.flatMap (fun b => [Fin.ofNat 16 (b.toNat / 16), Fin.ofNat 16 b.toNat])

/-- The key with these half bytes has the value. -/
def Entry (m : Map) (x : List (Fin 16)) (v : Bytes) : Prop := ∃ k, halves k = x ∧ m k = some v

/-- Two entries part after these half bytes: they go on differently, or one of them ends there. -/
def Junction (m : Map) (p : List (Fin 16)) : Prop := ∃ x y a b, x.head? ≠ y.head? ∧ Entry m (p ++ x) a ∧ Entry m (p ++ y) b

/-- Two entries part after these half bytes, or before the last one of them. -/
def Spot (m : Map) (p : List (Fin 16)) : Prop := Junction m p ∨ ∃ q i, p = q ++ [i] ∧ Junction m q

/-- There are two entries, or one that is not short, whose keys begin with these half bytes. -/
def Long (m : Map) (p : List (Fin 16)) : Prop :=
  (∃ x y a b, x ≠ y ∧ Entry m (p ++ x) a ∧ Entry m (p ++ y) b) ∨ ∃ x v, Entry m (p ++ x) v ∧ 28 ≤ x.length / 2 + v.length

/-- At two spots the map goes on in the same way, with more than a short entry. -/
def Twins (m : Map) : Prop := ∃ p q, p ≠ q ∧ Spot m p ∧ Spot m q ∧ Long m p ∧ ∀ x v, Entry m (p ++ x) v ↔ Entry m (q ++ x) v

/-- A call on the first trie that a pruning database is made for: removals are of present keys that leave no branch behind, and at
commits the map does not go on in the same way at two spots. -/
def Gentle (s : State) : Op → Prop
  | .insert i _ _ => i = 0
  | .proof i _ => i = 0
  | .remove i key => i = 0 ∧ ∀ m, s.maps[0]? = some m → (m key).isSome ∧ Smooth m key
  | .commit i => i = 0 ∧ ∀ m, s.maps[0]? = some m → ¬ Twins m
  | _ => False

/-- All calls of a program are gentle. -/
def GentleFrom : State → List Op → Prop
  | _, [] => True
  | s, op :: ops => Gentle s op ∧ GentleFrom (step s op) ops

/-- A call of a program that hands a pruning database from one trie to the next: only the root of the last commit is opened, and only the trie made
last is used. Removals and commits are as in `Gentle`, and a trie that was opened is not committed with the contents of the last commit, unless some
value has 32 bytes or more. -/
def Relay (s : State) : Op → Prop
  | .new => False
  | .openAt j => j + 1 = s.snaps.length
  | .insert i _ _ => i + 1 = s.maps.length
  | .proof i _ => i = 0 ∧ s.maps.length = 1
  | .remove i key => i + 1 = s.maps.length ∧ ∀ m, s.maps[i]? = some m → (m key).isSome ∧ Smooth m key
  | .commit i => i + 1 = s.maps.length ∧ ∀ m, s.maps[i]? = some m → ¬ Twins m ∧
      (i = 0 ∨ s.snaps.getLast? ≠ some m ∨ ∃ k v, m k = some v ∧ 32 ≤ v.length)

/-- All calls of a program are of this kind. -/
def RelayFrom : State → List Op → Prop
  | _, [] => True
  | s, op :: ops => Relay s op ∧ RelayFrom (step s op) ops

/-- Two different byte strings of the list with the same hash. -/
def Collision (K : Keccak) (l : List Bytes) : Prop := ∃ a ∈ l, ∃ b ∈ l, a ≠ b ∧ K a = K b

/-- What a call may return. Of `remove` it is only said that it returns `true` if the key is present. -/
def Answers (s : State) : Op → Ret → Prop
  | .new, r => r = .done
  | .openAt j, r => r = if j < s.snaps.length then .done else .none
  | .insert i _ value, r => if i < s.maps.length then (if value = [] then ∃ msg, r = .failed msg else r = .done) else r = .none
  | .remove i key, r =>
    match s.maps[i]? with
    | none => r = .none
    | some m => ∃ b, r = .removed b ∧ ((m key).isSome → b = true)
  | .commit i, r => if i < s.maps.length then ∃ h, r = .root h else r = .none
  | .proof i _, r => if i < s.maps.length then ∃ l, r = .proof l else r = .none

/-- What the calls of a program may return. -/
def AnswersFrom : State → List Op → List Ret → Prop
  | _, [], rs => rs = []
  | s, op :: ops, rs => ∃ r t, rs = r :: t ∧ Answers s op r ∧ AnswersFrom (step s op) ops t

/-- A call that is not `remove`. -/
def NoRemove : Op → Prop
  | .remove _ _ => False
  | _ => True

/-- A call that is not `get_proof`. -/
def NoProof : Op → Prop
  | .proof _ _ => False
  | _ => True

/-- The root hash returned by `commit`. -/
def rootOf : Ret → Option H256
  | .root h => some h
  | _ => none

end Verif.Pmt.Spec
