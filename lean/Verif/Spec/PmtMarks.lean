import Verif.Spec.PmtMap
import Verif.Spec.YellowPaper
/-!
What removals of keys that are proper prefixes of other keys leave behind in a trie: branches that nothing in the contents calls for. The keys at
which there may be such branches are marks, until the contents call for a branch there; the root hash is that of the Yellow Paper, with marks treated
as paths without a value.
-/

set_option autoImplicit false

namespace Verif.Pmt.Spec

/-- A map and the keys at which branches may have been left. -/
structure Marked where
  map : Map
  marks : Bytes → Prop

/-- The entries alone call for a branch at the key: two of them go on differently after it, or one ends there and one goes on. -/
def Needed (m : Map) (key : Bytes) : Prop := Parts m key ∨ ((m key).isSome ∧ ∃ k', ProperPrefix key k' ∧ (m k').isSome)

/-- A branch that the entries call for is not left over: the mark is taken away. -/
def Marked.tidy (x : Marked) : Marked where
  map := x.map
  marks := fun k => x.marks k ∧ ¬ Needed x.map k

/-- Inserting takes away the marks at which the entries now call for a branch. -/
def Marked.insert (x : Marked) (key value : Bytes) : Marked := Marked.tidy { x with map := x.map.set key (some value) }

/-- Removing a present key that is a proper prefix of another key, or of a mark, marks it, unless the entries left call for a branch there. -/
def Marked.remove (x : Marked) (key : Bytes) : Marked := Marked.tidy
  { map := x.map.set key none
    marks := fun k => x.marks k ∨ (k = key ∧ (x.map key).isSome ∧ ∃ k', ProperPrefix key k' ∧ ((x.map k').isSome ∨ x.marks k')) }

/-- The tries and the snapshots with their marks. -/
structure MState where
  maps : List Marked
  snaps : List Marked

/-- Change one trie. -/
def MState.update (s : MState) (i : Nat) (f : Marked → Marked) : MState :=
  match s.maps[i]? with
  | none => s
  | some m => { s with maps := s.maps.set i (f m) }

/-- The meaning of one call, with marks. -/
def mstep (s : MState) : Op → MState
  | .new => { s with maps := s.maps ++ [⟨fun _ => none, fun _ => False⟩] }
  | .openAt j =>
    match s.snaps[j]? with
    | none => s
    | some m => { s with maps := s.maps ++ [m] }
  | .insert i key value => s.update i (fun x => if value = [] then x else x.insert key value)
  | .remove i key => s.update i (fun x => x.remove key)
  | .commit i =>
    match s.maps[i]? with
    | none => s
    | some m => { s with snaps := s.snaps ++ [m] }
  | .proof _ _ => s

/-- The meaning of a program, with marks. -/
def mrun (ops : List Op) : MState := ops.foldl mstep ⟨[], []⟩

/-- The path is that of an entry or of a mark of the list. -/
def OnPath (m : Map) (B : List Bytes) (x : List (Fin 16)) : Prop := ∃ k, x = Yellow.nibbles k ∧ ((m k).isSome ∨ k ∈ B)

/-- Two entries or marks go on differently after the key. -/
def Forks (m : Map) (B : List Bytes) (key : Bytes) : Prop :=
  ∃ i j x y, i ≠ j ∧ OnPath m B (Yellow.nibbles key ++ i :: x) ∧ OnPath m B (Yellow.nibbles key ++ j :: y)

end Verif.Pmt.Spec

namespace Verif.Pmt.Yellow

/-- The paths that begin with the nibble, without it. -/
def belowPaths (i : Fin 16) (B : List (List (Fin 16))) : List (List (Fin 16)) :=
  B.filterMap (fun p => match p with
    | [] => none
    | a :: p => if a = i then some p else none)

/-- The node for a list of entries and a list of paths at which there is to be a branch. Without such paths it is that of the Yellow Paper. -/
def structMarked (K : Keccak) : Nat → List (List (Fin 16)) → List (List (Fin 16) × Bytes) → Item
  | 0, _, _ => .data []
  | n + 1, B, J =>
    if B = [] ∧ J.length ≤ 1 then
      match J with
      | [] => .data []
      | e :: _ => .list [.data (hp e.1 true), .data e.2]
    else
      let c := common (B ++ J.map Prod.fst)
      if c ≠ [] then
        .list [.data (hp c false), cap K (structMarked K n (B.map (fun p => p.drop c.length)) (J.map (fun e => (e.1.drop c.length, e.2))))]
      else .list ((List.finRange 16).map (fun i => cap K (structMarked K n (belowPaths i B) (below i J))) ++ [.data (here J)])

/-- The root hash of the trie with the given entries and branches at the given keys. -/
def markedRoot (K : Keccak) (B : List Bytes) (J : List (Bytes × Bytes)) : H256 :=
  K (rlp (structMarked K (((B.map nibbles).map List.length).sum + ((entries J).map (fun e => e.1.length)).sum + 1) (B.map nibbles) (entries J)))

end Verif.Pmt.Yellow
