import Verif.Spec.Range
/-!
Specification of what a receiver takes from chunks of key/value pairs, and of the sibling list a range proof stands for.
-/

set_option autoImplicit false

namespace Verif.Spec
open Verif.Jmt
variable {D : Type}

/-- The pairs of `chunk` before the first key that is not greater than the one before it (`last`, at the beginning). -/
def rising : Option Key → List (Key × Value) → List (Key × Value)
  | _, [] => []
  | none, e :: t => e :: rising (some e.1) t
  | some k, e :: t => if k < e.1 then e :: rising (some e.1) t else []

/-- All pairs taken after one more chunk. -/
def receive (P chunk : List (Key × Value)) : List (Key × Value) := P ++ rising (P.getLast?.map Prod.fst) chunk

/-- All pairs taken from a list of chunks. -/
def received (chunks : List (List (Key × Value))) : List (Key × Value) := chunks.foldl receive []

/-- An interrupted transfer of `L`: every session gives some chunks, split off the front of what is left, and is dropped. The next one
begins again with the last pair of the session before it. `rest` is left after the given sessions. -/
def Feeds : List (Key × Value) → List (List (List (Key × Value))) → List (Key × Value) → Prop
  | L, [], rest => rest = L
  | L, c :: t, rest => c.flatten <+: L ∧ Feeds (L.drop (c.flatten.length - 1)) t rest

/-- Value hashes of pairs. -/
def hashed (H : Hasher D) (P : List (Key × Value)) : List (Key × D) := P.map (fun e => (e.1, H.value e.2))

/-- `sibs` (topmost first) is put together from the siblings on the left of the path of `k`, computed from the entries `E`,
and the siblings `right` on its right (lowest first). -/
structure Assembled (H : Hasher D) (E : List (Key × D)) (k : Key) (right sibs : List D) : Prop where
  left : ∀ i, i < sibs.length → k.bit i = true → sibs[i]? = some (sibling H k E i)
  right : right = (((List.range sibs.length).filter (fun i => !k.bit i)).filterMap (fun i => sibs[i]?)).reverse

end Verif.Spec
