import Verif.Jmt.Failing
/-! What a failing lookup may do to the result of a call. -/

set_option autoImplicit false

namespace Verif.Spec
open Verif.Jmt

/-- The result `y`, or an error whose text is one of `P`. -/
def OrFail {α : Type} (P : String → Prop) (x y : Res α) : Prop := x = y ∨ ∃ m, P m ∧ x = .error (.err m)

/-- `m` is the error of one of the lookups of `r`. -/
def Fails {D : Type} (r : FReader D) (m : String) : Prop :=
  (∃ nk, r.nodeError nk = some m) ∨ (∃ v k, r.valueError v k = some m) ∨ (∃ k, r.preimageError k = some m) ∨ r.rightmostError = some m

/-- `m` is the error of one of the lookups of `r`, or the error text for a missing root while the lookup of the root of version `v` fails. -/
def FailsAt {D : Type} (r : FReader D) (v : Version) (m : String) : Prop :=
  Fails r m ∨ (m = "Missing root" ∧ ∃ m', r.nodeError ⟨v, []⟩ = some m')

/-- The answers of one call of `next` after the other; the lookups of each call are made in the reader given for it. -/
def calls {D : Type} : List (FReader D) → Iter D → Res (List (Option (Res (Key × Value))))
  | [], _ => .ok []
  | r :: rs, it => do
    let (a, it') ← r.next it
    let as ← calls rs it'
    pure (a :: as)

/-- The pairs among the answers. -/
def pairs (as : List (Option (Res (Key × Value)))) : List (Key × Value) :=
  as.filterMap (fun a => match a with | some (.ok e) => some e | _ => none)

end Verif.Spec
