import Verif.Spec.PmtMap
/-!
Which tries of a program exist in memory only.
-/

set_option autoImplicit false

namespace Verif.Pmt.Spec

/-- One call: a trie made by `new` is unsaved until it is committed. -/
def mark (s : State) (l : List Bool) : Op → List Bool
  | .new => l ++ [true]
  | .openAt j => if j < s.snaps.length then l ++ [false] else l
  | .commit i => l.set i false
  | _ => l

/-- For every trie, whether it has been made by `new` and not been committed. -/
def unsavedFrom (s : State) (l : List Bool) : List Op → List Bool
  | [] => l
  | op :: ops => unsavedFrom (step s op) (mark s l op) ops

/-- For every trie of a program, whether it has been made by `new` and not been committed. -/
def unsaved (ops : List Op) : List Bool := unsavedFrom ⟨[], []⟩ [] ops

/-- No commit of a program failed. -/
def CommitsSucceed (ops : List Op) (rs : List Ret) : Prop := ∀ i msg, (Op.commit i, Ret.failed msg) ∉ ops.zip rs

/-- The numbers of the paths in a node are bytes, as their type in the program says. -/
def Bytewise : Node → Prop
  | .leaf key _ => ∀ d ∈ key, d < 256
  | .ext pre n => (∀ d ∈ pre, d < 256) ∧ Bytewise n
  | .branch cs _ => ∀ i, Bytewise (cs i)
  | _ => True

end Verif.Pmt.Spec
