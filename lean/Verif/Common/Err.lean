/-!
Error values of the model.

`Err.err` stands for a Rust `Err(_)` (anyhow error), `Err.panic` for a Rust panic
(failed `assert!`, `expect`, `unwrap`, `unreachable!`, index out of range, integer underflow).
-/

set_option autoImplicit false

namespace Verif

inductive Err where
  | err (msg : String)
  | panic (msg : String)
deriving DecidableEq, Repr

/-- Result of a modelled Rust function. -/
abbrev Res (α : Type) := Except Err α

/-- Rust `ensure!`. -/
def ensure (b : Bool) (msg : String) : Res Unit := if b then .ok () else .error (.err msg)

/-- Rust `assert!`. -/
def assert (b : Bool) (msg : String) : Res Unit := if b then .ok () else .error (.panic msg)

@[simp] theorem ensure_true (m : String) : ensure true m = .ok () := rfl
@[simp] theorem ensure_false (m : String) : ensure false m = .error (.err m) := rfl
@[simp] theorem assert_true (m : String) : assert true m = .ok () := rfl
@[simp] theorem assert_false (m : String) : assert false m = .error (.panic m) := rfl

@[simp] theorem Res.ok_bind {α β : Type} (a : α) (f : α → Res β) : (Except.ok a >>= f : Res β) = f a := rfl
@[simp] theorem Res.error_bind {α β : Type} (e : Err) (f : α → Res β) :
    (Except.error e >>= f : Res β) = .error e := rfl
theorem Res.bind_assoc {α β γ : Type} (x : Res α) (f : α → Res β) (g : β → Res γ) :
    ((x >>= f) >>= g) = (x >>= fun a => f a >>= g) := by cases x <;> rfl
@[simp] theorem Res.pure_eq {α : Type} (a : α) : (pure a : Res α) = .ok a := rfl

end Verif
