/-!
Outcomes of modelled C functions.

`ok a`   : the function returns `a`.
`error`  : the compiler stops with a diagnostic (`error_tok`, `error`), or an
           `internal_error()` / failed `assert`, as documented at each use.
`ub`     : the C code would execute undefined behaviour (out-of-bounds access,
           signed overflow, ...).
-/
namespace Slimcc

inductive Outcome (α : Type) where
  | ok (a : α)
  | error
  | ub
  deriving Repr, DecidableEq

namespace Outcome

@[simp] def bind {α β : Type} : Outcome α → (α → Outcome β) → Outcome β
  | ok a, f => f a
  | error, _ => error
  | ub, _ => ub

instance : Monad Outcome where
  pure := ok
  bind := bind

@[simp] theorem bind_ok {α β : Type} (a : α) (f : α → Outcome β) : (ok a >>= f) = f a := rfl
@[simp] theorem bind_error {α β : Type} (f : α → Outcome β) : ((error : Outcome α) >>= f) = error := rfl
@[simp] theorem bind_ub {α β : Type} (f : α → Outcome β) : ((ub : Outcome α) >>= f) = ub := rfl
@[simp] theorem pure_eq {α : Type} (a : α) : (pure a : Outcome α) = ok a := rfl

end Outcome

/-- Largest value of the C type `int`. -/
def INT_MAX : Nat := 2147483647

end Slimcc
