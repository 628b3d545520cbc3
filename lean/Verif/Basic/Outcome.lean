import Mathlib.Tactic.Common

/-!
# Outcomes of modelled C++ calls
-/

namespace TAT

/-- What a modelled C++ call does: return a value, throw an exception (`TAT_error` throws
`std::runtime_error`, mpi.hpp 336-338; `std::map::at` throws `std::out_of_range`), or run into
undefined behaviour. -/
inductive Outcome (α : Type) where
  | ok (a : α)
  | error (message : String)
  | ub
deriving DecidableEq, Repr

namespace Outcome

/-- Sequencing: an exception or undefined behaviour ends the call. -/
def bind {α β : Type} (x : Outcome α) (f : α → Outcome β) : Outcome β :=
  match x with
  | ok a => f a
  | error m => error m
  | ub => ub

instance : Monad Outcome where
  pure := ok
  bind := bind

@[simp] theorem ok_bind {α β : Type} (a : α) (f : α → Outcome β) : (ok a >>= f) = f a := rfl
@[simp] theorem error_bind {α β : Type} (m : String) (f : α → Outcome β) :
    ((error m : Outcome α) >>= f) = error m := rfl
@[simp] theorem ub_bind {α β : Type} (f : α → Outcome β) : ((ub : Outcome α) >>= f) = ub := rfl
@[simp] theorem pure_eq {α : Type} (a : α) : (pure a : Outcome α) = ok a := rfl

instance : LawfulMonad Outcome := LawfulMonad.mk'
  (id_map := by intro α x; cases x <;> rfl)
  (pure_bind := by intros; rfl)
  (bind_assoc := by intro α β γ x f g; cases x <;> rfl)

/-- The value of a successful call. -/
def toOption {α : Type} : Outcome α → Option α
  | ok a => some a
  | _ => none

/-- the call returned normally -/
def isOk {α : Type} : Outcome α → Bool
  | ok _ => true
  | _ => false

/-- the call threw an exception -/
def isError {α : Type} : Outcome α → Bool
  | error _ => true
  | _ => false

end Outcome

end TAT
