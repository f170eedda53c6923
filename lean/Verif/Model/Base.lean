/-!
# Outcomes shared by all models

The C++ code can return normally, let an exception escape, or run into undefined behaviour. The last two are
distinct outcomes of the model, so that no theorem can be true because a crash was replaced by a default value.
-/

namespace Scalopus

/-- Result of running a piece of modelled C++ code.
    Models the language level outcomes of every function in /repo (no single file). -/
inductive Res (α : Type u) where
  /-- normal return -/
  | ok (a : α)
  /-- an exception of the named type leaves the function -/
  | throws (what : String)
  /-- undefined behaviour (null or end iterator dereference, access past the end, use of an indeterminate value) -/
  | ub
  /-- `std::terminate` was called (for example joining a thread that is not joinable inside a destructor) -/
  | terminate
  deriving Repr, DecidableEq

namespace Res

/-- Sequencing: stops at the first abnormal outcome. -/
def bind {α : Type u} {β : Type v} (x : Res α) (f : α → Res β) : Res β :=
  match x with
  | ok a => f a
  | throws w => throws w
  | ub => ub
  | terminate => terminate

instance : Monad Res where
  pure := ok
  bind := bind

@[simp] theorem pure_eq {α : Type u} (a : α) : (pure a : Res α) = ok a := rfl
@[simp] theorem bind_ok {α β : Type u} (a : α) (f : α → Res β) : (ok a >>= f) = f a := rfl
@[simp] theorem bind_throws {α β : Type u} (w : String) (f : α → Res β) : ((throws w : Res α) >>= f) = throws w := rfl
@[simp] theorem bind_ub {α β : Type u} (f : α → Res β) : ((ub : Res α) >>= f) = ub := rfl
@[simp] theorem bind_terminate {α β : Type u} (f : α → Res β) : ((terminate : Res α) >>= f) = terminate := rfl

/-- The run ended normally. -/
def isOk {α : Type u} : Res α → Bool
  | ok _ => true
  | _ => false

end Res
end Scalopus
