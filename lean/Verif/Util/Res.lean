/-!
# Outcomes

Outcome of a modelled C++ operation: a normal return, a C++ exception, or a violated precondition
(failed `assert`, out-of-bounds access, use of an uninitialised value; i.e. undefined behaviour).
-/

namespace Heyoka

/-- Outcome of a modelled C++ operation. -/
inductive Res (α : Type _) where
  /-- normal return -/
  | ok (a : α)
  /-- a C++ exception leaves the function -/
  | throw
  /-- a precondition is violated: undefined behaviour -/
  | ub
deriving Repr, DecidableEq

namespace Res

/-- Sequencing of outcomes. -/
def bind {α β : Type _} (x : Res α) (f : α → Res β) : Res β :=
  match x with
  | ok a => f a
  | throw => throw
  | ub => ub

@[simp] theorem bind_ok {α β : Type _} (a : α) (f : α → Res β) : (ok a).bind f = f a := rfl
@[simp] theorem bind_throw {α β : Type _} (f : α → Res β) : (throw : Res α).bind f = throw := rfl
@[simp] theorem bind_ub {α β : Type _} (f : α → Res β) : (ub : Res α).bind f = ub := rfl

end Res

end Heyoka
