/-!
# Outcome of a call

A C++ call either returns a value, throws a `yask_exception`, or has undefined behaviour (division
by zero, access outside an allocation, conversion of a negative offset to unsigned).  The three are
kept apart in the model, so that no theorem holds because a partial operation was made total.
-/

namespace Yask

/-- Result of a C++ call. -/
inductive Outcome (α : Type u) : Type u
  | ok (a : α)
  | throws
  | undefined
  deriving DecidableEq, Repr

namespace Outcome

/-- Sequencing: an exception or undefined behaviour ends the computation. -/
protected def bind {α β : Type u} (x : Outcome α) (f : α → Outcome β) : Outcome β :=
  match x with
  | ok a => f a
  | throws => throws
  | undefined => undefined

instance : Monad Outcome where
  pure := ok
  bind := Outcome.bind

/-- The call returned normally. -/
def isOk {α : Type u} : Outcome α → Bool
  | ok _ => true
  | _ => false

@[simp] theorem bind_ok {α β : Type u} (a : α) (f : α → Outcome β) : (ok a >>= f) = f a := rfl
@[simp] theorem bind_throws {α β : Type u} (f : α → Outcome β) :
    ((throws : Outcome α) >>= f) = throws := rfl
@[simp] theorem bind_undefined {α β : Type u} (f : α → Outcome β) :
    ((undefined : Outcome α) >>= f) = undefined := rfl
@[simp] theorem pure_eq {α : Type u} (a : α) : (pure a : Outcome α) = ok a := rfl

instance : LawfulMonad Outcome := LawfulMonad.mk' _
  (id_map := by intro α x; cases x <;> rfl)
  (pure_bind := by intros; rfl)
  (bind_assoc := by intro α β γ x f g; cases x <;> rfl)

end Outcome

end Yask
