/-!
# Outcomes of C++ calls

A C++ call either returns normally, terminates the process through a failed `CHECK` /
`LOG(FATAL)` (`abort`), or has undefined behaviour (`ub`: null dereference, out-of-range
access, erasing an end iterator, ...). Keeping the last two apart from normal results
means no theorem can be true only because the model invented a default value.
-/

namespace Theia

/-- Result of a modelled call. -/
inductive Outcome (α : Type u) where
  | ok (a : α)
  | abort
  | ub
  deriving DecidableEq, Repr

namespace Outcome

protected def bind {α : Type u} {β : Type v} : Outcome α → (α → Outcome β) → Outcome β
  | ok a, f => f a
  | abort, _ => abort
  | ub, _ => ub

instance : Monad Outcome where
  pure := ok
  bind := Outcome.bind

@[simp] theorem pure_eq {α : Type u} (a : α) : (pure a : Outcome α) = ok a := rfl
@[simp] theorem ok_bind {α β : Type u} (a : α) (f : α → Outcome β) : (ok a >>= f) = f a := rfl
@[simp] theorem abort_bind {α β : Type u} (f : α → Outcome β) :
    ((abort : Outcome α) >>= f) = abort := rfl
@[simp] theorem ub_bind {α β : Type u} (f : α → Outcome β) : ((ub : Outcome α) >>= f) = ub := rfl

theorem bind_eq_ok {α β : Type u} {x : Outcome α} {f : α → Outcome β} {b : β} :
    (x >>= f) = ok b ↔ ∃ a, x = ok a ∧ f a = ok b := by
  cases x <;> simp

/-- The call returned normally. -/
def isOk {α : Type u} : Outcome α → Bool
  | ok _ => true
  | _ => false

/-- A failed `CHECK` aborts. -/
def check (c : Bool) : Outcome Unit := if c then ok () else abort

@[simp] theorem check_true : check true = ok () := rfl
@[simp] theorem check_false : check false = abort := rfl

theorem check_eq_ok {c : Bool} : check c = ok () ↔ c = true := by
  cases c <;> simp [check]

end Outcome
end Theia
