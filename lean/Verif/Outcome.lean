/-!
# Outcomes of C++ operations

`ok a`    the call returns normally with value `a`;
`fatal`   the program stops with a diagnostic (`fatal`, a failed `assert`, or a
          thrown exception that the caller is meant to see);
`ub`      the C++ standard gives the execution no meaning (out-of-range access,
          signed overflow, division by zero, ...);
`nofuel`  only in fuel-indexed models of loops: the loop has not finished within
          the number of iterations given.
-/

namespace Verif

inductive Outcome (α : Type _) where
  | ok (a : α)
  | fatal
  | ub
  | nofuel
  deriving Repr, DecidableEq

namespace Outcome

variable {α β : Type _}

def bind (o : Outcome α) (f : α → Outcome β) : Outcome β :=
  match o with
  | ok a => f a
  | fatal => fatal
  | ub => ub
  | nofuel => nofuel

def map (f : α → β) (o : Outcome α) : Outcome β :=
  match o with
  | ok a => ok (f a)
  | fatal => fatal
  | ub => ub
  | nofuel => nofuel

instance : Monad Outcome where
  pure := ok
  bind := bind

@[simp] theorem bind_ok (a : α) (f : α → Outcome β) : (ok a).bind f = f a := rfl
@[simp] theorem bind_fatal (f : α → Outcome β) : (fatal : Outcome α).bind f = fatal := rfl
@[simp] theorem bind_ub (f : α → Outcome β) : (ub : Outcome α).bind f = ub := rfl
@[simp] theorem bind_nofuel (f : α → Outcome β) : (nofuel : Outcome α).bind f = nofuel := rfl
@[simp] theorem map_ok (a : α) (f : α → β) : (ok a).map f = ok (f a) := rfl
@[simp] theorem map_fatal (f : α → β) : (fatal : Outcome α).map f = fatal := rfl
@[simp] theorem map_ub (f : α → β) : (ub : Outcome α).map f = ub := rfl
@[simp] theorem map_nofuel (f : α → β) : (nofuel : Outcome α).map f = nofuel := rfl

theorem bind_eq_ok {o : Outcome α} {f : α → Outcome β} {b : β} :
    o.bind f = ok b ↔ ∃ a, o = ok a ∧ f a = ok b := by
  cases o <;> simp [bind]

theorem map_eq_ok {o : Outcome α} {f : α → β} {b : β} :
    o.map f = ok b ↔ ∃ a, o = ok a ∧ f a = b := by
  cases o <;> simp [map]

end Outcome
end Verif
