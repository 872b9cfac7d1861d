/-!
# Shared result type

Rust code has three ways to end: a value, an error value (`Err(e)`), or a panic
(`assert!`, `unwrap`, out-of-bounds index, failed integer conversion such as off64's `u32!`).
-/

namespace Blobd

/-- Outcome of a Rust call: `Ok(v)`, `Err(e)`, or a panic (thread abort). -/
inductive Outcome (ε : Type) (α : Type) where
  | ok (v : α)
  | err (e : ε)
  | panic
  deriving DecidableEq, Repr

namespace Outcome

def bind {ε α β : Type} (x : Outcome ε α) (f : α → Outcome ε β) : Outcome ε β :=
  match x with
  | .ok v => f v
  | .err e => .err e
  | .panic => .panic

instance {ε : Type} : Monad (Outcome ε) where
  pure := .ok
  bind := Outcome.bind

@[simp] theorem bind_ok {ε α β : Type} (v : α) (f : α → Outcome ε β) :
    (Outcome.ok v >>= f) = f v := rfl
@[simp] theorem bind_err {ε α β : Type} (e : ε) (f : α → Outcome ε β) :
    ((Outcome.err e : Outcome ε α) >>= f) = .err e := rfl
@[simp] theorem bind_panic {ε α β : Type} (f : α → Outcome ε β) :
    ((Outcome.panic : Outcome ε α) >>= f) = .panic := rfl
@[simp] theorem pure_eq {ε α : Type} (v : α) : (pure v : Outcome ε α) = .ok v := rfl

theorem bind_eq_ok {ε α β : Type} {x : Outcome ε α} {f : α → Outcome ε β} {b : β} :
    (x >>= f) = .ok b ↔ ∃ a, x = .ok a ∧ f a = .ok b := by
  cases x <;> simp

end Outcome

/-- The error type of code that has no error values. -/
inductive NoErr

end Blobd
