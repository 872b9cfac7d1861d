/-! # Specification vocabulary: weak fairness of infinite executions -/
set_option autoImplicit false
namespace Blobd

/-- what is possible from some moment on without interruption is done at some later moment -/
def Fair {α : Type} (σ : Nat → α) (can : α → Prop) (act : α → α → Prop) : Prop :=
  ∀ n, (∀ m, n ≤ m → can (σ m)) → ∃ m, n ≤ m ∧ act (σ m) (σ (m + 1))

end Blobd
