import Verif.Model.Regions
/-! # What "disjoint" and "inside" mean for byte ranges -/
namespace Blobd
namespace Spec
open Regions

/-- byte `x` is in the region -/
def RHas (r : Region) (x : Nat) : Prop := r.off ≤ x ∧ x < r.off + r.len

/-- no byte in common -/
def RDisj (a b : Region) : Prop := ∀ x, ¬ (RHas a x ∧ RHas b x)

/-- every byte of `a` is a byte of `b` -/
def RSub (a b : Region) : Prop := ∀ x, RHas a x → RHas b x

end Spec
end Blobd
