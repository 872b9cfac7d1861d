import Verif.Spec.Wire
import Verif.Spec.Plotter
set_option autoImplicit false
/-! # Specification: what a request on the wire says -/
namespace Blobd
namespace Http

open MP (Bytes)

/-- the query gives this parameter exactly once, and this is its value -/
def Gives (w : Wire) (name v : List Char) : Prop :=
  ∃ l1 b l2, params w.query = l1 ++ (ascii name, b) :: l2 ∧ text b = v ∧ (∀ p ∈ l1, p.1 ≠ ascii name) ∧ ∀ p ∈ l2, p.1 ≠ ascii name

/-- the query does not have this parameter -/
def Omits (w : Wire) (name : List Char) : Prop := ∀ p ∈ params w.query, p.1 ≠ ascii name

/-- decimal digits, possibly after a plus sign, of a number below 2^64 -/
def IsU64 (s : List Char) (n : Nat) : Prop :=
  ∃ d, (s = d ∨ s = '+' :: d) ∧ d ≠ [] ∧ (∀ c ∈ d, c.isDigit = true) ∧ Plot.decVal d = n ∧ n < 2 ^ 64

/-- the authentication token: empty unless given -/
def TokenIs (w : Wire) (t : List Char) : Prop := Gives w pT t ∨ (Omits w pT ∧ t = [])

/-- the request `w` on the wire asks for `r` -/
def Says (w : Wire) : Req → Prop
  | .batch t body => w.method = .post ∧ w.path = [47] ∧ TokenIs w t ∧ body = w.body
  | .commit k up rs t => w.method = .put ∧ w.path ≠ [47] ∧ k = w.path ∧ Gives w pUpload up ∧ Gives w pReceipts rs ∧ TokenIs w t
  | .create k n t => w.method = .post ∧ w.path ≠ [47] ∧ k = w.path ∧ (∃ z, Gives w pSize z ∧ IsU64 z n) ∧ TokenIs w t
  | .delete k t => w.method = .delete ∧ w.path ≠ [47] ∧ k = w.path ∧ TokenIs w t
  | .inspect k t => w.method = .head ∧ w.path ≠ [47] ∧ k = w.path ∧ TokenIs w t
  | .read k range t => w.method = .get ∧ w.path ≠ [47] ∧ k = w.path ∧ range = w.range ∧ TokenIs w t
  | .write k off len up t chunks => w.method = .patch ∧ w.path ≠ [47] ∧ k = w.path ∧ w.len = some len ∧
      (∃ z, Gives w pOffset z ∧ IsU64 z off) ∧ Gives w pUpload up ∧ TokenIs w t ∧ chunks = [.ok w.body]

/-- methods that exist at a path -/
def HasMethod (w : Wire) : Prop :=
  if w.path = [47] then w.method = .post else w.method ≠ .options ∧ w.method ≠ .other

end Http
end Blobd
