import Verif.Model.Overlay
import Verif.Spec.Journal
/-! Specification vocabulary for the overlay. -/
namespace Blobd
namespace Overlay
open Journal

variable {K V : Type} [DecidableEq K]

/-- the last value given to `k` in a sequence of updates -/
def lastVal (l : List (K × V)) (k : K) : Option V := (l.reverse.find? (fun e => e.1 = k)).map (·.2)

/-- Fields occupy pairwise disjoint, non-empty cells outside the journal area, and decoding inverts
encoding. -/
structure CellsOk (c : JCfg) (cs : Cells K V) : Prop where
  width : ∀ k, 0 < cs.width k
  enc_len : ∀ k v, (cs.enc k v).length = cs.width k
  dec_enc : ∀ k v, cs.dec k (cs.enc k v) = v
  disj : ∀ k k', k ≠ k' → cs.addr k + cs.width k ≤ cs.addr k' ∨ cs.addr k' + cs.width k' ≤ cs.addr k
  outside : ∀ k x, cs.addr k ≤ x → x < cs.addr k + cs.width k → Outside c x

end Overlay
end Blobd
