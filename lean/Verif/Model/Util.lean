import Verif.Model.Base
/-!
# `util.rs`: arithmetic with powers of two

`libblobd-lite/src/util.rs:19-57` (the copies in `libblobd-direct/src/util.rs` and
`libblobd-kv/src/util.rs` are identical). `u64` is modelled by `Nat`; no property here depends on
wrap-around (device offsets are below 2^48).
-/

namespace Blobd

/-- libblobd-lite/src/util.rs:19-21 `(n / d) + ((n % d != 0) as u64)` -/
def divCeil (n d : Nat) : Nat := n / d + (if n % d ≠ 0 then 1 else 0)

/-- libblobd-lite/src/util.rs:23-25 `(val >> pow2, val & ((1 << pow2) - 1))` -/
def divModPow2 (val pow2 : Nat) : Nat × Nat := (val >>> pow2, val &&& ((1 <<< pow2) - 1))

/-- libblobd-lite/src/util.rs:27-30 -/
def divPow2 (val pow2 : Nat) : Nat := (divModPow2 val pow2).1

/-- libblobd-lite/src/util.rs:32-35 -/
def modPow2 (val pow2 : Nat) : Nat := (divModPow2 val pow2).2

/-- libblobd-lite/src/util.rs:37-39 `val << pow2` -/
def mulPow2 (val pow2 : Nat) : Nat := val <<< pow2

/-- libblobd-lite/src/util.rs:42-48 -/
def ceilPow2 (val pow2 : Nat) : Nat :=
  let dm := divModPow2 val pow2
  let div := if dm.2 ≠ 0 then dm.1 + 1 else dm.1
  div <<< pow2

/-- libblobd-lite/src/util.rs:51-54 -/
def floorPow2 (val pow2 : Nat) : Nat := (divModPow2 val pow2).1 <<< pow2

/-- libblobd-lite/src/util.rs:56-59 -/
def isMultipleOfPow2 (val pow2 : Nat) : Bool := (divModPow2 val pow2).2 == 0

/-- Rust `u64::next_power_of_two`: smallest power of two ≥ n (1 for n = 0), written by its exponent:
`ilog2(next_power_of_two n)`. Panics in debug / wraps in release above 2^63, which no caller reaches. -/
def nextPow2Exp (n : Nat) : Nat := if n ≤ 1 then 0 else Nat.log2 (n - 1) + 1

end Blobd
