import Verif.Model.Util
/-!
# Object layout and the packed tail-page descriptor

`libblobd-lite/src/allocator/layout.rs:16-118`; the same code is in
`libblobd-direct/src/object/tail.rs:13-91` and `libblobd-direct/src/object/mod.rs:39-62`.
-/

namespace Blobd

/-- libblobd-lite/src/allocator/layout.rs:16 `pub struct TailPageSizes(u64, u64)` -/
structure TailPageSizes where
  s0 : BitVec 64
  s1 : BitVec 64
  deriving DecidableEq, Repr

namespace TailPageSizes

/-- libblobd-lite/src/allocator/layout.rs:19-21 -/
def new : TailPageSizes := ⟨0, 0⟩

/-- libblobd-lite/src/allocator/layout.rs:23-25 `u8!((shard & (0b1111 << 60)) >> 60)` -/
def shardGetLen (shard : BitVec 64) : Nat := ((shard &&& (0b1111#64 <<< 60)) >>> 60).toNat

/-- libblobd-lite/src/allocator/layout.rs:27-31; `none` is the failed `assert!(len <= 12)` -/
def shardSetLen (shard : BitVec 64) (len : Nat) : Option (BitVec 64) :=
  if len ≤ 12 then
    some ((shard &&& ~~~(0b1111#64 <<< 60)) ||| (BitVec.ofNat 64 len <<< 60))
  else none

/-- libblobd-lite/src/allocator/layout.rs:33-37; `none` is the failed `assert!(idx < 12)` -/
def shardGet (shard : BitVec 64) (idx : Nat) : Option Nat :=
  if idx < 12 then
    let shift := idx * 5
    some ((shard &&& (0b11111#64 <<< shift)) >>> shift).toNat
  else none

/-- libblobd-lite/src/allocator/layout.rs:39-44; `none` is the failed `assert!(val < (1 << 5))` -/
def shardSet (shard : BitVec 64) (idx val : Nat) : Option (BitVec 64) :=
  if val < 1 <<< 5 then
    let shift := idx * 5
    some ((shard &&& ~~~(0b11111#64 <<< shift)) ||| (BitVec.ofNat 64 val <<< shift))
  else none

/-- libblobd-lite/src/allocator/layout.rs:46-48 -/
def len (t : TailPageSizes) : Nat := shardGetLen t.s0 + shardGetLen t.s1

/-- libblobd-lite/src/allocator/layout.rs:50-59. The inner `assert!(idx < 12)` of `shard_get` is the `none` of `shardGet`; since
`get` itself returns an `Option`, a panic there is not distinguished from `None` here (lemma
`get_eq` shows it is never reached for descriptors built by `push`). -/
def get (t : TailPageSizes) (idx : Nat) : Option Nat :=
  if idx ≥ t.len then none
  else if idx < 12 then shardGet t.s0 idx
  else shardGet t.s1 (idx - 12)

/-- libblobd-lite/src/allocator/layout.rs:61-70; `none` is a failed assertion (panic) -/
def push (t : TailPageSizes) (pow2 : Nat) : Option TailPageSizes :=
  let idx := t.len
  if idx < 12 then do
    let a ← shardSet t.s0 idx pow2
    let a ← shardSetLen a (idx + 1)
    some { t with s0 := a }
  else do
    let a ← shardSet t.s1 (idx - 12) pow2
    let a ← shardSetLen a (idx - 12 + 1)
    some { t with s1 := a }

/-- libblobd-lite/src/allocator/layout.rs:83-94, the iterator: starts at index 0, yields `(idx, get(idx))`, stops at the first
`None`. `fuel` bounds the recursion; `toIter` passes more than any descriptor can hold (a length
field is 4 bits, so `len ≤ 30`). -/
def iterFrom (t : TailPageSizes) : Nat → Nat → List (Nat × Nat)
  | 0, _ => []
  | fuel + 1, idx =>
    match t.get idx with
    | none => []
    | some e => (idx, e) :: iterFrom t fuel (idx + 1)

/-- libblobd-lite/src/allocator/layout.rs:73-80 `into_iter` -/
def toIter (t : TailPageSizes) : List (Nat × Nat) := t.iterFrom 31 0

/-- The page-size exponents in order (values of the iterator). -/
def toList (t : TailPageSizes) : List Nat := t.toIter.map Prod.snd

end TailPageSizes

/-- lite libblobd-lite/src/allocator/pages.rs:4-8, direct pages.rs: the two configured page-size exponents. -/
structure Pages where
  spage : Nat
  lpage : Nat
  deriving DecidableEq, Repr

/-- libblobd-lite/src/allocator/layout.rs:96-99 -/
structure ObjectLayout where
  lpageCount : Nat
  tailPageSizes : TailPageSizes
  deriving DecidableEq, Repr

/-- libblobd-lite/src/allocator/layout.rs:105-113, the loop: `pos = rem.leading_zeros(); if pos == 64 break; pow2 = 63 - pos;
push(pow2); rem &= !(1 << pow2)`. `rem` is a `u64` below 2^64; `63 - leading_zeros` is `Nat.log2`.
`fuel` bounds the recursion; each iteration clears one of 64 bits, so 64 iterations suffice. -/
def layoutLoop : Nat → Nat → TailPageSizes → Option TailPageSizes
  | 0, _, t => some t
  | fuel + 1, rem, t =>
    if rem = 0 then some t
    else
      let pow2 := Nat.log2 rem
      match t.push pow2 with
      | none => none
      | some t' => layoutLoop fuel (rem &&& ((2 ^ 64 - 1) ^^^ (1 <<< pow2))) t'

/-- libblobd-lite/src/allocator/layout.rs:101-118 `calc_object_layout`; `none` is a panic (failed assertion in `push`). The
direct version (libblobd-direct/src/object/mod.rs:44-62) additionally panics if `lpage_count` exceeds `u32`; that is
`calcObjectLayoutDirect`. -/
def calcObjectLayout (pages : Pages) (objectSize : Nat) : Option ObjectLayout :=
  let dm := divModPow2 objectSize pages.lpage
  let rem := ceilPow2 dm.2 pages.spage
  match layoutLoop 64 rem TailPageSizes.new with
  | none => none
  | some t => some { lpageCount := dm.1, tailPageSizes := t }

/-- direct libblobd-direct/src/object/mod.rs:44-62: as above with `u32!(lpage_count)`. -/
def calcObjectLayoutDirect (pages : Pages) (objectSize : Nat) : Option ObjectLayout :=
  if (divModPow2 objectSize pages.lpage).1 < 2 ^ 32 then calcObjectLayout pages objectSize else none

end Blobd
