import Mathlib.Data.Finset.Max
import Mathlib.Data.Finset.Range
import Verif.Model.Layout
/-!
# Buddy allocator of lite and direct

`libblobd-lite/src/allocator/mod.rs:57-218` and `libblobd-direct/src/allocator/mod.rs:40-198` (same
logic; direct has 32-bit page numbers, lite 64-bit). A roaring bitmap is modelled as a finite set of
page numbers. `free` is indexed by the page-size exponent itself rather than by
`pow2 - spage_size_pow2`; `bitmap()`'s index panic for exponents below the small page is the
`spage ≤ p` guard. The `allocated_bytes` metric is an `Int`, so that a subtraction that would wrap
below zero in the code shows up as a negative number.
-/

namespace Blobd

/-- libblobd-lite/src/allocator/mod.rs:24 -/
inductive OutOfSpace where
  | outOfSpace
  deriving DecidableEq, Repr

/-- libblobd-lite/src/allocator/mod.rs:35-39 -/
inductive AllocDir where
  | left
  | right
  deriving DecidableEq, Repr

/-- libblobd-lite/src/allocator/mod.rs:57-64. `base` is `base_dev_offset`. -/
structure Buddy where
  base : Nat
  dir : AllocDir
  pages : Pages
  free : Nat → Finset Nat
  allocatedBytes : Int

namespace Buddy

/-- Replace the bitmap of one page size. -/
def setFree (free : Nat → Finset Nat) (p : Nat) (s : Finset Nat) : Nat → Finset Nat :=
  fun q => if q = p then s else free q

/-- libblobd-lite/src/allocator/mod.rs:67-92 `new`; `none` is a failed `assert_eq!` on alignment, or (direct:64) a page
count at some page size that does not fit the page-number type (`pageNumBits`: 32 in direct, 64 in
lite). -/
def new (pageNumBits heapDevOffset heapSize : Nat) (pages : Pages) (dir : AllocDir) : Option Buddy :=
  if modPow2 heapDevOffset pages.lpage = 0 ∧ modPow2 heapSize pages.lpage = 0 ∧
      (List.range (pages.lpage + 1 - pages.spage)).all
        (fun i => decide (divPow2 heapSize (pages.spage + i) < 2 ^ pageNumBits)) = true then
    some {
      base := heapDevOffset
      dir := dir
      pages := pages
      free := fun p =>
        if p = pages.lpage then Finset.range (divPow2 heapSize p) else ∅
      allocatedBytes := 0 }
  else none

/-- libblobd-lite/src/allocator/mod.rs:102-104 (page_dev_offset − base underflow is a panic in debug builds; callers
pass offsets at or above `base`). -/
def toPageNum (b : Buddy) (off p : Nat) : Nat := divPow2 (off - b.base) p

/-- libblobd-lite/src/allocator/mod.rs:106-108 -/
def toPageDevOffset (b : Buddy) (n p : Nat) : Nat := mulPow2 n p + b.base

/-- libblobd-lite/src/allocator/mod.rs:110-119 `_mark_as_allocated`; `none` is the failed range assertion. `fuel`
bounds the recursion: each call goes one size up and the assertion stops it above `lpage`. -/
def markAux (pages : Pages) : Nat → (Nat → Finset Nat) → Nat → Nat → Option (Nat → Finset Nat)
  | 0, _, _, _ => none
  | fuel + 1, free, n, p =>
    if p ≥ pages.spage ∧ p ≤ pages.lpage then
      if n ∈ free p then some (setFree free p ((free p).erase n))
      else
        match markAux pages fuel free (n / 2) (p + 1) with
        | none => none
        | some free' => some (setFree free' p (insert (n ^^^ 1) (free' p)))
    else none

/-- libblobd-lite/src/allocator/mod.rs:121-133 `mark_as_allocated`; `none` is a panic. -/
def markAsAllocated (b : Buddy) (off p : Nat) : Option Buddy :=
  if modPow2 off p = 0 then
    match markAux b.pages (b.pages.lpage + 2 - p) b.free (b.toPageNum off p) p with
    | none => none
    | some free' => some { b with free := free', allocatedBytes := b.allocatedBytes + 2 ^ p }
  else none

/-- `min()` (Left) or `max()` (Right) of a bitmap: libblobd-lite/src/allocator/mod.rs:140-144 -/
def pick (dir : AllocDir) (s : Finset Nat) : Option Nat :=
  match dir with
  | .left => if h : s.Nonempty then some (s.min' h) else none
  | .right => if h : s.Nonempty then some (s.max' h) else none

/-- libblobd-lite/src/allocator/mod.rs:136-172 `_allocate`. The assertions `insert(..)` returned true / `remove(..)`
returned true are explicit. -/
def allocAux (dir : AllocDir) (pages : Pages) :
    Nat → (Nat → Finset Nat) → Nat → Outcome OutOfSpace ((Nat → Finset Nat) × Nat)
  | 0, _, _ => .panic
  | fuel + 1, free, p =>
    if p ≥ pages.spage ∧ p ≤ pages.lpage then
      match pick dir (free p) with
      | some n =>
        if n ∈ free p then .ok (setFree free p ((free p).erase n), n) else .panic
      | none =>
        if p = pages.lpage then .err .outOfSpace
        else
          match allocAux dir pages fuel free (p + 1) with
          | .err e => .err e
          | .panic => .panic
          | .ok (free', larger) =>
            match dir with
            | .left =>
              if larger * 2 + 1 ∈ free' p then .panic
              else .ok (setFree free' p (insert (larger * 2 + 1) (free' p)), larger * 2)
            | .right =>
              if larger * 2 ∈ free' p then .panic
              else .ok (setFree free' p (insert (larger * 2) (free' p)), larger * 2 + 1)
    else .panic

/-- libblobd-lite/src/allocator/mod.rs:174-179: the page-size exponent chosen for a request:
`max(spage_size_pow2, ilog2(size.next_power_of_two()))`. -/
def requestPow2 (pages : Pages) (size : Nat) : Nat := max pages.spage (nextPow2Exp size)

/-- libblobd-lite/src/allocator/mod.rs:174-184 `allocate`. On `Err` the metric has already been increased (the
`fetch_add` comes before `_allocate`); the state after an error is the second component. -/
def allocate (b : Buddy) (size : Nat) : Outcome OutOfSpace Nat × Buddy :=
  let pow2 := requestPow2 b.pages size
  if pow2 ≤ b.pages.lpage then
    let b1 := { b with allocatedBytes := b.allocatedBytes + 2 ^ pow2 }
    match allocAux b1.dir b1.pages (b1.pages.lpage + 1 - pow2) b1.free pow2 with
    | .ok (free', n) => (.ok (b1.toPageDevOffset n pow2), { b1 with free := free' })
    | .err e => (.err e, b1)
    | .panic => (.panic, b1)
  else (.panic, b)

/-- libblobd-lite/src/allocator/mod.rs:186-201 `_release`; `none` is a failed assertion. -/
def releaseAux (pages : Pages) : Nat → (Nat → Finset Nat) → Nat → Nat → Option (Nat → Finset Nat)
  | 0, _, _, _ => none
  | fuel + 1, free, n, p =>
    if p < pages.lpage ∧ n ^^^ 1 ∈ free p then
      let free1 := setFree free p ((free p).erase (n ^^^ 1))
      if n ∈ free1 p then none
      else releaseAux pages fuel free1 (n / 2) (p + 1)
    else if n ∈ free p then none
    else some (setFree free p (insert n (free p)))

/-- libblobd-lite/src/allocator/mod.rs:203-211 `release`; `none` is a panic. -/
def release (b : Buddy) (off p : Nat) : Option Buddy :=
  let n := b.toPageNum off p
  match releaseAux b.pages (b.pages.lpage + 1 - p) b.free n p with
  | none => none
  | some free' => some { b with free := free', allocatedBytes := b.allocatedBytes - 2 ^ p }

/-- lite libblobd-lite/src/allocator/mod.rs:213-217 `release_all` over a list of `(offset, size_pow2)`. -/
def releaseAll (b : Buddy) : List (Nat × Nat) → Option Buddy
  | [] => some b
  | (off, p) :: rest =>
    match b.release off p with
    | none => none
    | some b' => b'.releaseAll rest

end Buddy
end Blobd
