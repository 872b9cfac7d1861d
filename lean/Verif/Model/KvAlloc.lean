import Verif.Model.Buddy
/-!
# KV store heap allocator

`libblobd-kv/src/allocator.rs:32-186`. Unlike the lite/direct allocator a request is satisfied by a
run of pages (the binary expansion of the size rounded up to the small page), not by one page.
-/
namespace Blobd

/-- libblobd-kv/src/allocator.rs:32-37 and 101-105 (the two structs together). -/
structure KvAlloc where
  base : Nat
  heap : Nat
  pages : Pages
  free : Nat → Finset Nat
  allocatedBytes : Int

namespace KvAlloc
open Buddy (setFree)

/-- libblobd-kv/src/allocator.rs:108-130 `new`; `none` is a failed alignment assertion. -/
def new (base heap : Nat) (pages : Pages) : Option KvAlloc :=
  if modPow2 base pages.lpage = 0 ∧ modPow2 heap pages.lpage = 0 then
    some {
      base := base, heap := heap, pages := pages
      free := fun p => if p = pages.lpage then Finset.range (divPow2 heap p) else ∅
      allocatedBytes := 0 }
  else none

/-- libblobd-kv/src/allocator.rs:48-50 -/
def toPageNum (base off p : Nat) : Nat := divPow2 (off - base) p

/-- libblobd-kv/src/allocator.rs:52-54 -/
def toPageDevOffset (base n p : Nat) : Nat := mulPow2 n p + base

/-- libblobd-kv/src/allocator.rs:56-63 `get_free_page_with_min_size`: first page size from `p` up to `lpage` with a
free page; its smallest page. `fuel` counts the remaining sizes. -/
def getFreePage (base : Nat) (pages : Pages) (free : Nat → Finset Nat) : Nat → Nat → Option Nat
  | 0, _ => none
  | fuel + 1, p =>
    if p ≤ pages.lpage then
      if h : (free p).Nonempty then some (toPageDevOffset base ((free p).min' h) p)
      else getFreePage base pages free fuel (p + 1)
    else none

/-- libblobd-kv/src/allocator.rs:66-76 `PagesBitmap::allocate`; `none` is a failed assertion. -/
def bmAllocate (heap : Nat) (pages : Pages) :
    Nat → (Nat → Finset Nat) → Nat → Nat → Option (Nat → Finset Nat)
  | 0, _, _, _ => none
  | fuel + 1, free, n, p =>
    if (p ≥ pages.spage ∧ p ≤ pages.lpage) ∧ n < divPow2 heap p then
      if n ∈ free p then some (setFree free p ((free p).erase n))
      else
        match bmAllocate heap pages fuel free (n / 2) (p + 1) with
        | none => none
        | some free' => some (setFree free' p (insert (n ^^^ 1) (free' p)))
    else none

/-- libblobd-kv/src/allocator.rs:79-98 `PagesBitmap::release`; `none` is a failed assertion. -/
def bmRelease (heap : Nat) (pages : Pages) :
    Nat → (Nat → Finset Nat) → Nat → Nat → Option (Nat → Finset Nat)
  | 0, _, _, _ => none
  | fuel + 1, free, n, p =>
    if (p ≥ pages.spage ∧ p ≤ pages.lpage) ∧ n < divPow2 heap p then
      if p < pages.lpage ∧ n ^^^ 1 ∈ free p then
        let free1 := setFree free p ((free p).erase (n ^^^ 1))
        if n ∈ free1 p then none
        else bmRelease heap pages fuel free1 (n / 2) (p + 1)
      else if n ∈ free p then none
      else some (setFree free p (insert n (free p)))
    else none

/-- The size actually taken: `ceil_pow2(size, spage)`, libblobd-kv/src/allocator.rs:133, 167. -/
def allocSize (pages : Pages) (size : Nat) : Nat := ceilPow2 size pages.spage

/-- libblobd-kv/src/allocator.rs:136-146, the loop of `mark_as_allocated` (`rem` loses its highest bit each turn;
`rem & !(1 << pos)` with `pos` the highest set bit). -/
def markLoop (base heap : Nat) (pages : Pages) :
    Nat → (Nat → Finset Nat) → Nat → Nat → Option (Nat → Finset Nat)
  | 0, free, _, rem => if rem = 0 then some free else none
  | fuel + 1, free, off, rem =>
    if rem = 0 then some free
    else
      let pos := Nat.log2 rem
      if pos > 0 then
        match bmAllocate heap pages (pages.lpage + 2 - pos) free (toPageNum base off pos) pos with
        | none => none
        | some free' =>
          markLoop base heap pages fuel free' (off + 1 <<< pos)
            (rem &&& ((2 ^ 64 - 1) ^^^ (1 <<< pos)))
      else none

/-- libblobd-kv/src/allocator.rs:132-152 `mark_as_allocated`; `none` is a panic. -/
def markAsAllocated (a : KvAlloc) (off size : Nat) : Option KvAlloc :=
  match markLoop a.base a.heap a.pages 64 a.free off (allocSize a.pages size) with
  | none => none
  | some free' =>
    some { a with free := free', allocatedBytes := a.allocatedBytes + allocSize a.pages size }

/-- exponent of `contsize`, libblobd-kv/src/allocator.rs:156: `max(spage_size, size.next_power_of_two())` -/
def contPow2 (pages : Pages) (size : Nat) : Nat := max pages.spage (nextPow2Exp size)

/-- libblobd-kv/src/allocator.rs:154-164 `allocate`. -/
def allocate (a : KvAlloc) (size : Nat) : Outcome OutOfSpace Nat × KvAlloc :=
  let k := contPow2 a.pages size
  if k ≤ a.pages.lpage then
    match getFreePage a.base a.pages a.free (a.pages.lpage + 1 - k) k with
    | none => (.err .outOfSpace, a)
    | some off =>
      match a.markAsAllocated off size with
      | none => (.panic, a)
      | some a' => (.ok off, a')
  else (.panic, a)

/-- libblobd-kv/src/allocator.rs:169-179, the loop of `release`; returns the final `alloc_size` variable too. -/
def releaseLoop (base heap : Nat) (pages : Pages) :
    Nat → (Nat → Finset Nat) → Nat → Nat → Option ((Nat → Finset Nat) × Nat)
  | 0, free, _, rem => if rem = 0 then some (free, rem) else none
  | fuel + 1, free, off, rem =>
    if rem = 0 then some (free, rem)
    else
      let pos := Nat.log2 rem
      if pos > 0 then
        match bmRelease heap pages (pages.lpage + 2 - pos) free (toPageNum base off pos) pos with
        | none => none
        | some free' =>
          releaseLoop base heap pages fuel free' (off + 1 <<< pos)
            (rem &&& ((2 ^ 64 - 1) ^^^ (1 <<< pos)))
      else none

/-- libblobd-kv/src/allocator.rs:166-185 `release`; `none` is a panic. The metric is decreased by the loop variable
`alloc_size` *after* the loop, i.e. by 0. -/
def release (a : KvAlloc) (off size : Nat) : Option KvAlloc :=
  match releaseLoop a.base a.heap a.pages 64 a.free off (allocSize a.pages size) with
  | none => none
  | some (free', allocSizeVar) =>
    some { a with free := free', allocatedBytes := a.allocatedBytes - allocSizeVar }

end KvAlloc
end Blobd
