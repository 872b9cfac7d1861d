import Mathlib.Algebra.BigOperators.Group.Finset.Basic
import Mathlib.Order.Interval.Finset.Nat
import Verif.Model.Buddy
/-!
# Specification vocabulary for allocators

A page is a pair `(offset, pow2)` of device offset and size exponent: it occupies the bytes
`offset ≤ x < offset + 2^pow2`.
-/
namespace Blobd
namespace Spec

/-- The two pages share no byte. -/
def PageDisj (a b : Nat × Nat) : Prop := a.1 + 2 ^ a.2 ≤ b.1 ∨ b.1 + 2 ^ b.2 ≤ a.1

/-- The page is size-aligned and lies inside the heap `[base, base + heap)`. -/
def PageIn (base heap : Nat) (a : Nat × Nat) : Prop :=
  2 ^ a.2 ∣ a.1 ∧ base ≤ a.1 ∧ a.1 + 2 ^ a.2 ≤ base + heap

/-- There is room for a page of size `2^p`: an aligned place in the heap that no live page touches. -/
def Room (base heap : Nat) (live : List (Nat × Nat)) (p : Nat) : Prop :=
  ∃ off, PageIn base heap (off, p) ∧ ∀ a ∈ live, PageDisj (off, p) a

/-- Bytes held by live pages. -/
def liveBytes (live : List (Nat × Nat)) : Nat := (live.map (fun a => 2 ^ a.2)).sum

/-- What the allocator is configured with. -/
structure HeapCfg where
  pageNumBits : Nat
  base : Nat
  heap : Nat
  pages : Pages
  dir : AllocDir

/-- Every history of the allocator: `Reach c b live` says that some sequence of calls starting from
`Allocator::new` ended in allocator `b`, with `live` the pages handed out (or marked at startup) and
not yet released. -/
inductive Reach (c : HeapCfg) : Buddy → List (Nat × Nat) → Prop
  | init {b} : Buddy.new c.pageNumBits c.base c.heap c.pages c.dir = some b → Reach c b []
  | alloc {b live size off b'} : Reach c b live → b.allocate size = (.ok off, b') →
      Reach c b' ((off, Buddy.requestPow2 c.pages size) :: live)
  | full {b live size b'} : Reach c b live → b.allocate size = (.err .outOfSpace, b') →
      Reach c b' live
  | release {b live pg b'} : Reach c b live → pg ∈ live → b.release pg.1 pg.2 = some b' →
      Reach c b' (live.erase pg)
  | mark {b live off p b'} : Reach c b live → c.base ≤ off → b.markAsAllocated off p = some b' →
      Reach c b' ((off, p) :: live)

/-- Two allocators have the same free-space map (one bitmap per page size). -/
def SameFree (a b : Buddy) : Prop :=
  ∀ p, a.pages.spage ≤ p → p ≤ a.pages.lpage → a.free p = b.free p

/-- Mark a list of pages one by one (startup). -/
def markAll (b : Buddy) : List (Nat × Nat) → Option Buddy
  | [] => some b
  | (off, p) :: rest =>
    match b.markAsAllocated off p with
    | none => none
    | some b' => markAll b' rest

/-- Bytes in the pages of a free-space map. -/
def freeBytesOf (pages : Pages) (free : Nat → Finset Nat) : Nat :=
  ∑ p ∈ Finset.Icc pages.spage pages.lpage, (free p).card * 2 ^ p

/-- Bytes in free pages. -/
def freeBytes (b : Buddy) : Nat := freeBytesOf b.pages b.free

end Spec
end Blobd
