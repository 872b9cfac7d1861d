import Verif.Model.KvAlloc
/-! # Specification vocabulary for the KV heap -/
namespace Blobd
namespace Spec

/-- A value region `(offset, size)` occupies `size` bytes rounded up to the small page size. -/
def regionEnd (pages : Pages) (r : Nat × Nat) : Nat := r.1 + ceilPow2 r.2 pages.spage

/-- byte `x` belongs to region `r` -/
def InRegion (pages : Pages) (r : Nat × Nat) (x : Nat) : Prop := r.1 ≤ x ∧ x < regionEnd pages r

/-- no common byte -/
def RegionDisj (pages : Pages) (a b : Nat × Nat) : Prop :=
  ∀ x, ¬ (InRegion pages a x ∧ InRegion pages b x)

structure KvHeapCfg where
  base : Nat
  heap : Nat
  pages : Pages

/-- Every history of the KV heap allocator; `live` are the regions allocated (or marked at startup)
and not released. -/
inductive KvReach (c : KvHeapCfg) : KvAlloc → List (Nat × Nat) → Prop
  | init {a} : KvAlloc.new c.base c.heap c.pages = some a → KvReach c a []
  | alloc {a live size off a'} : KvReach c a live → a.allocate size = (.ok off, a') →
      KvReach c a' ((off, size) :: live)
  | full {a live size a'} : KvReach c a live → a.allocate size = (.err .outOfSpace, a') →
      KvReach c a' live
  | release {a live r a'} : KvReach c a live → r ∈ live → a.release r.1 r.2 = some a' →
      KvReach c a' (live.erase r)

/-- same free-space map -/
def KvSameFree (a b : KvAlloc) : Prop :=
  ∀ p, a.pages.spage ≤ p → p ≤ a.pages.lpage → a.free p = b.free p

/-- mark a list of regions one after another (startup) -/
def kvMarkAll (a : KvAlloc) : List (Nat × Nat) → Option KvAlloc
  | [] => some a
  | (off, size) :: rest =>
    match a.markAsAllocated off size with
    | none => none
    | some a' => kvMarkAll a' rest

/-- release a list of regions one after another -/
def kvReleaseAll (a : KvAlloc) : List (Nat × Nat) → Option KvAlloc
  | [] => some a
  | (off, size) :: rest =>
    match a.release off size with
    | none => none
    | some a' => kvReleaseAll a' rest

/-- bytes of live regions -/
def kvLiveBytes (pages : Pages) (live : List (Nat × Nat)) : Nat :=
  (live.map (fun r => ceilPow2 r.2 pages.spage)).sum

end Spec
end Blobd
