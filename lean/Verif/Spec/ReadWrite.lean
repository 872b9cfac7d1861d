import Verif.Model.ReadWrite
/-! Specification vocabulary for object data: an object's pages in order, and the bytes it holds. -/
namespace Blobd
namespace RW

/-- The pages of an object in order, as (device offset, size exponent): its large pages, then its tail
pages. -/
def objPages (pages : Pages) (lay : ObjectLayout) (o : Obj) : List (Nat × Nat) :=
  (List.range lay.lpageCount).map (fun i => (o.lpageOff i, pages.lpage)) ++
  lay.tailPageSizes.toList.zipIdx.map (fun ei => (o.tailOff ei.2, ei.1))

/-- All bytes of a list of pages, one after another. -/
def allBytes (dev : Mem) (pl : List (Nat × Nat)) : List Byte := pl.flatMap (fun p => dev.read p.1 (2 ^ p.2))

/-- The bytes an object holds: the first `size` bytes of its pages. -/
def contents (pages : Pages) (lay : ObjectLayout) (dev : Mem) (o : Obj) : List Byte :=
  (allBytes dev (objPages pages lay o)).take o.size

/-- two pages share no byte -/
def PagesApart (p q : Nat × Nat) : Prop := p.1 + 2 ^ p.2 ≤ q.1 ∨ q.1 + 2 ^ q.2 ≤ p.1

/-- byte `x` lies in page `p` -/
def InPage (p : Nat × Nat) (x : Nat) : Prop := p.1 ≤ x ∧ x < p.1 + 2 ^ p.2

/-- a page configuration the store supports (see C01) -/
structure PagesOk (pages : Pages) : Prop where
  le : pages.spage ≤ pages.lpage
  lt32 : pages.lpage < 32
  lt24 : pages.lpage < pages.spage + 24

/-- the pages an object's part at `offset` occupies: one large page, or all tail pages -/
def partPages (pages : Pages) (lay : ObjectLayout) (o : Obj) (offset : Nat) : List (Nat × Nat) :=
  if offset / 2 ^ pages.lpage < lay.lpageCount then [(o.lpageOff (offset / 2 ^ pages.lpage), pages.lpage)]
  else lay.tailPageSizes.toList.zipIdx.map (fun ei => (o.tailOff ei.2, ei.1))

end RW
end Blobd
