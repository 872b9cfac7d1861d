import Verif.Spec.LiteStore
import Verif.Spec.Alloc
/-!
# Specification vocabulary: heap space of the lite store
-/
set_option autoImplicit false
namespace Blobd
namespace Lite

/-- the pages of the object whose record is at `off`: those of its contents, and the record's own -/
def pagesAt (c : LCfg) (s : LSt) (off : Nat) : List (Nat × Nat) :=
  dataAt c s.j.dev off ++ [(off, rdMetaPow2 s.j.dev off)]

/-- exactly the pages of the listed objects are taken: there is a list of the places of all listed objects, each once,
such that a page of any size can be allocated if and only if the heap has an aligned place for it that touches none of
their pages, and the free bytes are the heap's less theirs -/
def SpaceExact (c : LCfg) (s : LSt) : Prop :=
  ∃ offs : List Nat, offs.Nodup ∧ (∀ off, off ∈ offs ↔ Listed c s off) ∧
    (∀ p, c.pages.spage ≤ p → p ≤ c.pages.lpage →
      ((∃ off a', s.alloc.allocate (2 ^ p) = (.ok off, a')) ↔
        Spec.Room c.heap.base c.heap.heap (offs.flatMap (pagesAt c s)) p)) ∧
    Spec.freeBytes s.alloc + Spec.liveBytes (offs.flatMap (pagesAt c s)) = c.heap.heap

/-- the pages a call has allocated for an object not listed yet, or is going to release -/
def PC.pages (c : LCfg) : PC → List (Nat × Nat)
  | .createWrite o off => dataAt c (Mem.write (fun _ => 0) off o.encode) off ++ [(off, o.metaSizePow2)]
  | .createLink o off => dataAt c (Mem.write (fun _ => 0) off o.encode) off ++ [(off, o.metaSizePow2)]
  | .wait _ free _ _ => free
  | _ => []

/-- the page belongs to a listed object, to one a running call is creating, or to one a running call has unlinked -/
def UsedPage (c : LCfg) (s : LSt) (q : Nat × Nat) : Prop :=
  (∃ off, Listed c s off ∧ q ∈ pagesAt c s off) ∨ ∃ i t, s.thr i = some t ∧ q ∈ t.pc.pages c

/-- what can happen from a state on -/
inductive Steps (c : LCfg) : LSt → LSt → Prop
  | refl (s : LSt) : Steps c s s
  | step {s s' s'' : LSt} : Steps c s s' → Step c s' s'' → Steps c s s''

end Lite
end Blobd
