import Verif.Model.LiteStore
set_option autoImplicit false
/-!
# Lite store: opening an existing device

libblobd-lite/src/lib.rs: `ObjectsLoader::load_object_list`, `BlobdLoader::load_buckets`, `BlobdLoader::load`.

The buckets are traversed concurrently (libblobd-lite/src/lib.rs:261, 256 at a time): here one step is one inode of any of them, in any
order. The allocator is locked while the pages of one inode are marked (libblobd-lite/src/lib.rs:124-132). Not modelled: metrics and
log messages; `1u64 << pow2` of a damaged record (libblobd-lite/src/lib.rs:123), which only feeds a metric; a page offset below the heap
(`to_page_num` underflows) is treated as the first page.
-/
namespace Blobd
namespace Lite

/-- libblobd-lite/src/lib.rs:124-132: the pages `load_object_list` marks for the inode at `cur`: those of the object's contents -/
def loadPages (c : LCfg) (m : Mem) (cur : Nat) (lay : ObjectLayout) : List (Nat × Nat) :=
  (List.range lay.lpageCount).map (fun i => (rdLpage m cur i, c.pages.lpage)) ++
    lay.tailPageSizes.toIter.map (fun ie => ((rdTailPage c.pages m cur ie.1).getD 0, ie.2))

/-- libblobd-lite/src/lib.rs:110-133, one round of the loop: the allocator afterwards and the next inode; `none` is a panic
(`from_u8(..).unwrap()` of a state that is neither 1 nor 2, or a page that cannot be marked) -/
def loadInode (c : LCfg) (m : Mem) (cur : Nat) (a : Buddy) : Option (Buddy × Nat) :=
  match calcObjectLayout c.pages (rdSize m cur) with
  | none => none
  | some lay =>
    if rdState m cur = stIncomplete ∨ rdState m cur = stCommitted then
      ((loadPages c m cur lay).foldlM (fun (a : Buddy) (p : Nat × Nat) => a.markAsAllocated p.1 p.2) a).map (fun a' => (a', rdNext m cur))
    else none

/-- libblobd-lite/src/lib.rs:244-253: where the traversals start -/
def loadHeads (c : LCfg) (m : Mem) : List Nat :=
  ((List.range (2 ^ c.bits)).map (rdHeadAtStartup m c.bkDev)).filter (fun h => h ≠ 0)

/-- libblobd-lite/src/lib.rs:260-277: one inode of one of the traversals; the cursor of each traversal and the allocator -/
inductive LoadStep (c : LCfg) (m : Mem) : List Nat × Buddy → List Nat × Buddy → Prop
  | inode {pre post : List Nat} {cur nx : Nat} {a a' : Buddy} (h0 : cur ≠ 0) (h : loadInode c m cur a = some (a', nx)) :
      LoadStep c m (pre ++ cur :: post, a) (pre ++ nx :: post, a')

inductive LoadRun (c : LCfg) (m : Mem) : List Nat × Buddy → List Nat × Buddy → Prop
  | refl {x : List Nat × Buddy} : LoadRun c m x x
  | step {x y z : List Nat × Buddy} : LoadRun c m x y → LoadStep c m y z → LoadRun c m x z

/-- libblobd-lite/src/lib.rs:281-330: `load` gets to the end, with this allocator: every traversal has reached the end of its list. (A panic
of one of them is a panic of `load`, libblobd-lite/src/lib.rs:279.) -/
def Opens (c : LCfg) (m : Mem) (a : Buddy) : Prop :=
  ∃ a0 cs, Buddy.new c.heap.pageNumBits c.heap.base c.heap.heap c.heap.pages c.heap.dir = some a0 ∧
    LoadRun c m (loadHeads c m, a0) (cs, a) ∧ ∀ x ∈ cs, x = 0

/-- the store after the process ended in state `s` and was started again: the device as it was, journal recovery (which
does nothing, libblobd-lite/src/journal/real.rs:214-216), an empty overlay, no calls, and the allocator `a` that `load` computed. What happened
before stays on record. -/
def reopened (c : LCfg) (s : LSt) (a : Buddy) : LSt :=
  { j := { dev := Journal.recover c.jc s.j.dev }, ov := {}, alloc := a, thr := fun _ => none, nextCall := s.nextCall, orphans := [],
    ids := s.ids, lin := s.lin, acks := s.acks, faults := s.faults }

end Lite
end Blobd
