import Verif.Model.LiteStart
set_option autoImplicit false
/-!
# Lite store: the reported metrics

libblobd-lite/src/metrics.rs. Values are integers here; the API reports them modulo 2^64 (`AtomicU64` wraps). A call counts in the same step
as its last effect (create: when it answers; delete and commit: when they take the object out of its list).
`allocated_bytes` belongs to the allocator (Model/Buddy).
-/
namespace Blobd
namespace Lite

/-- libblobd-lite/src/metrics.rs:4-19; `localMeta` holds the variable `meta_size` of each create call (libblobd-lite/src/op/create_object.rs:49) -/
structure Metrics where
  objects : Int
  data : Int
  incomplete : Int
  metaBytes : Int
  localMeta : Nat → Nat

/-- libblobd-lite/src/metrics.rs:22-34 -/
def Metrics.zero : Metrics := ⟨0, 0, 0, 0, fun _ => 0⟩

/-- what an `AtomicU64` shows for a counter -/
def shown (x : Int) : Nat := (x % 2 ^ 64).toNat

/-- libblobd-lite/src/op/create_object.rs:130-135 -/
def Metrics.onCreated (m : Metrics) (size metaSize : Nat) : Metrics :=
  { m with
    objects := m.objects + 1
    data := m.data + size
    metaBytes := m.metaBytes + metaSize }

/-- libblobd-lite/src/bucket.rs:245-250: the size and the power of two in the record that was read -/
def Metrics.onUnlinked (m : Metrics) (f : Found) : Metrics :=
  { m with
    objects := m.objects - 1
    data := m.data - rdSize (ofBytes f.raw) 0
    metaBytes := m.metaBytes - 2 ^ rdMetaPow2 (ofBytes f.raw) 0 }

/-- the object that an action takes out of its bucket's list (`delete_object` of libblobd-lite/src/bucket.rs:202-253 gets to its end; called at
libblobd-lite/src/op/delete_object.rs:29-35 and libblobd-lite/src/op/commit_object.rs:63-66) -/
def unlinked (c : LCfg) (s : LSt) : Act → Option Found
  | .inode i _ =>
    match s.thr i with
    | some ⟨_, .walk (.delete want) key cur prev (some raw) _ _⟩ =>
      if rdKey (ofBytes raw) 0 = key ∧ rawState s raw = stCommitted ∧ (want.isNone ∨ want = some (rdId (ofBytes raw) 0)) then
        (unlink c s (c.bkt key) ⟨cur, prev, raw⟩).map (fun _ => ⟨cur, prev, raw⟩)
      else none
    | _ => none
  | .atEnd i _ =>
    match s.thr i with
    | some ⟨_, .walk (.commit _) key 0 _ none (some _) (some e)⟩ =>
      if c.versioning then none else (unlink c s (c.bkt key) e).map (fun _ => e)
    | _ => none
  | _ => none

/-- how an action changes the counters -/
def Metrics.count (c : LCfg) (s : LSt) (m : Metrics) : Act → Metrics
  | .create key size assoc _ _ =>
    match calcObjectLayout c.pages size with
    | none => m
    | some lay =>
      let off : ObjectOffsets :=
        { keyLen := key.length, lpageCount := lay.lpageCount, tailPageCount := lay.tailPageSizes.len, assocDataLen := assoc.length }
      { m with localMeta := upd m.localMeta s.nextCall off.totalSize }
  | .respond i =>
    match s.thr i with
    | some ⟨⟨.create _ size, _⟩, .evict [] (.created _)⟩ => m.onCreated size (m.localMeta i)
    | _ => m
  | a =>
    match unlinked c s a with
    | some f => m.onUnlinked f
    | none => m

/-- all executions from a formatted device, with the counters they show -/
inductive MReach (c : LCfg) : LSt → Metrics → Prop
  | fresh {dev : Mem} {s : LSt} : fresh c dev = some s → MReach c s .zero
  | act {s s' : LSt} {m : Metrics} (a : Act) : MReach c s m → act c s a = some s' → MReach c s' (m.count c s a)
  | journal {s : LSt} {m : Metrics} {j' : Journal.State} : MReach c s m → Journal.Step c.jc s.j j' → j'.hist = s.j.hist →
      MReach c { s with j := j' } m

end Lite
end Blobd
