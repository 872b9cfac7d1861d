import Verif.Model.KvStore
import Verif.Spec.Kv
/-!
# Specification vocabulary for the KV store

The abstract store is a map from keys to values; `specMap l` is that map after the tasks `l`.
-/
namespace Blobd
namespace Kv

/-- the abstract map after a sequence of writes (`val = some v`) and deletes (`val = none`) -/
def specMap (l : List Task) : Key → Option (List Byte) :=
  l.foldl (fun m t => fun k => if k = t.key then t.val else m k) (fun _ => none)

/-- libblobd-kv/src/log_buffer.rs:732-766 `read_tuple` done in one instant: current overlay, then committing overlay, then
the bundle page -/
def readTuple (c : StoreCfg) (s : St) (k : Key) : Option Data :=
  match (s.gens s.cur).get k with
  | some e => e
  | none =>
    match s.com.bind (fun g => (s.gens g).get k) with
    | some e => e
    | none => pageGet (s.pages (bundleOf c k)) k

/-- the value a reader finds for a tuple, reading the heap in state `s` -/
def found (s : St) (d : Option Data) : Option (List Byte) := d.map (valueOf s.heap)

/-- all states of all executions, with any number of crashes and restarts -/
inductive Reach (c : StoreCfg) : St → Prop
  | fresh {heap logData s} : fresh c heap logData = some s → Reach c s
  | step {s s'} : Reach c s → Step c s s' → Reach c s'
  | restart {s s'} : Reach c s → load c s = some s' → Reach c s'

/-- configurations: 32-byte hashes, at least one bundle, small pages of 512 bytes or more, the heap below
2^48 and addressable, a ring and replay buffer of whole small pages -/
structure StoreCfg.Ok (c : StoreCfg) : Prop where
  hash : ∀ x, (c.H x).length = 32
  bundles : 0 < c.bundleCount
  spage : 9 ≤ c.heap.pages.spage
  lpage : c.heap.pages.lpage < 64
  base : 2 ^ c.heap.pages.lpage ∣ c.heap.base
  heapEnd : c.heap.base + c.heap.heap ≤ 2 ^ 48
  logPos : 0 < c.log.dataLen
  logPages : 2 ^ c.log.spage ∣ c.log.dataLen
  bufPos : 0 < c.log.bufSize
  bufPages : 2 ^ c.log.spage ∣ c.log.bufSize

/-- no call used the empty key -/
def NoEmptyKey (s : St) : Prop := ∀ t ∈ s.issued, t.key ≠ .literal []

end Kv
end Blobd
