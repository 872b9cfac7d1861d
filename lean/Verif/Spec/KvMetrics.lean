import Verif.Model.KvMetrics
import Verif.Spec.KvSpace
/-!
# Specification vocabulary: what the counters of the KV store should show
-/
set_option autoImplicit false
namespace Blobd
namespace Kv

/-- the objects of the abstract store `M`, each once -/
def Objects (M : Key → Option (List Byte)) (L : List Key) : Prop := L.Nodup ∧ ∀ k, k ∈ L ↔ M k ≠ none

/-- the bytes a value keeps on the heap: all of them, unless it is short enough to live in its tuple
(libblobd-kv/src/object.rs:56, libblobd-kv/src/log_buffer.rs:372-384) -/
def heapShare (v : List Byte) : Nat := if 7 < v.length then v.length else 0

/-- the bytes on the heap of the objects `L` of `M` -/
def heapTotal (M : Key → Option (List Byte)) (L : List Key) : Nat := (L.map (fun k => heapShare ((M k).getD []))).sum

/-- acknowledged calls of a kind since the store was opened, when `n` had been acknowledged before -/
def answered (s : St) (n : Nat) (p : Task → Bool) : Nat := ((s.applied.drop n).filter p).length

def isWrite (t : Task) : Bool := t.op.isSome
def isDelete (t : Task) : Bool := t.op.isNone

/-- writes handed to the log and not acknowledged yet -/
def inLog (s : St) : Nat :=
  ((s.queue ++ s.pending ++ s.log.inflight.flatMap (·.tasks) ++ s.inserting).filter isWrite).length

/-- executions, with their counters, from formatting or from any restart on in which no call overwrites or deletes a large
value before a background commit has taken it up -/
inductive MThrifty (c : StoreCfg) : St → Metrics → Prop
  | fresh {heap logData : Mem} {s : St} : fresh c heap logData = some s → MThrifty c s .zero
  | restart {s s' : St} {n : Nat} {m : Metrics} : MReach c s n m → load c s = some s' → MThrifty c s' (loadCount c s'.pages)
  | step {s s' : St} {m m' : Metrics} : MThrifty c s m → Step c s s' → Count s s' m m' →
      (∀ t, s'.applied = s.applied ++ [t] → ¬ LargeUncommitted s t.key) → MThrifty c s' m'

end Kv
end Blobd
