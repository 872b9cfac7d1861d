import Verif.Spec.KvStore
/-!
# KV store: the counters of log entries

`libblobd-kv/src/log_buffer.rs:235-258` (replaying the log as the store is opened) and `548-573` (applying flushed entries). Numbers do not wrap.
-/
set_option autoImplicit false
namespace Blobd
namespace Kv

/-- libblobd-kv/src/metrics.rs:24-26 -/
structure EntryMetrics where
  writes : Nat
  writeBytes : Nat
  deletes : Nat
deriving DecidableEq

/-- as the store is opened -/
def EntryMetrics.zero : EntryMetrics := ⟨0, 0, 0⟩

/-- libblobd-kv/src/object.rs:117-123 -/
def dataLen : Data → Nat
  | .inline d => d.length
  | .heap size _ => size

/-- libblobd-kv/src/log_buffer.rs:236-258, 550-570: the same for a replayed and for an applied entry -/
def countEntry (m : EntryMetrics) : Option Data → EntryMetrics
  | some d => { m with writes := m.writes + 1, writeBytes := m.writeBytes + dataLen d }
  | none => { m with deletes := m.deletes + 1 }

/-- Executions of the store since it was last opened, with the entries then replayed from the log, the number of requests that had been acknowledged (or
flushed) by then, and the counters. `created`: a formatted store. `reopened`: after a shutdown or crash. -/
inductive EReach (c : StoreCfg) : List (Key × Option Data) → Nat → St → EntryMetrics → Prop
  | created {heap logData : Mem} {s : St} : fresh c heap logData = some s → EReach c [] 0 s .zero
  | reopened {s s' : St} {es : List (Key × Option Data)} : Reach c s → replay c.log s.log.data s.log.head s.log.tail = some es →
      load c s = some s' → EReach c es s'.applied.length s' (es.foldl (fun m e => countEntry m e.2) .zero)
  | applied {es : List (Key × Option Data)} {n : Nat} {s s' : St} {m : EntryMetrics} {t : Task} {r : List Task} : EReach c es n s m →
      s.inserting = t :: r → Step c s s' → s'.inserting = r → s'.applied = s.applied ++ [t] → EReach c es n s' (countEntry m t.op)
  | other {es : List (Key × Option Data)} {n : Nat} {s s' : St} {m : EntryMetrics} : EReach c es n s m → Step c s s' → s'.applied = s.applied →
      EReach c es n s' m

end Kv
end Blobd
