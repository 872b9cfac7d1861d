import Verif.Spec.KvStore
/-!
# KV store: the counters of log flushes

`libblobd-kv/src/log_buffer.rs:640-665`: what the flusher counts when it sends off its pending tasks. The counters are never reset while the store is
open. Numbers do not wrap. The times are left out.
-/
set_option autoImplicit false
namespace Blobd
namespace Kv

/-- libblobd-kv/src/metrics.rs:42-49 -/
structure FlushMetrics where
  entries : Nat
  count : Nat
  upTo4k : Nat
  upTo64k : Nat
  upTo1m : Nat
  upTo8m : Nat
  dataBytes : Nat
  paddingBytes : Nat
deriving DecidableEq

/-- as the store is opened -/
def FlushMetrics.zero : FlushMetrics := ⟨0, 0, 0, 0, 0, 0, 0, 0⟩

/-- libblobd-kv/src/log_buffer.rs:636-665, for pending tasks with these encoded bytes -/
def countFlush (c : LogCfg) (m : FlushMetrics) (tasks : List Task) (buf : List Byte) : FlushMetrics :=
  let bufLen := if modPow2 buf.length c.spage > 0 then buf.length + 1 else buf.length
  { entries := m.entries + tasks.length
    dataBytes := m.dataBytes + bufLen
    count := m.count + 1
    upTo4k := if bufLen ≤ 1024 * 4 then m.upTo4k + 1 else m.upTo4k
    upTo64k := if bufLen ≤ 1024 * 4 then m.upTo64k else if bufLen ≤ 1024 * 64 then m.upTo64k + 1 else m.upTo64k
    upTo1m := if bufLen ≤ 1024 * 4 then m.upTo1m else if bufLen ≤ 1024 * 64 then m.upTo1m else if bufLen ≤ 1024 * 1024 * 1 then m.upTo1m + 1
      else m.upTo1m
    upTo8m := if bufLen ≤ 1024 * 4 then m.upTo8m else if bufLen ≤ 1024 * 64 then m.upTo8m else if bufLen ≤ 1024 * 1024 * 1 then m.upTo8m
      else if bufLen ≤ 1024 * 1024 * 8 then m.upTo8m + 1 else m.upTo8m
    paddingBytes := m.paddingBytes + (ceilPow2 bufLen c.spage - bufLen) }

/-- Executions of the store since it was opened, with the counters and the flushes so far. No step but that of the flusher empties its pending tasks.
The first state may be any reachable one (so also any after a restart). -/
inductive FReach (c : StoreCfg) : St → FlushMetrics → List Flush → Prop
  | opened {s : St} : Reach c s → FReach c s .zero []
  | flush {s : St} {m : FlushMetrics} {fl : List Flush} {log' : LogSt} {f : Flush} {buf : List Byte} {s' : St} (j1 j2 : Nat → Byte) : FReach c s m fl →
      s.pending ≠ [] → encodeTasks s.pending = some buf → planFlush c.log s.log j1 j2 s.pending = some (log', f) →
      Step c s s' → s'.pending = [] → s'.log = log' → FReach c s' (countFlush c.log m s.pending buf) (fl ++ [f])
  | other {s s' : St} {m : FlushMetrics} {fl : List Flush} : FReach c s m fl → Step c s s' → (s.pending = [] ∨ s'.pending ≠ []) → FReach c s' m fl

end Kv
end Blobd
