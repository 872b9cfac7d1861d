import Verif.Model.KvLog
import Verif.Spec.Kv
/-!
# Specification vocabulary for the KV log

All histories of the ring log. `batches` lists the batches of tasks recorded in the log and not yet
committed away, oldest first, each with the tail recorded for it.
-/
namespace Blobd
namespace Kv

/-- a task the API can have produced: any raw key (short ones literal, long ones hashed), a delete or an
upsert of storable data -/
def Loggable (H : List Byte → List Byte) (t : Task) : Prop :=
  (∃ raw, t.key = Key.fromRaw H raw) ∧ ∀ d, t.op = some d → Storable d

/-- byte `x` of the ring is a target of a device write of flush `f` -/
def Targets (f : Flush) (x : Nat) : Prop := ∃ w ∈ f.writes, w.1 ≤ x ∧ x < w.1 + w.2.length

inductive LogReach (H : List Byte → List Byte) (c : LogCfg) : LogSt → List (List Task × Nat) → Prop
  /-- a formatted device, whatever bytes the ring area contains -/
  | fresh (data : Mem) : LogReach H c (LogSt.fresh data) []
  /-- the flusher sends off its pending tasks; a flush is no longer than the replay buffer -/
  | flush {s s' b ts f j1 j2} : LogReach H c s b → (∀ t ∈ ts, Loggable H t) →
      (∀ buf, encodeTasks ts = some buf → (padFlush c j1 buf).length ≤ c.bufSize) →
      planFlush c s j1 j2 ts = some (s', f) → LogReach H c s' b
  /-- any part of the writes in flight reaches the device, in any order, even torn -/
  | device {s b data'} : LogReach H c s b →
      (∀ x, data' x ≠ s.data x → ∃ f ∈ s.inflight, f.done = false ∧ Targets f x) →
      LogReach H c { s with data := data' } b
  /-- the writes of some flush complete -/
  | written {s b i f} : LogReach H c s b → s.inflight[i]? = some f → f.done = false →
      LogReach H c (finishFlush s i) b
  /-- the completer records the oldest flushes -/
  | complete {s s' b n ts} : LogReach H c s b → completeFlushes s n = some (s', ts) →
      LogReach H c s' (b ++ [(ts, s'.tail)])
  /-- a commit ends: the head moves to a tail recorded earlier -/
  | committed {s b t rest ts} : LogReach H c s (b ++ (ts, t) :: rest) → LogReach H c (advanceHead s t) rest
  /-- crash and restart: only the ring and the recorded head and tail survive -/
  | restart {s b} : LogReach H c s b → LogReach H c ⟨s.data, s.head, s.tail, s.tail, []⟩ b

end Kv
end Blobd
