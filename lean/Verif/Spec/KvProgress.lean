import Verif.Spec.KvDiscipline
import Verif.Spec.KvRead
import Verif.Spec.KvSpace
import Verif.Spec.Fair
/-!
# Specification vocabulary: progress of the KV store

An execution here never ends; a party that could always act eventually does (weak fairness). Nothing is assumed about
how long anything takes or in which order the parties act.
-/
set_option autoImplicit false
namespace Blobd
namespace Kv

/-- an execution without restarts: at each moment the store takes a step or nothing happens -/
structure Run (c : StoreCfg) (σ : Nat → St) : Prop where
  start : Reach c (σ 0)
  next : ∀ n, σ (n + 1) = σ n ∨ Step c (σ n) (σ (n + 1))

/-- the flusher's pending calls fit into the log: sending them off does not panic -/
def LogRoom (c : StoreCfg) (s : St) : Prop := s.pending ≠ [] → ∃ j1 j2 log' f, planFlush c.log s.log j1 j2 s.pending = some (log', f)

/-- the oldest flush spawned has (`b = true`) or has not (`b = false`) been written -/
def Oldest (s : St) (b : Bool) : Prop := ∃ f, s.log.inflight.head? = some f ∧ f.done = b

/-- every party is fair: the device, the calls, the flusher thread, the completer -/
structure FairRun (c : StoreCfg) (σ : Nat → St) : Prop extends Run c σ where
  /-- while heap writes are under way, some complete -/
  heap : Fair σ (fun s => s.preps ≠ []) (fun s s' => s'.preps.length < s.preps.length)
  /-- calls hand their tasks to the flusher -/
  send : Fair σ (fun s => s.ready ≠ []) (fun s s' => s'.ready.length < s.ready.length)
  /-- the flusher receives -/
  recv : Fair σ (fun s => s.queue ≠ []) (fun s s' => s.pending.length < s'.pending.length)
  /-- the flusher sends off what it has received if there is room for it in the log -/
  flush : Fair σ (fun s => s.pending ≠ [] ∧ LogRoom c s) (fun s s' => s.pending ≠ [] ∧ s'.pending = [])
  /-- the oldest log write completes -/
  device : Fair σ (fun s => Oldest s false) (fun s s' => Oldest s false ∧ Oldest s' true)
  /-- the completer takes the flushes that are complete -/
  complete : Fair σ (fun s => s.inserting = [] ∧ Oldest s true) (fun s s' => s'.log.inflight.length < s.log.inflight.length)
  /-- the completer applies them -/
  apply : Fair σ (fun s => s.inserting ≠ []) (fun s s' => s.applied.length < s'.applied.length)

/-- the background commit is fair -/
def FairCommit (σ : Nat → St) : Prop := Fair σ (fun s => s.commit ≠ none) (fun s s' => ¬ s'.commit = s.commit)

/-- from moment `n` on no call is made -/
def NoCalls (σ : Nat → St) (n : Nat) : Prop := ∀ m, n ≤ m → (σ (m + 1)).issued = (σ m).issued

/-- the calls not answered yet that have been handed to the log, and those answered before them, oldest first -/
def inLine (s : St) : List Task := s.applied ++ s.inserting ++ s.log.inflight.flatMap (·.tasks) ++ s.pending ++ s.queue

/-- calls under way that the flusher has not sent off yet -/
def unlogged (s : St) : List Task := s.preps.map (·.task) ++ s.ready ++ s.queue ++ s.pending

/-- bytes of the log in use -/
def logUse (s : St) : Nat := s.log.vtail - s.log.head

/-- log space that is enough for a call whatever it is flushed together with: its bytes, a page of padding, and as much
again for what a wraparound leaves unused -/
def callRoom (c : StoreCfg) (t : Task) : Nat := 2 * (callBytes c t + 2 ^ c.log.spage)

end Kv
end Blobd
