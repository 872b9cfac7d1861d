import Verif.Spec.LiteStore
import Verif.Spec.Fair
/-!
# Specification vocabulary: progress of the lite store

An execution here never ends; whatever could always act eventually does (weak fairness). Nothing is assumed about how
long anything takes or in which order calls, device writes and the journal act. The bucket locks (tokio `RwLock`) hand
themselves out in the order they were asked for, so a call that waits is overtaken by finitely many others.
-/
set_option autoImplicit false
namespace Blobd
namespace Lite

/-- an execution: at each moment the store takes a step or nothing happens -/
structure Run (c : LCfg) (σ : Nat → LSt) : Prop where
  start : Reach c (σ 0)
  next : ∀ n, σ (n + 1) = σ n ∨ Step c (σ n) (σ (n + 1))

/-- where call `i` is; `none` if it has not been made or has been answered -/
def at? (s : LSt) (i : Nat) : Option PC := (s.thr i).map (·.pc)

def Answers (s : LSt) (i : Nat) : Prop := ∃ a ∈ s.acks, a.id = i

/-- call `i` holds the lock of bucket `b` -/
def Holds (c : LCfg) (s : LSt) (i b : Nat) : Prop := ∃ pc e, at? s i = some pc ∧ pc.lock c = some (b, e)

/-- some call gets the lock of bucket `b` in this step -/
def Takes (c : LCfg) (b : Nat) (s s' : LSt) : Prop := ∃ i, ¬ Holds c s i b ∧ Holds c s' i b

structure FairRun (c : LCfg) (σ : Nat → LSt) : Prop extends Run c σ where
  /-- a call under way that can always proceed eventually does -/
  calls : ∀ i, Fair σ (fun s => at? s i ≠ none ∧ ∃ s', Step c s s' ∧ at? s' i ≠ at? s i) (fun s s' => at? s' i ≠ at? s i)
  /-- what is pending in the journal is sent to the flusher -/
  timer : Fair σ (fun s => s.j.pending.txns ≠ []) (fun s s' => s.j.queue.length < s'.j.queue.length)
  /-- the flusher takes up batches and its device writes complete -/
  flusher : Fair σ (fun s => s.j.queue ≠ [] ∨ s.j.phase ≠ .idle) (fun s s' => s'.j.phase ≠ s.j.phase)
  /-- a create that waits for its bucket's lock is not overtaken for ever -/
  lock : ∀ i o off n, (∀ m, n ≤ m → at? (σ m) i = some (.createLink o off)) →
    ∃ m, n ≤ m ∧ ∀ k, m ≤ k → ¬ Takes c (c.bkt o.key) (σ k) (σ (k + 1))

end Lite
end Blobd
