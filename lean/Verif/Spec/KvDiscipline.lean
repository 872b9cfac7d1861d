import Verif.Spec.KvStore
/-!
# Specification vocabulary: a client of the KV store that stays within the store's limits

The KV store loses data (C34, C35) when a bundle outgrows its page, when one flush outgrows the replay buffer
or when it is restarted while the log holds a value placed in the heap. All three can be avoided by the caller;
here is what the caller has to observe, in terms of calls, keys and values.
-/
set_option autoImplicit false
namespace Blobd
namespace Kv

/-- The keys that exist after the calls `l` fit: in each bundle, every existing key taking its own bytes and
eight more, they fit one small page. -/
def BundlesFit (c : StoreCfg) (l : List Task) : Prop :=
  ∀ i (ks : List Key), ks.Nodup → (∀ k ∈ ks, bundleOf c k = i ∧ specMap l k ≠ none) →
    (ks.map (fun k => keyBytes k + 8)).sum ≤ 2 ^ c.heap.pages.spage

/-- the calls under way: issued, not yet acknowledged and not lost in a crash -/
def outstanding (s : St) : List Task :=
  s.preps.map (·.task) ++ s.ready ++ s.queue ++ s.pending ++ s.log.inflight.flatMap (·.tasks) ++ s.inserting

/-- what a call adds to the log at most: its key, nine bytes, and its value if that is kept in the log -/
def callBytes (c : StoreCfg) (t : Task) : Nat :=
  keyBytes t.key + 9 +
    match t.val with
    | some v => if v.length ≤ c.inlineThreshold then v.length else 0
    | none => 0

/-- every value ever written was small enough to be kept in the log -/
def OnlySmall (c : StoreCfg) (s : St) : Prop :=
  ∀ t ∈ s.issued, ∀ v, t.val = some v → v.length ≤ c.inlineThreshold

/-- the client is within the limits: no empty key, existing keys fit their bundles, and the calls under way add
less to the log than the replay buffer holds -/
structure WithinLimits (c : StoreCfg) (s : St) : Prop where
  keys : NoEmptyKey s
  fit : BundlesFit c s.applied
  calls : ((outstanding s).map (callBytes c)).sum < c.log.bufSize

/-- all states of all executions whose client stays within the limits all the time and, before a crash or
shutdown that is followed by a restart, has only written small values -/
inductive Disciplined (c : StoreCfg) : St → Prop
  | fresh {heap logData s} : fresh c heap logData = some s → Disciplined c s
  | step {s s'} : Disciplined c s → Step c s s' → WithinLimits c s' → Disciplined c s'
  | restart {s s'} : Disciplined c s → load c s = some s' → OnlySmall c s → WithinLimits c s' → Disciplined c s'

/-- A simple way to be disciplined: in all the calls ever made, no empty key, only small values, the keys of each
bundle fit one small page, and everything together is less than the replay buffer. -/
structure FewCalls (c : StoreCfg) (s : St) : Prop where
  keys : NoEmptyKey s
  fit : ∀ i (ks : List Key), ks.Nodup → (∀ k ∈ ks, bundleOf c k = i ∧ ∃ t ∈ s.issued, t.key = k) →
    (ks.map (fun k => keyBytes k + 8)).sum ≤ 2 ^ c.heap.pages.spage
  small : OnlySmall c s
  bytes : (s.issued.map (callBytes c)).sum < c.log.bufSize

end Kv
end Blobd
