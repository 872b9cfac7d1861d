import Verif.Spec.KvStore
/-!
# KV store: the counters of background commits

`libblobd-kv/src/log_buffer.rs:345-349, 387-396, 416-419, 493-496`. Numbers do not wrap. The times are left out, and the moves of a commit that panics while
grouping (it never ends).
-/
set_option autoImplicit false
namespace Blobd
namespace Kv

/-- libblobd-kv/src/metrics.rs:30-36 -/
structure CommitMetrics where
  commits : Nat
  entries : Nat
  bundles : Nat
  committed : Nat
  moves : Nat
  moveBytes : Nat
deriving DecidableEq

/-- as the store is opened -/
def CommitMetrics.zero : CommitMetrics := ⟨0, 0, 0, 0, 0, 0⟩

/-- libblobd-kv/src/log_buffer.rs:374-378, 387-391: the bytes counted for an entry that moves to the heap -/
def movedSize (e : Key × Option Data) : Option Nat :=
  match e.2 with
  | some (.inline d) => if d.length > 7 then some d.length else none
  | _ => none

/-- libblobd-kv/src/log_buffer.rs:345-349 (a commit begins), 362-419 (its entries are moved
and grouped; one heap write for each moved), 490-496 (a bundle's page is written); no other step counts -/
def countCommit (m : CommitMetrics) (s s' : St) : CommitMetrics :=
  match s.commit, s'.commit with
  | none, some ⟨_, .started⟩ => { m with commits := m.commits + 1, entries := m.entries + (s.gens s.cur).length }
  | some ⟨_, .started⟩, some ⟨_, .moving ws gs⟩ =>
    { m with
      bundles := m.bundles + gs.length
      moves := m.moves + ws.length
      moveBytes := m.moveBytes + (((s.com.map s.gens).getD []).filterMap movedSize).sum }
  | some ⟨_, .updating _ _ comp⟩, some ⟨_, .updating _ _ comp'⟩ =>
    if comp'.length < comp.length then { m with committed := m.committed + 1 } else m
  | _, _ => m

/-- Executions of the store since it was opened (created or reopened), with the counters, the requests each commit took, and how many had been acknowledged
before those the next one will take. -/
inductive CReach (c : StoreCfg) : St → CommitMetrics → List (List Task) → Nat → Prop
  | created {heap logData : Mem} {s : St} : fresh c heap logData = some s → CReach c s .zero [] 0
  | reopened {s s' : St} {es : List (Key × Option Data)} : Reach c s → replay c.log s.log.data s.log.head s.log.tail = some es →
      load c s = some s' → CReach c s' .zero [] (s'.applied.length - es.length)
  | commit {s s' : St} {m : CommitMetrics} {bs : List (List Task)} {p : Nat} : CReach c s m bs p → Step c s s' → s.commit = none →
      s'.commit ≠ none → CReach c s' (countCommit m s s') (bs ++ [s.applied.drop p]) s.applied.length
  | other {s s' : St} {m : CommitMetrics} {bs : List (List Task)} {p : Nat} : CReach c s m bs p → Step c s s' →
      (s.commit = none → s'.commit = none) → CReach c s' (countCommit m s s') bs p

end Kv
end Blobd
