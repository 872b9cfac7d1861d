import Verif.Spec.DirectStore
import Verif.Spec.Fair
/-!
# Specification vocabulary: progress of the direct store

An execution here never ends; whatever could always act eventually does (weak fairness). Nothing is assumed about how
long anything takes or in which order calls, device writes and the background loop act.
-/
set_option autoImplicit false
namespace Blobd
namespace Direct

/-- an execution without restarts: at each moment the store takes a step or nothing happens -/
structure Run (c : SCfg) (σ : Nat → DSt) : Prop where
  start : Reach c (σ 0)
  next : ∀ n, σ (n + 1) = σ n ∨ Step c (σ n) (σ (n + 1))

/-- where call `i` is; `none` if it has not been made or has been answered -/
def at? (s : DSt) (i : Nat) : Option PC := (s.threads.find? (fun th => th.call = i)).map (·.pc)

def Answers (s : DSt) (i : Nat) : Prop := ∃ a ∈ s.acks, a.call = i

structure FairRun (c : SCfg) (σ : Nat → DSt) : Prop extends Run c σ where
  /-- a call under way that can always proceed eventually does -/
  calls : ∀ i, Fair σ (fun s => at? s i ≠ none ∧ ∃ s', Step c s s' ∧ at? s' i ≠ at? s i) (fun s s' => at? s' i ≠ at? s i)
  /-- data writes complete -/
  device : ∀ id, Fair σ (fun s => ∃ w ∈ s.writers, w.id = id)
    (fun s s' => (s'.writers.filter (fun w => w.id = id)).length < (s.writers.filter (fun w => w.id = id)).length)
  /-- the background loop of the tuple index takes up changes, its page writes complete and it signals -/
  loop : Fair σ (fun s => s.ts.batch ≠ none ∨ ∃ b, b < c.n ∧ s.ts.dirty b = true) (fun s s' => s'.ts.batch ≠ s.ts.batch)

/-- a create call finds no room: its metadata does not fit a large page, there is no page left for it, or no tuple
bundle is known to have room -/
def NoRoom (c : SCfg) (s : DSt) : PC → Prop
  | .createData m => 2 ^ c.pages.lpage < m.enc.length ∨ (s.alloc.allocate m.enc.length).1 = .err .outOfSpace
  | .createInsert _ _ => ∀ b, b < c.n → s.ts.free b = false ∧ s.ts.freeDirty b = false
  | _ => False

/-- the call removes a version whose own commit has not been answered yet -/
def Races (s : DSt) (pc : PC) : Prop :=
  ∃ o why, pc = .reap o why ∧ why ≠ .kept ∧ ∃ j old ex, at? s j = some (.commitPublished old o ex)

/-- a commit or delete call -/
def PC.changes : PC → Prop
  | .createData _ | .createMeta _ _ _ | .createInsert _ _ | .createTuple _ _ | .dead => False
  | _ => True

end Direct
end Blobd
