import Mathlib.Data.List.Dedup
import Verif.Model.KvStore
/-!
# What the counters of background commits should show (C89)
-/
set_option autoImplicit false
namespace Blobd
namespace Kv

/-- how many keys these requests are about -/
def keysIn (l : List Task) : Nat := (l.map (·.key)).dedup.length

/-- what the last of these requests for a key writes, if it does -/
def lastWrite (l : List Task) (k : Key) : Option (List Byte) := (l.reverse.find? fun t => t.key = k).bind (·.val)

/-- the sizes of the values which these requests leave and which are too large for a bundle (more than 7 bytes) but were small enough for the log -/
def movedIn (c : StoreCfg) (l : List Task) : List Nat :=
  (l.map (·.key)).dedup.filterMap fun k => (lastWrite l k).bind fun v => if 7 < v.length ∧ v.length ≤ c.inlineThreshold then some v.length else none

/-- bundles a commit has still to read, change or write -/
def underWay (s : St) : Nat :=
  match s.commit with
  | some ⟨_, .moving _ gs⟩ => gs.length
  | some ⟨_, .updating todo work comp⟩ => todo.length + work.length + comp.length
  | _ => 0

/-- updates of bundles lost to a panic -/
def lost (s : St) : Nat := s.faults.count .bundleTaskPanicked

end Kv
end Blobd
