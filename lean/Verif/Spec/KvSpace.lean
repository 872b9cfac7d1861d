import Verif.Spec.KvDiscipline
/-!
# Specification vocabulary: heap space of the KV store

Large values (and, from the background commit on, every value of more than seven bytes) occupy heap space.
-/
set_option autoImplicit false
namespace Blobd
namespace Kv

/-- nothing is under way: no call is outstanding and every acknowledged call has been committed to its bundle -/
structure AtRest (s : St) : Prop where
  calls : outstanding s = []
  committed : s.com = none ∧ s.gens s.cur = []

/-- the heap region `(offset, size)` of a value some key has now -/
def InUse (c : StoreCfg) (s : St) (r : Nat × Nat) : Prop := ∃ k, readTuple c s k = some (.heap r.2 r.1)

/-- the current value of the key was written with more than the inline threshold and has not been taken up by a
background commit yet -/
def LargeUncommitted (s : St) (k : Key) : Prop := ∃ n o, (s.gens s.cur).get k = some (some (.heap n o))

/-- All executions from formatting or from any restart on in which no call overwrites or deletes a large value
before a background commit has taken it up. -/
inductive Thrifty (c : StoreCfg) : St → Prop
  | fresh {heap logData s} : fresh c heap logData = some s → Thrifty c s
  | restart {s s'} : Reach c s → load c s = some s' → Thrifty c s'
  | step {s s'} : Thrifty c s → Step c s s' →
      (∀ t, s'.applied = s.applied ++ [t] → ¬ LargeUncommitted s t.key) → Thrifty c s'

/-- room for a value of `size` bytes, in a heap where only the regions in `used` are taken: an aligned free run
of the size rounded up to a power of two (at least a small page) -/
def Room (c : StoreCfg) (used : Nat × Nat → Prop) (size : Nat) : Prop :=
  ∃ n, n * 2 ^ KvAlloc.contPow2 c.heap.pages size + 2 ^ KvAlloc.contPow2 c.heap.pages size ≤ c.heap.heap ∧
    ∀ x, c.heap.base + n * 2 ^ KvAlloc.contPow2 c.heap.pages size ≤ x →
      x < c.heap.base + n * 2 ^ KvAlloc.contPow2 c.heap.pages size + 2 ^ KvAlloc.contPow2 c.heap.pages size →
      ∀ r, used r → ¬ Spec.InRegion c.heap.pages r x

/-- what can happen from a state on, steps and restarts -/
inductive Later (c : StoreCfg) : St → St → Prop
  | refl (s) : Later c s s
  | step {s s' s''} : Later c s s' → Step c s' s'' → Later c s s''
  | restart {s s' s''} : Later c s s' → load c s' = some s'' → Later c s s''

end Kv
end Blobd
