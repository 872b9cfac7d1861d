import Verif.Model.KvStore
/-!
# What the counters of log flushes should show (C87)
-/
set_option autoImplicit false
namespace Blobd
namespace Kv

/-- the bytes of the entries of a flush, without padding -/
def entryBytes (f : Flush) : Nat := ((encodeTasks f.tasks).getD []).length

/-- how many flushes had more than `a` and at most `b` bytes of entries -/
def between (a b : Nat) (fl : List Flush) : Nat := fl.countP fun f => decide (a < entryBytes f ∧ entryBytes f ≤ b)

/-- the bytes flushes write to the device -/
def written (fl : List Flush) : Nat := (fl.map fun f => (f.writes.map fun w => w.2.length).sum).sum

/-- a flush that does not fit at the end of the log and begins a new round, after a page that says so -/
def Wrapped (f : Flush) : Prop := f.writes.length = 2
instance (f : Flush) : Decidable (Wrapped f) := by unfold Wrapped; infer_instance

end Kv
end Blobd
