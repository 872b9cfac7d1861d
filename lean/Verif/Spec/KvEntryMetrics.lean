import Verif.Model.KvStore
/-!
# What the counters of log entries should show (C88)
-/
set_option autoImplicit false
namespace Blobd
namespace Kv

/-- requests that write a value -/
def writesIn (l : List Task) : Nat := l.countP fun t => t.val.isSome

/-- requests that delete a key -/
def deletesIn (l : List Task) : Nat := l.countP fun t => t.val.isNone

/-- the bytes of the values written -/
def valueBytes (l : List Task) : Nat := (l.map fun t => (t.val.getD []).length).sum

end Kv
end Blobd
