import Verif.Model.Journal
/-! Specification vocabulary for the journal. -/
namespace Blobd
namespace Journal

/-- all writes of a list of transactions, in order -/
def writesOf (ts : List Txn) : List (Nat × List Byte) := ts.flatMap Txn.writes

/-- the device after performing the transactions one after another -/
def image (m : Mem) (ts : List Txn) : Mem := m.writeAll (writesOf ts)

/-- byte `x` is outside the journal area -/
def Outside (c : JCfg) (x : Nat) : Prop := x < c.devOffset ∨ c.devOffset + c.cap ≤ x

/-- a transaction that fits the journal and does not write into the journal area -/
structure TxnOk (c : JCfg) (t : Txn) : Prop where
  fits : 36 + (t.raw c).length ≤ c.cap
  away : ∀ w ∈ t.writes, ∀ x, w.1 ≤ x → x < w.1 + w.2.length → Outside c x

structure CfgOk (c : JCfg) : Prop where
  cap : 36 ≤ c.cap
  hash : ∀ d, (c.hash d).length = 32

end Journal
end Blobd
