import Verif.Model.KvObject
/-! # Specification vocabulary for the KV store -/
namespace Blobd
namespace Kv

/-- the value a tuple stands for: its inline bytes, or the bytes it points to on the device -/
def valueOf (dev : Mem) : Data → List Byte
  | .inline d => d
  | .heap size off => dev.read off size

/-- bytes of a tuple key on disk -/
def keyBytes : Key → Nat
  | .hash _ => 33
  | .literal l => 1 + l.length

/-- bytes of tuple data on disk -/
def dataBytes : Data → Nat
  | .inline i => (if i.length < 127 then 1 else 5) + i.length
  | .heap _ _ => 8

/-- bytes of a whole tuple on disk -/
def tupleBytes (t : Key × Data) : Nat := keyBytes t.1 + dataBytes t.2

/-- tuple data the store can have produced: values of at most 16 MiB; heap values non-empty, at a
512-byte aligned offset below 2^48 -/
def Storable : Data → Prop
  | .inline d => d.length ≤ 2 ^ 24
  | .heap size off => 1 ≤ size ∧ size ≤ 2 ^ 24 ∧ off % 512 = 0 ∧ off < 2 ^ 48

end Kv
end Blobd
