import Verif.Model.Merge
/-!
# The lite journal: libblobd-lite/src/journal/real.rs

Opaque parameters (`JCfg`): the byte encoding of one write (`bitcode::encode`, a dependency), the
blake3 hash, and the position and capacity of the journal area.

Concurrency is modelled by interleaving: every field of `State` is changed by one of the atomic
`Step`s below and a schedule is any sequence of steps. Writes to the device are not atomic: a step may
write any fragment of the write in progress any number of times before the full write completes, so
every torn intermediate device content is a reachable state.
-/
namespace Blobd
namespace Journal
open Merge

/-- libblobd-lite/src/journal/real.rs:138-174 `Journal::new(dev, dev_offset, cap)` plus the opaque encodings. -/
structure JCfg where
  devOffset : Nat
  cap : Nat
  /-- `bitcode::encode(&Write { offset, data })` (libblobd-lite/src/journal/real.rs:203) -/
  encode : Nat × List Byte → List Byte
  /-- `blake3::Hasher::finalize` -/
  hash : List Byte → List Byte

/-- `write_u32_le_at(32, len)` / `write_u32_be_at` (libblobd-lite/src/journal/real.rs:33,101): four bytes, little endian. -/
def u32le (n : Nat) : List Byte :=
  [UInt8.ofNat n, UInt8.ofNat (n / 256), UInt8.ofNat (n / 65536), UInt8.ofNat (n / 16777216)]

/-- A transaction (libblobd-lite/src/journal/real.rs:184-205), with an identity standing for its signal future. -/
structure Txn where
  id : Nat
  writes : List (Nat × List Byte)

/-- libblobd-lite/src/journal/real.rs:198-205 `Transaction::write`: empty data is dropped. -/
def Txn.write (t : Txn) (offset : Nat) (data : List Byte) : Txn :=
  if data.isEmpty then t else { t with writes := t.writes ++ [(offset, data)] }

/-- `writes_raw` (libblobd-lite/src/journal/real.rs:186,203) -/
def Txn.raw (c : JCfg) (t : Txn) : List Byte := t.writes.flatMap c.encode

/-- `PendingJournal` (libblobd-lite/src/journal/real.rs:37-56). `raw` is `buf[36..]`; the first 36 bytes are filled in by
`send_pending`. `txns` stands for `signals`. -/
structure Batch where
  raw : List Byte := []
  entries : Writes := []
  txns : List Txn := []

/-- `buf.len()`: 32 hash bytes, 4 length bytes, then the encoded writes. -/
def Batch.bufLen (b : Batch) : Nat := 36 + b.raw.length

/-- libblobd-lite/src/journal/real.rs:97-104 `send_pending`: hash of everything fed to the hasher, then the length. -/
def Batch.buf (c : JCfg) (b : Batch) : List Byte := c.hash b.raw ++ u32le b.bufLen ++ b.raw

/-- `BLANK_STATE` (libblobd-lite/src/journal/real.rs:29-35) -/
def blank (c : JCfg) : List Byte := c.hash [] ++ u32le 0

/-- libblobd-lite/src/journal/real.rs:238-244: append a transaction to the pending batch. -/
def Batch.add (c : JCfg) (b : Batch) (t : Txn) : Batch where
  raw := b.raw ++ t.raw c
  entries := t.writes.foldl (fun w e => Merge.insert w e.1 e.2) b.entries
  txns := b.txns ++ [t]

/-- Where the flusher task is (libblobd-lite/src/journal/real.rs:66-86). -/
inductive Phase
  /-- waiting in `recv` -/
  | idle
  /-- writing `buf` to the journal area (line 68) -/
  | journal (b : Batch)
  /-- `for_each_concurrent` over the merged entries (71-75); `todo` are the writes not yet complete -/
  | entries (b : Batch) (todo : Writes)
  /-- signals sent (78-80), writing the blank state (82) -/
  | blanking (b : Batch)

structure State where
  dev : Mem
  pending : Batch := {}
  queue : List Batch := []
  phase : Phase := .idle
  /-- ids of the transactions whose signal has fired, in order -/
  acked : List Nat := []
  /-- ghost: all transactions committed so far, in the order `commit_transaction` took the lock -/
  hist : List Txn := []

/-- libblobd-lite/src/journal/real.rs:222-247 `commit_transaction`. `idle` is the result of loading `in_flush_queue == 0`
(a relaxed atomic; any value is allowed). Returns `none` (no signal) for an empty transaction. -/
def commit (c : JCfg) (idle : Bool) (t : Txn) (s : State) : Option State :=
  if t.writes.isEmpty then none
  else
    let wouldOverflow := s.pending.bufLen + (t.raw c).length > c.cap
    let s1 := if wouldOverflow ∨ (idle = true ∧ s.pending.bufLen ≥ 512) then
        { s with queue := s.queue ++ [s.pending], pending := {} }
      else s
    some { s1 with pending := s1.pending.add c t, hist := s1.hist ++ [t] }

/-- One atomic step of the journal system. -/
inductive Step (c : JCfg) : State → State → Prop
  | commit {s s' : State} (idle : Bool) (t : Txn) (h : commit c idle t s = some s') : Step c s s'
  /-- libblobd-lite/src/journal/real.rs:109-122 time threshold loop; `earliest_entry` is `None` exactly when nothing is pending -/
  | timer {s : State} (h : s.pending.txns ≠ []) :
      Step c s { s with queue := s.queue ++ [s.pending], pending := {} }
  /-- libblobd-lite/src/journal/real.rs:67 `recv` -/
  | recv {s : State} {b : Batch} {q : List Batch} (hp : s.phase = .idle) (hq : s.queue = b :: q) :
      Step c s { s with queue := q, phase := .journal b }
  /-- libblobd-lite/src/journal/real.rs:68, in progress: some fragment of `buf` reaches the device -/
  | journalPart {s : State} {b : Batch} (hp : s.phase = .journal b) (i n : Nat) :
      Step c s { s with dev := s.dev.write (c.devOffset + i) (((b.buf c).drop i).take n) }
  /-- libblobd-lite/src/journal/real.rs:68, completed -/
  | journalDone {s : State} {b : Batch} (hp : s.phase = .journal b) :
      Step c s { s with dev := s.dev.write c.devOffset (b.buf c), phase := .entries b b.entries }
  /-- libblobd-lite/src/journal/real.rs:73, in progress: some fragment of one outstanding entry reaches the device -/
  | entryPart {s : State} {b : Batch} {todo : Writes} (hp : s.phase = .entries b todo)
      (e : Nat × List Byte) (he : e ∈ todo) (i n : Nat) :
      Step c s { s with dev := s.dev.write (e.1 + i) ((e.2.drop i).take n) }
  /-- libblobd-lite/src/journal/real.rs:73, one outstanding entry completed -/
  | entryDone {s : State} {b : Batch} {todo : Writes} (hp : s.phase = .entries b todo)
      (e : Nat × List Byte) (he : e ∈ todo) :
      Step c s { s with dev := s.dev.write e.1 e.2, phase := .entries b (todo.erase e) }
  /-- libblobd-lite/src/journal/real.rs:78-80 -/
  | ack {s : State} {b : Batch} (hp : s.phase = .entries b []) :
      Step c s { s with acked := s.acked ++ b.txns.map Txn.id, phase := .blanking b }
  | blankPart {s : State} {b : Batch} (hp : s.phase = .blanking b) (i n : Nat) :
      Step c s { s with dev := s.dev.write (c.devOffset + i) (((blank c).drop i).take n) }
  /-- libblobd-lite/src/journal/real.rs:82-84 -/
  | blankDone {s : State} {b : Batch} (hp : s.phase = .blanking b) :
      Step c s { s with dev := s.dev.write c.devOffset (blank c), phase := .idle }

/-- Everything reachable from a freshly started journal on device contents `m`. -/
inductive Reach (c : JCfg) (m : Mem) : State → Prop
  | init : Reach c m { dev := m }
  | step {s s' : State} : Reach c m s → Step c s s' → Reach c m s'

/-- libblobd-lite/src/journal/real.rs:214-216: `recover` is a TODO; it does nothing to the device. -/
def recover (_ : JCfg) (m : Mem) : Mem := m

end Journal
end Blobd
