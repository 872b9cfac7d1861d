import Verif.Model.ReadWrite
/-!
# What reads and writes of object data add to the direct store's reported counters

libblobd-direct/src/op/read_object.rs:43-172 and libblobd-direct/src/op/write_object.rs:51-173 again, this time with the counters they
bump (libblobd-direct/src/metrics.rs:14-21), with the checks that the object is still there (another call may delete or commit it at any
time) and with the device as it is at the moment of each device read. Counters are shared atomics that are only ever added to, so the
counters of a store are the sums over its calls of what is defined here.
-/
set_option autoImplicit false
namespace Blobd
namespace RW

/-! ### Reads -/

/-- What one call has added to the counters (libblobd-direct/src/metrics.rs:14-21). -/
structure IoCount where
  readOps : Nat := 0
  readRequested : Nat := 0
  readSent : Nat := 0
  readDiscarded : Nat := 0
  writeOps : Nat := 0
  writeRequested : Nat := 0
  writeWritten : Nat := 0
  deriving DecidableEq, Repr

/-- One turn of the read loop, as the rest of the world decides it: is the object still valid before the device read
(libblobd-direct/src/op/read_object.rs:150), what the device holds then, is the object still valid after it (line 159). -/
structure ReadTurn where
  before : Bool := true
  dev : Mem
  after : Bool := true

/-- How the stream of a read ended. -/
inductive ReadEnd
  /-- every requested byte was yielded -/
  | finished
  /-- the stream yielded `ObjectNotFound` -/
  | gone
  /-- the task panicked -/
  | panicked
  /-- the consumer stopped polling (or has not polled yet) -/
  | dropped
  deriving DecidableEq, Repr

/-- What a read's stream has done. -/
structure ReadLog where
  how : ReadEnd
  chunks : List (List Byte) := []
  /-- device reads, as (offset, length) -/
  reads : List (Nat × Nat) := []
  sent : Nat := 0
  discarded : Nat := 0

/-- The loop of libblobd-direct/src/op/read_object.rs:127-163 with `unaligned_read` (lines 43-58), one turn per element of the list; when the
list runs out the consumer has stopped polling. -/
def readLog (pages : Pages) (lay : ObjectLayout) (o : Obj) (bufSize stop : Nat) : List ReadTurn → Nat → Nat → ReadLog
  | [], _, next => if next < stop then { how := .dropped } else { how := .finished }
  | t :: ts, idx, next =>
    if next < stop then
      match pageAt pages lay o idx with
      | none => { how := .panicked }
      | some (pageOff, e) =>
        let within := modPow2 next e
        let rem := 1 <<< e - within
        let chunkLen := min (min bufSize (stop - next)) rem
        if t.before then
          let r := unalignedRange pages (pageOff + within) chunkLen
          let data := unalignedRead pages t.dev (pageOff + within) chunkLen
          let waste := (r.2 - r.1) - chunkLen
          if t.after then
            let k := readLog pages lay o bufSize stop ts (if chunkLen = rem then idx + 1 else idx) (next + chunkLen)
            { k with chunks := data :: k.chunks, reads := (r.1, r.2 - r.1) :: k.reads, sent := chunkLen + k.sent,
                     discarded := waste + k.discarded }
          else { how := .gone, reads := [(r.1, r.2 - r.1)], discarded := waste }
        else { how := .gone }
    else { how := .finished }

/-- libblobd-direct/src/op/read_object.rs:68-172: the answer (`none`: panic in `calc_object_layout`), what the stream does, and the counters.
`found` is the committed object under the key, if any. -/
def opReadLog (pages : Pages) (found : Option Obj) (bufSize start : Nat) (stop? : Option Nat) (turns : List ReadTurn) :
    Option (Except OpError ReadLog) × IoCount :=
  match found with
  | none => (some (.error .objectNotFound), {})
  | some o =>
    match calcObjectLayoutDirect pages o.size with
    | none => (none, {})
    | some lay =>
      let stop := stop?.getD o.size
      if start > stop ∨ start > o.size ∨ stop > o.size then (some (.error .rangeOutOfBounds), {})
      else
        let k : ReadLog :=
          if start = stop ∨ start = o.size then { how := .finished }
          else readLog pages lay o bufSize stop turns (startIdx pages lay start) start
        (some (.ok k), { readOps := 1, readRequested := stop - start, readSent := k.sent, readDiscarded := k.discarded })

/-! ### Writes -/

/-- The write loop's state with what it did to the device and to `write_op_bytes_written`. -/
structure WLog where
  st : WState
  writes : List (Nat × List Byte) := []
  written : Nat := 0

/-- libblobd-direct/src/op/write_object.rs:116-160; `valid i` says whether the object is still incomplete when page `i`'s lock is taken
(lines 131-133). -/
def wlogProceed (block : List Byte → List Byte) (len : Nat) (targets : List (Nat × Nat)) (valid : Nat → Bool) (k : WLog) :
    Run (Except OpError Unit) × WLog :=
  if k.st.written + k.st.buf.length > len then (.ret (.error .dataStreamLengthMismatch), k)
  else
    match targets[k.st.idx]? with
    | none => (.panic, k)
    | some (amount, pageOff) =>
      if k.st.buf.length < amount then (.running, k)
      else if valid k.st.idx then
        let data := block (k.st.buf.take amount)
        (.running,
          { st := { k.st with dev := k.st.dev.write pageOff data, buf := k.st.buf.drop amount, written := k.st.written + amount,
                              idx := k.st.idx + 1 },
            writes := k.writes ++ [(pageOff, data)], written := k.written + data.length })
      else (.ret (.error .objectNotFound), k)

/-- libblobd-direct/src/op/write_object.rs:104-161 and the check after the loop (lines 162-169); `running` means the loop goes on. -/
def wlogStep (block : List Byte → List Byte) (len : Nat) (targets : List (Nat × Nat)) (valid : Nat → Bool) (k : WLog) :
    Run (Except OpError Unit) × WLog :=
  match k.st.stream with
  | .error _ :: _ => (.ret (.error .dataStreamError), k)
  | .ok c :: rest => wlogProceed block len targets valid { k with st := { k.st with stream := rest, buf := k.st.buf ++ c } }
  | [] =>
    if k.st.buf.isEmpty then (.ret (if k.st.written ≠ len then .error .dataStreamLengthMismatch else .ok ()), k)
    else wlogProceed block len targets valid k

/-- the loop, for at most so many turns; `running` with fewer turns than the loop takes also stands for a call that was dropped -/
def wlogRun (block : List Byte → List Byte) (len : Nat) (targets : List (Nat × Nat)) (valid : Nat → Bool) :
    Nat → WLog → Run (Except OpError Unit) × WLog
  | 0, k => (.running, k)
  | n + 1, k =>
    match wlogStep block len targets valid k with
    | (.running, k') => wlogRun block len targets valid n k'
    | r => r

/-- libblobd-direct/src/op/write_object.rs:40-173: the answer, what was written to the device, the device, and the counters. `found` is the
incomplete object with the token's id, if any. -/
def opWriteLog (pages : Pages) (junk : Nat → Byte) (found : Option Obj) (dev : Mem) (offset len : Nat)
    (stream : List (Except Unit (List Byte))) (valid : Nat → Bool) (turns : Nat) :
    Run (Except OpError Unit) × List (Nat × List Byte) × Mem × IoCount :=
  match found with
  | none => (.ret (.error .objectNotFound), [], dev, {})
  | some o =>
    match writeCheck pages o.size offset len with
    | some e => (.ret (.error e), [], dev, {})
    | none =>
      match calcObjectLayoutDirect pages o.size with
      | none => (.panic, [], dev, { writeOps := 1, writeRequested := len })
      | some lay =>
        let r := wlogRun (blockDirect pages junk) len (writeTargets pages lay o offset) valid turns
          { st := { stream := stream, dev := dev } }
        (r.1, r.2.writes, r.2.st.dev, { writeOps := 1, writeRequested := len, writeWritten := r.2.written })

end RW
end Blobd
