import Verif.Model.KvObject
/-!
# KV store: the ring log

`libblobd-kv/src/log_buffer.rs`: the flusher thread (587-722), the writes it spawns (694-719), the
completer's tail update (533-544), the commit's head update (510-514) and the start-up replay (198-274).
Offsets are relative to the log data region; the region is a ring of `dataLen` bytes addressed by
ever-growing virtual offsets.
-/
namespace Blobd
namespace Kv

/-- libblobd-kv/src/log_buffer.rs:74-84 `BundleTask`: an upsert (`op = some data`) or a delete (`op = none`). `val` is
ghost: the value the caller meant; no function of the model looks at it. -/
structure Task where
  key : Key
  op : Option Data
  val : Option (List Byte)
  deriving DecidableEq, Repr

/-- what the log stores of a task -/
def Task.erase (t : Task) : Key × Option Data := (t.key, t.op)

/-- libblobd-kv/src/log_buffer.rs:605-615: the bytes appended to the flusher's buffer for one task
(`LogBufferPersistedEntry::Upsert = 1`, `Delete = 2`, lines 89-94). -/
def encodeTask (t : Task) : Option (List Byte) :=
  match t.op with
  | some d =>
    match t.key.serialise, d.serialise with
    | some a, some b => some (1 :: (a ++ b))
    | _, _ => none
  | none =>
    match t.key.serialise with
    | some a => some (2 :: a)
    | none => none

/-- the flusher's buffer after receiving tasks (libblobd-kv/src/log_buffer.rs:596, 605-616) -/
def encodeTasks : List Task → Option (List Byte)
  | [] => some []
  | t :: ts =>
    match encodeTask t, encodeTasks ts with
    | some a, some b => some (a ++ b)
    | _, _ => none

/-- configuration of the ring: small page exponent, ring size, replay buffer size (`BUFSIZE`, line 201) -/
structure LogCfg where
  spage : Nat
  dataLen : Nat
  bufSize : Nat

/-- libblobd-kv/src/log_buffer.rs:636-639 and 658-665: add the padding marker (`Padding = 3`) when the buffer does not end
on a small page, and round up to small pages; the rest of the page is recycled-buffer junk. -/
def padFlush (c : LogCfg) (junk : Nat → Byte) (buf : List Byte) : List Byte :=
  let buf := if modPow2 buf.length c.spage > 0 then buf ++ [3] else buf
  buf ++ (List.range (ceilPow2 buf.length c.spage - buf.length)).map (fun i => junk (buf.length + i))

/-- one spawned flush (libblobd-kv/src/log_buffer.rs:694-719): the device writes it performs, the tail to be recorded when
it completes, its tasks, and whether its writes have completed. -/
structure Flush where
  writes : List (Nat × List Byte)
  newTail : Nat
  tasks : List Task
  done : Bool

/-- The log: ring contents, the head and tail recorded on the device (the in-memory copies are only
visible to others once the state page is written, because the write lock is held across the write,
lines 511-514 and 541-544), the flusher's own tail, and the flushes spawned and not yet completed, oldest
first. -/
structure LogSt where
  data : Mem
  head : Nat
  tail : Nat
  vtail : Nat
  inflight : List Flush

/-- libblobd-kv/src/log_buffer.rs:633-693, the flush the flusher spawns for its pending tasks. `none`: a panic (the
alignment assertion 670, the wraparound assertion 679, "out of log buffer space" 686-689, or an
unserialisable entry). -/
def planFlush (c : LogCfg) (s : LogSt) (junk1 junk2 : Nat → Byte) (tasks : List Task) :
    Option (LogSt × Flush) :=
  match encodeTasks tasks with
  | none => none
  | some buf =>
    let padded := padFlush c junk1 buf
    if modPow2 s.vtail c.spage = 0 then
      let phys := s.vtail % c.dataLen
      if phys + padded.length > c.dataLen then
        let vtail1 := s.vtail + (c.dataLen - phys)
        if vtail1 % c.dataLen = 0 then
          let vtail2 := vtail1 + padded.length
          if vtail2 - s.head ≥ c.dataLen then none
          else
            let f : Flush := {
              writes := [(phys, 4 :: (List.range (1 <<< c.spage - 1)).map (fun i => junk2 (1 + i))),
                (0, padded)]
              newTail := vtail2, tasks := tasks, done := false }
            some ({ s with vtail := vtail2, inflight := s.inflight ++ [f] }, f)
        else none
      else
        let vtail2 := s.vtail + padded.length
        if vtail2 - s.head ≥ c.dataLen then none
        else
          let f : Flush := {
            writes := [(phys, padded)]
            newTail := vtail2, tasks := tasks, done := false }
          some ({ s with vtail := vtail2, inflight := s.inflight ++ [f] }, f)
    else none

/-- libblobd-kv/src/log_buffer.rs:700-717: the writes of the `i`-th pending flush complete and it is handed to the
completer -/
def finishFlush (s : LogSt) (i : Nat) : LogSt :=
  match s.inflight[i]? with
  | none => s
  | some f => { s with
      data := s.data.writeAll f.writes
      inflight := s.inflight.set i { f with done := true } }

/-- libblobd-kv/src/log_buffer.rs:533-544: the completer takes the `n` oldest flushes (they have all completed) and
records the last one's tail. Returns the tasks to apply. -/
def completeFlushes (s : LogSt) (n : Nat) : Option (LogSt × List Task) :=
  let fs := s.inflight.take n
  match fs.getLast? with
  | none => none
  | some l =>
    if fs.all (·.done) ∧ fs.length = n then
      some ({ s with
        tail := l.newTail
        inflight := s.inflight.drop n }, fs.flatMap (·.tasks))
    else none

/-- libblobd-kv/src/log_buffer.rs:510-514: the commit moves the head up to the tail it started from -/
def advanceHead (s : LogSt) (upTo : Nat) : LogSt := { s with head := upTo }

/-! ## Replay at start-up -/

/-- one step of the parser (libblobd-kv/src/log_buffer.rs:233-269) on the buffered bytes: the entry found, if it is one,
and how many bytes to skip. `none`: a panic. -/
def parseEntry (c : LogCfg) (vnext : Nat) (buf : List Byte) :
    Option (Option (Key × Option Data) × Nat) :=
  match buf with
  | [] => none
  | tag :: rest =>
    if tag = 1 then
      match Key.deserialise rest with
      | none => none
      | some (k, r1) =>
        match Data.deserialise r1 with
        | none => none
        | some (d, r2) => some (some (k, some d), buf.length - r2.length)
    else if tag = 2 then
      match Key.deserialise rest with
      | none => none
      | some (k, r1) => some (some (k, none), buf.length - r1.length)
    else if tag = 3 then
      let toSkip := 1 <<< c.spage - modPow2 vnext c.spage
      if toSkip > 0 ∧ toSkip < 1 <<< c.spage then some (none, toSkip) else none
    else if tag = 4 then
      let toSkip := c.dataLen - vnext % c.dataLen
      if toSkip > 0 ∧ toSkip < c.dataLen then some (none, toSkip) else none
    else none

/-- libblobd-kv/src/log_buffer.rs:211-231, filling the replay buffer; `buf` is what is left undrained. `fuel` bounds the
number of device reads (each reads at least one byte). -/
def fillBuf (c : LogCfg) (data : Mem) (vnext vend : Nat) : Nat → List Byte → Option (List Byte)
  | 0, _ => none
  | fuel + 1, buf =>
    let after := vnext + buf.length
    if modPow2 after c.spage = 0 ∧ after ≤ vend then
      if buf.length ≥ c.bufSize ∨ after = vend then some buf
      else
        let phys := after % c.dataLen
        let toRead := min (min c.bufSize (vend - after)) (c.dataLen - phys)
        fillBuf c data vnext vend fuel (buf ++ data.read phys toRead)
    else none

/-- libblobd-kv/src/log_buffer.rs:206-271, the replay loop: the entries in order. `drained = none` stands for
`buf_drained > buf.len()`, which the assertion at 213 catches on the next round unless the end has been
reached. `fuel` bounds the number of entries. -/
def replayLoop (c : LogCfg) (data : Mem) (vend : Nat) :
    Nat → Nat → Option (List Byte) → Option (List (Key × Option Data))
  | 0, _, _ => none
  | fuel + 1, vnext, buf =>
    if vnext = vend then some []
    else
      match buf with
      | none => none
      | some buf =>
        match fillBuf c data vnext vend (vend - vnext + 1) buf with
        | none => none
        | some buf =>
          match parseEntry c vnext buf with
          | none => none
          | some (e, skip) =>
            match replayLoop c data vend fuel (vnext + skip)
              (if skip ≤ buf.length then some (buf.drop skip) else none) with
            | none => none
            | some es => some (e.toList ++ es)

/-- libblobd-kv/src/log_buffer.rs:158-274 `load_from_device`, the log part: the recorded head and tail are checked
(174-176) and the entries between them replayed -/
def replay (c : LogCfg) (data : Mem) (head tail : Nat) : Option (List (Key × Option Data)) :=
  if modPow2 head c.spage = 0 ∧ modPow2 tail c.spage = 0 ∧ head ≤ tail then
    replayLoop c data tail (tail - head + 1) head (some [])
  else none

/-- libblobd-kv/src/log_buffer.rs:152-156, 299, 593: a freshly formatted log -/
def LogSt.fresh (data : Mem) : LogSt := ⟨data, 0, 0, 0, []⟩

end Kv
end Blobd
