import Verif.Model.Bytes
import Verif.Model.KvOps
import Verif.Model.ReadWrite
/-!
# The `store` crate: one interface over several backends (store/src)

The backends themselves are modelled by what they promise: a file system (a file is a list of bytes; a `read` returns
at least one and at most the asked-for number of bytes unless it is at the end of the file, where it returns none), a
RocksDB database (a map), S3 (multipart uploads; byte ranges with an inclusive end, RFC 9110 section 14.1.2).
-/
set_option autoImplicit false
namespace Blobd
namespace Adapter

/-! ## File system (store/src/fs.rs) -/

/-- what became of the reading task -/
inductive FsEnd
  /-- the loop ended and the stream is complete -/
  | done
  /-- `rem -= n` underflowed (a panic; without overflow checks it would wrap and the loop would go on) -/
  | panicked
  /-- it made as many reads as the schedule has entries and is still looping -/
  | running
  deriving DecidableEq, Repr

/-- how many bytes a `read` into a buffer of `avail` usable bytes returns when the system felt like `k` -/
def readCount (avail k : Nat) : Nat := min avail (max 1 k)

/-- store/src/fs.rs:126-134: the loop. `bufLen` is the length of `buf`, which is never shortened; `pos` is the position in the
file, `sched` what each `read` returns (see `readCount`). Returns the chunks sent. -/
def fsLoop (file : List Byte) (bufLen : Nat) : (sched : List Nat) → (pos rem : Nat) → List (List Byte) × FsEnd
  | [], _, rem => ([], if rem = 0 then .done else .running)
  | k :: sched, pos, rem =>
    if rem = 0 then ([], .done)
    else
      let n := readCount (min bufLen (file.length - pos)) k
      if n > rem then ([], .panicked)
      else
        let r := fsLoop file bufLen sched (pos + n) (rem - n)
        ((file.drop pos).take n :: r.1, r.2)

/-- store/src/fs.rs:117-139 `read_object` of a file that exists; `none`: `end - start` underflows. -/
def fsRead (file : List Byte) (sched : List Nat) (start : Nat) (stop : Option Nat) : Option (List (List Byte) × FsEnd) :=
  let stop := stop.getD file.length
  if start > stop then none else some (fsLoop file (stop - start) sched start (stop - start))

/-- `write_all_at` (store/src/fs.rs:97-102): overwrite, extending the file with zeros where needed -/
def pwrite (file : List Byte) (off : Nat) (data : List Byte) : List Byte :=
  if data = [] then file
  else (file ++ List.replicate (off - file.length) 0).take off ++ data ++ file.drop (off + data.length)

/-- the files by key; the path of a key contains its whole base64 form (store/src/fs.rs:41-51), so different keys have different
files -/
abbrev Files := List Byte → Option (List Byte)

/-- store/src/fs.rs:67-85 `create_object`: `File::create` truncates -/
def fsCreate (fs : Files) (key : List Byte) : Files := fun k => if k = key then some [] else fs k

/-- store/src/fs.rs:87-103 `write_object`; `none`: opening a missing file fails -/
def fsWrite (fs : Files) (key : List Byte) (off : Nat) (data : List Byte) : Option Files :=
  (fs key).map (fun f => fun k => if k = key then some (pwrite f off data) else fs k)

/-- store/src/fs.rs:105-107 `commit_object` does nothing -/
def fsCommit (fs : Files) (_key : List Byte) : Files := fs

/-- store/src/fs.rs:109-115 `inspect_object` -/
def fsInspect (fs : Files) (key : List Byte) : Option Nat := (fs key).map List.length

/-! ## RocksDB (store/src/rocksdb.rs) -/

/-- store/src/rocksdb.rs:108-110 `create_object` does nothing -/
def rocksCreate (db : Files) (_key : List Byte) : Files := db

/-- store/src/rocksdb.rs:112-123 `write_object`; `none`: the assert on the offset -/
def rocksWrite (db : Files) (key : List Byte) (off : Nat) (data : List Byte) : Option Files :=
  if off = 0 then some (fun k => if k = key then some data else db k) else none

/-- store/src/rocksdb.rs:125-127 `commit_object` does nothing -/
def rocksCommit (db : Files) (_key : List Byte) : Files := db

/-- store/src/rocksdb.rs:140-156 `read_object`; `none`: missing key, or the slice is out of range -/
def rocksRead (db : Files) (key : List Byte) (start : Nat) (stop : Option Nat) : Option (List Byte) :=
  (db key).bind (fun obj =>
    let stop := stop.getD obj.length
    if start ≤ stop ∧ stop ≤ obj.length then some ((obj.take stop).drop start) else none)

/-! ## KV (store/src/kv.rs) -/

/-- store/src/kv.rs:168-181 `read_object`; `none`: the unwrap fails -/
def kvRead (spage : Nat) (dev : Mem) (tuple : Option Kv.Data) (start : Nat) (stop : Option Nat) : Option (List Byte) :=
  match Kv.readObject spage dev tuple start stop with
  | .ok r => some r.data
  | _ => none

/-- store/src/kv.rs:152-166 `inspect_object`: reads the range 0..0 -/
def kvInspect (spage : Nat) (dev : Mem) (tuple : Option Kv.Data) : Option Nat :=
  match Kv.readObject spage dev tuple 0 (some 0) with
  | .ok r => some r.objectSize
  | _ => none

/-- store/src/kv.rs:130-134 `create_object` does nothing -/
def kvCreate (db : Files) (_key : List Byte) : Files := db

/-- store/src/kv.rs:136-146 `write_object`, the KV store being the map from keys to values it promises to be (C34, C35);
`none`: the assert on the offset or the unwrap (libblobd-kv/src/op/write_object.rs:53-55 refuses objects over 16 MiB) -/
def kvWrite (db : Files) (key : List Byte) (off : Nat) (data : List Byte) : Option Files :=
  if off = 0 ∧ data.length ≤ Kv.objectSizeMax then some (fun k => if k = key then some data else db k) else none

/-- store/src/kv.rs:148-150 `commit_object` does nothing -/
def kvCommit (db : Files) (_key : List Byte) : Files := db

/-- store/src/kv.rs:122-124 `write_chunk_size` -/
def kvChunk : Nat := 2 ^ 64 - 1

/-! ## Direct and lite (store/src/direct.rs, store/src/lite.rs): the call is passed on and its result unwrapped -/

/-- store/src/direct.rs:178-193 `read_object` of an object that was found; `panic`: the unwrap fails -/
def directRead (pages : Pages) (o : RW.Obj) (dev : Mem) (bufSize start : Nat) (stop : Option Nat) (fuel : Nat) :
    RW.Run (List (List Byte)) :=
  match RW.opReadDirect pages o dev bufSize start stop fuel with
  | .ret (.ok cs) => .ret cs
  | .ret (.error _) => .panic
  | .panic => .panic
  | .running => .running

/-- store/src/lite.rs:159-174 `read_object` of an object that was found -/
def liteRead (pages : Pages) (o : RW.Obj) (dev : Mem) (start : Nat) (stop : Option Nat) (fuel : Nat) :
    RW.Run (List (List Byte)) :=
  match RW.opReadLite pages o dev start stop fuel with
  | .ret (.ok cs) => .ret cs
  | .ret (.error _) => .panic
  | .panic => .panic
  | .running => .running

/-- unwrap the result of a write -/
def unwrapWrite : RW.Run (Except RW.OpError Unit × Mem) → RW.Run Mem
  | .ret (.ok _, dev) => .ret dev
  | .ret (.error _, _) => .panic
  | .panic => .panic
  | .running => .running

/-- store/src/direct.rs:130-144 `write_object` to an upload that was found: one chunk, all of `data` -/
def directWrite (pages : Pages) (junk : Nat → Byte) (o : RW.Obj) (dev : Mem) (off : Nat) (data : List Byte) (fuel : Nat) :
    RW.Run Mem :=
  unwrapWrite (RW.opWriteDirect pages junk o dev off data.length [.ok data] fuel)

/-- store/src/lite.rs:107-123 `write_object` to an upload that was found -/
def liteWrite (pages : Pages) (o : RW.Obj) (dev : Mem) (off : Nat) (data : List Byte) (fuel : Nat) : RW.Run Mem :=
  unwrapWrite (RW.opWriteLite pages o dev off data.length [.ok data] fuel)

/-- store/src/direct.rs:110-112, store/src/lite.rs:84-86 `write_chunk_size` -/
def blobdChunk (pages : Pages) : Nat := 1 <<< pages.lpage

/-! ## S3 (store/src/s3.rs) -/

/-- S3 `GetObject` with `Range: bytes=first-last`: the last byte is included; unsatisfiable if the first byte is not
in the object (RFC 9110 14.1.2, 15.5.17) -/
def s3GetRange (obj : List Byte) (first last : Nat) : Option (List Byte) :=
  if first < obj.length ∧ first ≤ last then some ((obj.drop first).take (last + 1 - first)) else none

/-- store/src/s3.rs:181-200 `read_object`; `none`: the unwrap fails -/
def s3Read (obj : List Byte) (start : Nat) (stop : Option Nat) : Option (List Byte) :=
  s3GetRange obj start (stop.getD (2 ^ 64 - 1))

/-- an upload: parts by number, and whether a part was recorded at all (`in_flight_uploads`, store/src/s3.rs:66-77) -/
structure S3Upload where
  parts : List (Nat × List Byte)

/-- store/src/s3.rs:105-132 `write_object`; `none`: offset not a multiple of the part size, part number too large for 32 bits, or
part already there -/
def s3Write (partSize : Nat) (u : S3Upload) (off : Nat) (data : List Byte) : Option S3Upload :=
  if off % partSize ≠ 0 then none
  else if off / partSize ≥ 2 ^ 31 - 1 then none
  else if u.parts.any (fun p => p.1 == off / partSize + 1) then none
  else some ⟨u.parts ++ [(off / partSize + 1, data)]⟩

/-- insertion by part number -/
def insertPart (p : Nat × List Byte) : List (Nat × List Byte) → List (Nat × List Byte)
  | [] => [p]
  | q :: l => if p.1 ≤ q.1 then p :: q :: l else q :: insertPart p l

/-- `sorted_by_key(part_number)` (store/src/s3.rs:141) -/
def sortParts : List (Nat × List Byte) → List (Nat × List Byte)
  | [] => []
  | p :: l => insertPart p (sortParts l)

/-- store/src/s3.rs:134-164 `commit_object`: the object S3 makes of the listed parts; `none`: nothing was written, so there is no
entry to remove -/
def s3Commit (u : S3Upload) : Option (List Byte) :=
  if u.parts = [] then none else some ((sortParts u.parts).flatMap (·.2))

/-! ## The caller (benchmark-runner/src/main.rs:435-446) -/

/-- benchmark-runner/src/main.rs:435-446: `for offset in (0..object_size).step_by(write_chunk_size)`, each chunk at most that long -/
def chunks (size chunk : Nat) (data : List Byte) : List (Nat × List Byte) :=
  (List.range ((size + chunk - 1) / chunk)).map (fun i => (i * chunk, (data.drop (i * chunk)).take (min (size - i * chunk) chunk)))

end Adapter
end Blobd
