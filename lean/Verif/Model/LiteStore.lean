import Verif.Model.LiteObject
import Verif.Model.Overlay
import Verif.Model.ReadWrite
import Verif.Model.DirectStore
set_option autoImplicit false
/-!
# Lite store: buckets, operations, journal, overlay and allocator together

libblobd-lite/src: bucket.rs, op/create_object.rs, op/commit_object.rs, op/delete_object.rs, op/inspect_object.rs,
the lookup of op/read_object.rs and op/write_object.rs, on one device (`Mem`) shared with the journal
(Model/Journal), with the overlay (Model/Overlay) and the buddy allocator (Model/Buddy).

One step is one atomic action of one task; every interleaving is allowed. A walk along a bucket's list reads each
record from the device in one step and looks at the overlay in a later one, as the code does (libblobd-lite/src/bucket.rs:90-91).
The part of `create`, `commit` and `delete` that changes a bucket runs under the bucket's write lock; what it does
after its last lookup is one step here: overlay values, the transaction, and (for `delete_object` of an inode with
a predecessor) the awaited device write of the predecessor's next pointer; no other task can see its parts, except
that a crash could, which this model does not cover (C48: journal recovery does not exist). A call whose future is
dropped is a call that takes no further step; additionally a dropped lookup or write releases its lock (`drop`,
`cancel`). Fresh random 128-bit ids are assumed never to repeat.
-/
namespace Blobd
namespace Lite

/-- what the overlay is keyed by (libblobd-lite/src/overlay.rs:17-22) -/
inductive Cell
  | head (b : Nat)
  | state (id : Nat)
  | next (id : Nat)
  deriving DecidableEq, Repr

/-- libblobd-lite/src/lib.rs:180-227, ctx.rs -/
structure LCfg where
  heap : Spec.HeapCfg
  /-- `buckets_dev_offset` -/
  bkDev : Nat
  /-- `bucket_count_log2` -/
  bits : Nat
  /-- `twox_hash::xxh3::hash64` -/
  hash : List Byte → Nat
  jc : Journal.JCfg
  versioning : Bool

def LCfg.pages (c : LCfg) : Pages := c.heap.pages

/-- libblobd-lite/src/bucket.rs:358-360 -/
def LCfg.bkt (c : LCfg) (key : List Byte) : Nat := bucketIdForKey c.hash c.bits key

/-- bytes as a memory, to read the fields of a record held in a buffer (libblobd-lite/src/object.rs:157-251) -/
def ofBytes (raw : List Byte) : Mem := fun i => raw.getD i 0

/-- libblobd-lite/src/bucket.rs:60-64 `FoundObject`; `raw` is `meta.raw` -/
structure Found where
  off : Nat
  prev : Option Nat
  raw : List Byte
  deriving DecidableEq, Repr

/-- calls that look an object up -/
inductive Req
  /-- inspect_object.rs, and libblobd-lite/src/op/read_object.rs:50-61 -/
  | look (want : Option Nat)
  /-- libblobd-lite/src/op/write_object.rs:57-100: object id, offset, length -/
  | write (id offset len : Nat)
  /-- delete_object.rs -/
  | delete (want : Option Nat)
  /-- commit_object.rs -/
  | commit (id : Nat)
  deriving DecidableEq, Repr

/-- takes the write lock rather than the read lock -/
def Req.exclusive : Req → Bool
  | .delete _ => true
  | .commit _ => true
  | _ => false

/-- answers -/
inductive Resp
  | created (id : Nat)
  | tooLarge
  | committed
  | deleted
  | notFound
  /-- inspect: id, size; `off` is the record's place, which a read goes on to use -/
  | found (id size off : Nat)
  | written (r : Except RW.OpError Unit)
  deriving DecidableEq

/-- what happened, at the moment it took effect -/
inductive Ev
  | created (key : List Byte) (id size : Nat)
  | committed (key : List Byte) (id : Nat)
  | removed (key : List Byte) (want : Option Nat) (id : Nat)
  | found (key : List Byte) (want : Option Nat) (id size : Nat)
  /-- inspect, read or delete found no committed object -/
  | missing (key : List Byte) (want : Option Nat)
  /-- write found an incomplete object -/
  | opened (key : List Byte) (id size : Nat)
  /-- write or commit found no incomplete object -/
  | refused (key : List Byte) (id : Nat)
  deriving DecidableEq, Repr

/-- where a call is -/
inductive PC
  /-- pages allocated, record being written (libblobd-lite/src/op/create_object.rs:82-96) -/
  | createWrite (o : NewObject) (off : Nat)
  /-- record written, waiting for the bucket's write lock (libblobd-lite/src/op/create_object.rs:98-101) -/
  | createLink (o : NewObject) (off : Nat)
  /-- walking along the list of `key`'s bucket (libblobd-lite/src/bucket.rs:83-104): `cur` is the inode to look at next, `prev` the one
  before it; `raw` is set between reading the inode and processing it; `inc` and `ex` are the locals of
  libblobd-lite/src/op/commit_object.rs:41-52 -/
  | walk (req : Req) (key : List Byte) (cur : Nat) (prev : Option Nat) (raw : Option (List Byte)) (inc ex : Option Found)
  /-- libblobd-lite/src/op/write_object.rs:133-177, holding the read lock: the object's id, `(amount, page offset)` of the pages to write -/
  | writing (key : List Byte) (id : Nat) (targets : List (Nat × Nat))
  /-- waiting for the transaction; then release `free`, then evict (libblobd-lite/src/op/create_object.rs:123-127,
  libblobd-lite/src/op/commit_object.rs:85-92, libblobd-lite/src/op/delete_object.rs:37-47) -/
  | wait (txn : Option Nat) (free : List (Nat × Nat)) (tickets : List (Overlay.Ticket Cell)) (resp : Resp)
  | evict (tickets : List (Overlay.Ticket Cell)) (resp : Resp)
  /-- panicked or dropped -/
  | dead

/-- what a call asks for -/
inductive Call
  | create (key : List Byte) (size : Nat)
  | lookup (req : Req) (key : List Byte)
  deriving DecidableEq, Repr

/-- ghost: what was called, and how many events had happened when the call started -/
structure Begun where
  call : Call
  at_ : Nat

structure Thread where
  start : Begun
  pc : PC

/-- ghost: an answer, with the number of events when it was given -/
structure Ack where
  id : Nat
  start : Begun
  stop : Nat
  resp : Resp

/-- events some claims exclude; recorded as they happen -/
inductive Fault
  /-- an overlay entry of an inode was evicted while a walk held a copy of that inode read before -/
  | staleCopy
  /-- an inode was unlinked while its predecessor's next pointer was in the overlay -/
  | pendingPrev
  /-- an inode with a predecessor was deleted and its pages released while the journal still had writes to it -/
  | pendingInode
  /-- a `write_object` call was dropped during a device write -/
  | writeCancelled
  deriving DecidableEq, Repr

structure LSt where
  /-- the journal, with the device -/
  j : Journal.State
  ov : Overlay.Ov Cell Nat
  alloc : Buddy
  thr : Nat → Option Thread
  nextCall : Nat
  /-- device writes of dropped `write_object` calls, still running -/
  orphans : List (Nat × List Byte)
  /-- ghost: ids handed out so far -/
  ids : List Nat
  /-- ghost: what happened -/
  lin : List (Nat × Ev)
  acks : List Ack
  faults : List Fault

def upd {β : Type} (f : Nat → β) (k : Nat) (v : β) : Nat → β := fun j => if j = k then v else f j

/-- the lock a call holds: bucket and whether it is the write lock -/
def PC.lock (c : LCfg) : PC → Option (Nat × Bool)
  | .walk req key .. => some (c.bkt key, req.exclusive)
  | .writing key _ _ => some (c.bkt key, false)
  | _ => none

/-- nobody holds bucket `b`'s lock in a conflicting mode (tokio `RwLock`) -/
def canLock (c : LCfg) (s : LSt) (b : Nat) (excl : Bool) : Bool :=
  (List.range s.nextCall).all (fun i =>
    match (s.thr i).bind (fun t => t.pc.lock c) with
    | some (b', e') => b' ≠ b || (!excl && !e')
    | none => true)

/-- the inode copies a walk holds -/
def PC.raws : PC → List (List Byte)
  | .walk _ _ _ _ raw inc ex => raw.toList ++ inc.toList.map (·.raw) ++ ex.toList.map (·.raw)
  | _ => []

/-- libblobd-lite/src/bucket.rs:123-133 `get_head` -/
def getHead (c : LCfg) (s : LSt) (b : Nat) : Nat :=
  (s.ov.get (.head b)).getD (rdHead s.j.dev c.bkDev b)

/-- libblobd-lite/src/object.rs:165-170 -/
def rawState (s : LSt) (raw : List Byte) : Nat :=
  (s.ov.get (.state (rdId (ofBytes raw) 0))).getD (rdState (ofBytes raw) 0)

/-- libblobd-lite/src/object.rs:180-186 (0 is `None`) -/
def rawNext (s : LSt) (raw : List Byte) : Nat :=
  (s.ov.get (.next (rdId (ofBytes raw) 0))).getD (rdNext (ofBytes raw) 0)

/-- libblobd-lite/src/bucket.rs:232-243: the pages of the record at `off`, in the order they are added to `to_free` -/
def recPages (pages : Pages) (m : Mem) (off pow2 : Nat) : Option (List (Nat × Nat)) :=
  (calcObjectLayout pages (rdSize m off)).map (fun lay =>
    (List.range lay.lpageCount).map (fun i => (rdLpage m off i, pages.lpage)) ++
    lay.tailPageSizes.toIter.map (fun ie => ((rdTailPage pages m off ie.1).getD 0, ie.2)) ++
    [(off, pow2)])

/-- transactions not acknowledged -/
def unacked (j : Journal.State) : List Journal.Txn := j.hist.drop j.acked.length

/-- an unacknowledged transaction writes to the state or next pointer of the inode at `off` -/
def pendingAt (j : Journal.State) (off : Nat) : Bool :=
  (unacked j).any (fun t => t.writes.any (fun w => decide (off ≤ w.1 ∧ w.1 < off + 8)))

/-- libblobd-lite/src/bucket.rs:202-253 `delete_object`: the ticket, the writes added to the transaction, the pages to release;
`none` is a panic -/
def unlink (c : LCfg) (s : LSt) (b : Nat) (f : Found) :
    Option (LSt × Overlay.Ticket Cell × List (Nat × List Byte) × List (Nat × Nat)) :=
  let id := rdId (ofBytes f.raw) 0
  let newNext := rawNext s f.raw
  match recPages c.pages s.j.dev f.off (rdMetaPow2 (ofBytes f.raw) 0) with
  | none => none
  | some free =>
    match f.prev with
    | some p =>
      let r := s.ov.set (.next id) newNext
      some ({ s with
          j := { s.j with dev := s.j.dev.write (p + ObjectOffsets.nextNode) (beBytes 6 newNext) }
          ov := r.1
          faults := (if (s.ov.get (.next (rdId s.j.dev p))).isSome then [.pendingPrev] else []) ++ s.faults },
        r.2, [], free)
    | none =>
      let r := s.ov.set (.head b) newNext
      some ({ s with ov := r.1 }, r.2, [(c.bkDev + bucketOff b, encHead newNext)], free)

/-- `commit_transaction` (libblobd-lite/src/journal/real.rs:222-247): `none` as transaction id if there was nothing to write -/
def commitTxn (c : LCfg) (s : LSt) (idle : Bool) (writes : List (Nat × List Byte)) : LSt × Option Nat :=
  let t : Journal.Txn := writes.foldl (fun t w => t.write w.1 w.2) ⟨s.j.hist.length, []⟩
  match Journal.commit c.jc idle t s.j with
  | none => (s, none)
  | some j' => ({ s with j := j' }, some t.id)

def setPc (s : LSt) (i : Nat) (t : Thread) (pc : PC) : LSt := { s with thr := upd s.thr i (some { t with pc := pc }) }

/-- the call answers -/
def respond (s : LSt) (i : Nat) (t : Thread) (r : Resp) : LSt :=
  { s with thr := upd s.thr i none, acks := s.acks ++ [⟨i, t.start, s.lin.length, r⟩] }

def event (s : LSt) (i : Nat) (e : Ev) : LSt := { s with lin := s.lin ++ [(i, e)] }

/-- libblobd-lite/src/object.rs:208-228 with the record on the device (libblobd-lite/src/op/write_object.rs:102-131, libblobd-lite/src/op/read_object.rs:102-112) -/
def rwObj (pages : Pages) (m : Mem) (off : Nat) : RW.Obj :=
  ⟨rdSize m off, fun i => rdLpage m off i, fun i => (rdTailPage pages m off i).getD 0⟩

/-- a matching object was found (libblobd-lite/src/op/inspect_object.rs:27-33, libblobd-lite/src/op/write_object.rs:57-131, libblobd-lite/src/op/delete_object.rs:29-35) -/
def onFound (c : LCfg) (s : LSt) (i : Nat) (t : Thread) (req : Req) (key : List Byte) (f : Found) (idle : Bool) : LSt :=
  let m := ofBytes f.raw
  let id := rdId m 0
  match req with
  | .look want => respond (event s i (.found key want id (rdSize m 0))) i t (.found id (rdSize m 0) f.off)
  | .write wid offset len =>
    let s1 := event s i (.opened key wid (rdSize m 0))
    match RW.writeCheck c.pages (rdSize m 0) offset len with
    | some e => respond s1 i t (.written (.error e))
    | none =>
      match calcObjectLayout c.pages (rdSize m 0) with
      | none => setPc s1 i t .dead
      | some lay => setPc s1 i t (.writing key wid (RW.writeTargets c.pages lay (rwObj c.pages s.j.dev f.off) offset))
  | .delete want =>
    match unlink c s (c.bkt key) f with
    | none => setPc s i t .dead
    | some (s1, ticket, writes, free) =>
      let s2 := event s1 i (.removed key want id)
      let r := commitTxn c s2 idle writes
      let s3 := { r.1 with faults := (if r.2.isNone && pendingAt s.j f.off then [.pendingInode] else []) ++ r.1.faults }
      setPc s3 i t (.wait r.2 free [ticket] .deleted)
  | .commit _ => s

/-- what a lookup expects: state and id (libblobd-lite/src/op/write_object.rs:65, libblobd-lite/src/op/delete_object.rs:29, libblobd-lite/src/op/inspect_object.rs:27) -/
def Req.expects : Req → Nat × Option Nat
  | .look want => (stCommitted, want)
  | .write id _ _ => (stIncomplete, some id)
  | .delete want => (stCommitted, want)
  | .commit id => (stIncomplete, some id)

/-- process the inode just read (libblobd-lite/src/bucket.rs:91-101, 113-117; libblobd-lite/src/op/commit_object.rs:45-51) -/
def onInode (c : LCfg) (s : LSt) (i : Nat) (t : Thread) (req : Req) (key : List Byte) (cur : Nat) (prev : Option Nat)
    (raw : List Byte) (inc ex : Option Found) (idle : Bool) : LSt :=
  let m := ofBytes raw
  let f : Found := ⟨cur, prev, raw⟩
  let st := rawState s raw
  let go (inc ex : Option Found) := setPc s i t (.walk req key (rawNext s raw) (some cur) none inc ex)
  if rdKey m 0 = key then
    if st ≠ stIncomplete ∧ st ≠ stCommitted then setPc s i t .dead  -- `from_u8(..).unwrap()` (libblobd-lite/src/object.rs:169)
    else match req with
      | .commit id =>
        if st = stIncomplete ∧ rdId m 0 = id then go (some f) ex
        else if st = stCommitted then go inc (some f)
        else go inc ex
      | req =>
        if st = req.expects.1 ∧ (req.expects.2.isNone ∨ req.expects.2 = some (rdId m 0)) then onFound c s i t req key f idle
        else go inc ex
  else go inc ex

/-- the end of the list was reached (libblobd-lite/src/op/inspect_object.rs:28, libblobd-lite/src/op/write_object.rs:68, libblobd-lite/src/op/delete_object.rs:41-43,
libblobd-lite/src/op/commit_object.rs:51-84) -/
def onEnd (c : LCfg) (s : LSt) (i : Nat) (t : Thread) (req : Req) (key : List Byte) (inc ex : Option Found)
    (idle : Bool) : LSt :=
  match req with
  | .look want => respond (event s i (.missing key want)) i t .notFound
  | .write id _ _ => respond (event s i (.refused key id)) i t .notFound
  | .delete want => respond (event s i (.missing key want)) i t .notFound
  | .commit id =>
    match inc with
    | none => respond (event s i (.refused key id)) i t .notFound
    | some f =>
      let del : Option (LSt × List (Overlay.Ticket Cell) × List (Nat × List Byte) × List (Nat × Nat)) :=
        match ex with
        | some e =>
          if c.versioning then some (s, [], [], [])
          else (unlink c s (c.bkt key) e).map (fun r => (r.1, [r.2.1], r.2.2.1, r.2.2.2))
        | none => some (s, [], [], [])
      match del with
      | none => setPc s i t .dead
      | some (s1, tickets, writes, free) =>
        let r := s1.ov.set (.state id) stCommitted
        let s2 := event { s1 with ov := r.1 } i (.committed key id)
        let q := commitTxn c s2 idle (writes ++ [(f.off + ObjectOffsets.state, leBytes 1 stCommitted)])
        setPc q.1 i t (.wait q.2 free (r.2 :: tickets) .committed)

/-- a scheduler's choice; `i` is a call -/
inductive Act
  /-- libblobd-lite/src/op/create_object.rs:38-93 -/
  | create (key : List Byte) (size : Nat) (assoc : List Byte) (created id : Nat)
  /-- libblobd-lite/src/op/create_object.rs:96 -/
  | createWritten (i : Nat)
  /-- libblobd-lite/src/op/create_object.rs:98-122 -/
  | createLink (i : Nat) (idle : Bool)
  /-- acquire the lock, read the head (libblobd-lite/src/bucket.rs:85) -/
  | lookup (req : Req) (key : List Byte)
  /-- libblobd-lite/src/bucket.rs:90-92: read the inode -/
  | read (i : Nat)
  /-- libblobd-lite/src/bucket.rs:93-101 and what the caller does with it -/
  | inode (i : Nat) (idle : Bool)
  /-- libblobd-lite/src/bucket.rs:87: no more inodes -/
  | atEnd (i : Nat) (idle : Bool)
  /-- the transaction was acknowledged (or there was none): release pages -/
  | signalled (i : Nat)
  /-- libblobd-lite/src/overlay.rs:51-75 -/
  | evict (i : Nat)
  | respond (i : Nat)
  /-- libblobd-lite/src/op/write_object.rs:158-169, or part of it: bytes `skip..` of page `n` of the part -/
  | data (i n skip : Nat) (bytes : List Byte)
  | writeEnd (i : Nat) (r : Except RW.OpError Unit)
  /-- the future of a lookup, or of a write not at a device write, is dropped -/
  | drop (i : Nat)
  /-- the future of a write is dropped during a device write, which runs on (libblobd-lite/src/device/real.rs:55-64) -/
  | cancel (i n : Nat) (bytes : List Byte)
  | orphan (n : Nat)

/-- libblobd-lite/src/op/create_object.rs:38-93 -/
def create (c : LCfg) (s : LSt) (key : List Byte) (size : Nat) (assoc : List Byte) (created id : Nat) : Option LSt :=
  if key.length < 2 ^ 16 ∧ assoc.length < 2 ^ 16 ∧ size < 2 ^ 40 ∧ created < 2 ^ 48 ∧ id < 2 ^ 128 ∧ id ∉ s.ids then
    match calcObjectLayout c.pages size with
    | none => none
    | some lay =>
      let off : ObjectOffsets :=
        { keyLen := key.length, lpageCount := lay.lpageCount, tailPageCount := lay.tailPageSizes.len, assocDataLen := assoc.length }
      let metaSize := off.totalSize
      let s0 := { s with nextCall := s.nextCall + 1 }
      let w : Begun := ⟨.create key size, s.lin.length⟩
      if metaSize > 2 ^ c.pages.lpage then
        some { s0 with acks := s.acks ++ [⟨s.nextCall, w, s.lin.length, .tooLarge⟩] }
      else
        match Direct.allocPages s.alloc (Direct.dataSizes c.pages lay) with
        | (none, a) => some { s0 with alloc := a, thr := upd s.thr s.nextCall (some ⟨w, .dead⟩) }
        | (some offs, a) =>
          match a.allocate metaSize with
          | (.ok mo, a') =>
            let o : NewObject := ⟨Buddy.requestPow2 c.pages metaSize, id, created, size, key,
              offs.take lay.lpageCount, offs.drop lay.lpageCount, assoc⟩
            some { s0 with alloc := a', ids := id :: s.ids, thr := upd s.thr s.nextCall (some ⟨w, .createWrite o mo⟩) }
          | (_, a') => some { s0 with alloc := a', thr := upd s.thr s.nextCall (some ⟨w, .dead⟩) }
  else none

/-- libblobd-lite/src/op/create_object.rs:98-122 -/
def link (c : LCfg) (s : LSt) (i : Nat) (t : Thread) (o : NewObject) (off : Nat) (idle : Bool) : LSt :=
  let b := c.bkt o.key
  let cur := getHead c s b
  let r1 := s.ov.set (.head b) off
  let r2 := r1.1.set (.next o.id) cur
  let q := commitTxn c (event { s with ov := r2.1 } i (.created o.key o.id o.size)) idle
    [(c.bkDev + bucketOff b, encHead off), (off + ObjectOffsets.nextNode, beBytes 6 cur)]
  setPc q.1 i t (.wait q.2 [] [r1.2, r2.2] (.created o.id))

/-- some walk holds a copy of the inode with this id -/
def copyHeld (s : LSt) (k : Cell) : Bool :=
  (List.range s.nextCall).any (fun i =>
    match s.thr i with
    | some t => t.pc.raws.any (fun raw => k = .state (rdId (ofBytes raw) 0) || k = .next (rdId (ofBytes raw) 0))
    | none => false)

def act (c : LCfg) (s : LSt) : Act → Option LSt
  | .create key size assoc created id => create c s key size assoc created id
  | .createWritten i =>
    match s.thr i with
    | some ⟨st, .createWrite o off⟩ =>
      some (setPc { s with j := { s.j with dev := s.j.dev.write off o.encode } } i ⟨st, .dead⟩ (.createLink o off))
    | _ => none
  | .createLink i idle =>
    match s.thr i with
    | some ⟨st, .createLink o off⟩ =>
      if canLock c s (c.bkt o.key) true then some (link c s i ⟨st, .dead⟩ o off idle) else none
    | _ => none
  | .lookup req key =>
    if canLock c s (c.bkt key) req.exclusive then
      some { s with
        thr := upd s.thr s.nextCall (some ⟨⟨.lookup req key, s.lin.length⟩, .walk req key (getHead c s (c.bkt key)) none none none none⟩)
        nextCall := s.nextCall + 1 }
    else none
  | .read i =>
    match s.thr i with
    | some ⟨st, .walk req key cur prev none inc ex⟩ =>
      if cur = 0 then none
      else some (setPc s i ⟨st, .dead⟩ (.walk req key cur prev
        (some (s.j.dev.read cur ({ keyLen := rdKeyLen s.j.dev cur } : ObjectOffsets).lpages)) inc ex))
    | _ => none
  | .inode i idle =>
    match s.thr i with
    | some ⟨st, .walk req key cur prev (some raw) inc ex⟩ => some (onInode c s i ⟨st, .dead⟩ req key cur prev raw inc ex idle)
    | _ => none
  | .atEnd i idle =>
    match s.thr i with
    | some ⟨st, .walk req key 0 _ none inc ex⟩ => some (onEnd c s i ⟨st, .dead⟩ req key inc ex idle)
    | _ => none
  | .signalled i =>
    match s.thr i with
    | some ⟨st, .wait txn free tickets resp⟩ =>
      if txn.all (fun n => n ∈ s.j.acked) then
        match s.alloc.releaseAll free with
        | some a => some (setPc { s with alloc := a } i ⟨st, .dead⟩ (.evict tickets resp))
        | none => some (setPc s i ⟨st, .dead⟩ .dead)
      else none
    | _ => none
  | .evict i =>
    match s.thr i with
    | some ⟨st, .evict (k :: ks) resp⟩ =>
      some (setPc { s with
          ov := s.ov.evict k
          faults := (if copyHeld s k.key then [.staleCopy] else []) ++ s.faults } i ⟨st, .dead⟩ (.evict ks resp))
    | _ => none
  | .respond i =>
    match s.thr i with
    | some ⟨st, .evict [] resp⟩ => some (respond s i ⟨st, .dead⟩ resp)
    | _ => none
  | .data i n skip bytes =>
    match s.thr i with
    | some ⟨_, .writing _ _ targets⟩ =>
      match targets[n]? with
      | some (amount, page) =>
        if skip + bytes.length ≤ amount then some { s with j := { s.j with dev := s.j.dev.write (page + skip) bytes } } else none
      | none => none
    | _ => none
  | .writeEnd i r =>
    match s.thr i with
    | some ⟨st, .writing _ _ _⟩ => some (respond s i ⟨st, .dead⟩ (.written r))
    | _ => none
  | .drop i =>
    match s.thr i with
    | some ⟨st, .walk ..⟩ => some (setPc s i ⟨st, .dead⟩ .dead)
    | some ⟨st, .writing ..⟩ => some (setPc s i ⟨st, .dead⟩ .dead)
    | _ => none
  | .cancel i n bytes =>
    match s.thr i with
    | some ⟨st, .writing _ _ targets⟩ =>
      match targets[n]? with
      | some (amount, page) =>
        if bytes.length ≤ amount then
          some (setPc { s with orphans := s.orphans ++ [(page, bytes)], faults := .writeCancelled :: s.faults } i ⟨st, .dead⟩ .dead)
        else none
      | none => none
    | _ => none
  | .orphan n =>
    match s.orphans[n]? with
    | some (a, d) => some { s with j := { s.j with dev := s.j.dev.write a d }, orphans := s.orphans.eraseIdx n }
    | none => none

/-- one step of the store: an action of a call, or of the journal (libblobd-lite/src/journal/real.rs:58-123) -/
inductive Step (c : LCfg) : LSt → LSt → Prop
  | act {s s' : LSt} (a : Act) (h : act c s a = some s') : Step c s s'
  | journal {s : LSt} {j' : Journal.State} (h : Journal.Step c.jc s.j j') (hh : j'.hist = s.j.hist) :
      Step c s { s with j := j' }

/-- a formatted device (libblobd-lite/src/bucket.rs:331-342; any other bytes) opened for the first time (libblobd-lite/src/lib.rs:281-330) -/
def fresh (c : LCfg) (dev : Mem) : Option LSt :=
  match Buddy.new c.heap.pageNumBits c.heap.base c.heap.heap c.heap.pages c.heap.dir with
  | some a =>
    some { j := { dev := dev.write c.bkDev (List.replicate (bucketsSize (2 ^ c.bits)) 0) }, ov := {}, alloc := a,
           thr := fun _ => none, nextCall := 0, orphans := [], ids := [], lin := [], acks := [], faults := [] }
  | none => none

/-- all states of all executions from a formatted device -/
inductive Reach (c : LCfg) : LSt → Prop
  | fresh {dev s} : fresh c dev = some s → Reach c s
  | step {s s'} : Reach c s → Step c s s' → Reach c s'

end Lite
end Blobd
