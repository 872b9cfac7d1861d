import Verif.Model.DirectMeta
import Verif.Model.DirectTuples
import Verif.Spec.Alloc
/-!
# Direct store: one partition as a transition system

libblobd-direct: op/create_object.rs, op/commit_object.rs, op/delete_object.rs, op/inspect_object.rs,
op/write_object.rs (its device writes and locking), objects.rs (loading), on top of the tuple index
(Model/DirectTuples) and the allocator (Model/Buddy).

One step is one atomic action of one task: a map operation, a lock section, the start of a device write
(while it is in flight its target may hold anything) or its completion. All interleavings are allowed.
A device write whose completion was awaited is durable; a tuple bundle page (one small page) is written
atomically. A call that is dropped half-way (its client went away) is a call that takes no further step,
except that a dropped `write_object` also releases its lock (`writeCancel`). The tuple area and the heap are separate memories (C39 shows the regions disjoint). Fresh
random 128-bit object ids are assumed never to repeat.
-/
namespace Blobd
namespace Direct

structure SCfg where
  heap : Spec.HeapCfg
  /-- number of tuple bundles -/
  n : Nat

def SCfg.pages (c : SCfg) : Pages := c.heap.pages
def SCfg.max (c : SCfg) : Nat := maxTuples c.heap.pages

/-- an in-memory `Object` (libblobd-direct/src/object/mod.rs:109-120); `with_new_id` (141-148) makes one with another id -/
structure Obj where
  id : Nat
  m : Meta
  deriving DecidableEq, Repr

/-- why an object is being reaped, i.e. what the call answers afterwards -/
inductive Why
  /-- it was replaced by this object (libblobd-direct/src/op/commit_object.rs:43-53, 68-70) -/
  | replaced (new : Obj)
  /-- `if_not_exists` and the key exists: the new object is discarded (libblobd-direct/src/op/commit_object.rs:42) -/
  | kept
  /-- libblobd-direct/src/op/delete_object.rs:48-61 -/
  | deleted
  deriving DecidableEq, Repr

/-- where a call is -/
inductive PC
  /-- data pages allocated (libblobd-direct/src/op/create_object.rs:45-57) -/
  | createData (m : Meta)
  /-- metadata page being written (libblobd-direct/src/op/create_object.rs:88-92) -/
  | createMeta (o : Obj) (t : Tuple) (page : List Byte)
  /-- metadata written, about to insert the tuple (libblobd-direct/src/op/create_object.rs:94) -/
  | createInsert (o : Obj) (t : Tuple)
  /-- waiting for the tuple to be durable -/
  | createTuple (o : Obj) (ticket : Nat)
  /-- removed from the incomplete objects (libblobd-direct/src/op/commit_object.rs:29-35) -/
  | commitClaimed (o : Obj) (ifne : Bool)
  /-- state set to committed (libblobd-direct/src/object/mod.rs:161-166), waiting for writers (165) -/
  | commitSealed (o : Obj) (ifne : Bool)
  /-- visible under the new id (libblobd-direct/src/op/commit_object.rs:43-53) -/
  | commitPublished (old : Nat) (o : Obj) (existing : Option Obj)
  /-- tuple changed, waiting for it to be durable (libblobd-direct/src/op/commit_object.rs:54-61) -/
  | commitTuple (o : Obj) (existing : Option Obj) (ticket : Nat)
  /-- about to delete the tuple (libblobd-direct/src/op/delete_object.rs:11) -/
  | reap (o : Obj) (why : Why)
  /-- waiting for the deletion to be durable -/
  | reapTuple (o : Obj) (t : Tuple) (ticket : Nat) (why : Why)
  /-- panicked -/
  | dead
  deriving DecidableEq, Repr

/-- what happened, at the moment it took effect -/
inductive Ev
  | created (id : Nat) (m : Meta)
  /-- a commit took the incomplete object -/
  | claimed (id : Nat) (m : Meta)
  /-- a commit found no incomplete object with this id -/
  | refused (id : Nat)
  | published (old id : Nat) (m : Meta) (ifne : Bool)
  /-- `if_not_exists` and the key exists -/
  | kept (id : Nat) (m : Meta)
  | removed (key : List Byte) (want : Option Nat) (id : Nat)
  /-- delete or inspect found nothing -/
  | missing (key : List Byte) (want : Option Nat)
  | found (key : List Byte) (want : Option Nat) (id : Nat) (m : Meta)
  deriving DecidableEq, Repr

/-- answers -/
inductive Resp
  | created (id : Nat)
  | committed (id : Option Nat)
  | deleted
  | notFound
  | inspected (id : Nat) (m : Meta)
  deriving DecidableEq, Repr

structure Thread where
  call : Nat
  /-- how many events had happened when the call started -/
  start : Nat
  pc : PC
  deriving DecidableEq, Repr

structure Ack where
  call : Nat
  start : Nat
  stop : Nat
  resp : Resp
  deriving DecidableEq, Repr

/-- events some claims exclude; recorded as they happen -/
inductive Fault
  /-- the metadata page size recorded in the tuple is not the one allocated (C30) -/
  | largeMetadata
  /-- a restart found two committed objects with one key -/
  | duplicateKey
  /-- a commit or delete took effect on a key while another one on that key was not finished -/
  | overlap
  /-- a `write_object` call was dropped (e.g. its client went away) during a device write -/
  | writeCancelled
  deriving DecidableEq, Repr

/-- ghost: an object's place on the device -/
inductive RecSt
  /-- not in any tuple yet -/
  | fresh
  /-- has a tuple in bundle `b` -/
  | live (b : Nat)
  /-- its tuple was removed from bundle `b` in memory -/
  | dying (b : Nat)
  deriving DecidableEq, Repr

structure Rec where
  mo : Nat
  mp : Nat
  m : Meta
  st : RecSt
  deriving DecidableEq, Repr

/-- a data write holding the object's lock (libblobd-direct/src/op/write_object.rs:131-160) -/
structure Writer where
  id : Nat
  off : Nat
  data : List Byte

structure DSt where
  dev : Mem
  alloc : Buddy
  ts : TS
  incomplete : Nat → Option Obj
  committed : List Byte → Option Obj
  /-- `Object` clones held by `write_object` calls (libblobd-direct/src/op/write_object.rs:45-49) -/
  handles : List Obj
  /-- ids of incomplete objects whose state was set to committed -/
  sealed : List Nat
  writers : List Writer
  /-- device writes of dropped `write_object` calls, still running but no longer holding the lock -/
  orphans : List Writer
  threads : List Thread
  nextCall : Nat
  /-- ghost: for each id ever used, the object's metadata page and metadata -/
  names : Nat → Option (Nat × Meta)
  recs : List Rec
  /-- ghost: the visible map and tokens at the last start -/
  base : (List Byte → Option Obj) × (Nat → Option Obj)
  /-- ghost: what happened since the last start -/
  lin : List (Nat × Ev)
  acks : List Ack
  faults : List Fault

/-- libblobd-direct/src/op/create_object.rs:45-57: allocate pages one after another; `none` if one fails (`unwrap`) -/
def allocPages : Buddy → List Nat → Option (List Nat) × Buddy
  | b, [] => (some [], b)
  | b, s :: ss =>
    match b.allocate s with
    | (.ok off, b1) =>
      match allocPages b1 ss with
      | (some os, b2) => (some (off :: os), b2)
      | (none, b2) => (none, b2)
    | (_, b1) => (none, b1)

/-- the sizes requested for an object's data (libblobd-direct/src/op/create_object.rs:45-57) -/
def dataSizes (pages : Pages) (lay : ObjectLayout) : List Nat :=
  List.replicate lay.lpageCount (2 ^ pages.lpage) ++ lay.tailPageSizes.toList.map (2 ^ ·)

/-- libblobd-direct/src/op/delete_object.rs:50, libblobd-direct/src/op/inspect_object.rs:28: the requested version -/
def wants (want : Option Nat) (o : Obj) : Bool := want.isNone || want == some o.id

/-- the key a call's unfinished commit or delete concerns -/
def PC.key : PC → Option (List Byte)
  | .commitPublished _ o _ => some o.m.key
  | .commitTuple o _ _ => some o.m.key
  | .reap _ .kept => none
  | .reap o _ => some o.m.key
  | .reapTuple _ _ _ .kept => none
  | .reapTuple o _ _ _ => some o.m.key
  | _ => none

def busy (s : DSt) (k : List Byte) : Bool := s.threads.any (fun t => t.pc.key = some k)

def updKey {β : Type} (f : List Byte → β) (k : List Byte) (v : β) : List Byte → β :=
  fun j => if j = k then v else f j

def Why.resp : Why → Resp
  | .replaced new => .committed (some new.id)
  | .kept => .committed none
  | .deleted => .deleted

/-- ghost bookkeeping: the record at `mo` moves on -/
def setRec (recs : List Rec) (mo : Nat) (st : RecSt) : List Rec :=
  recs.map (fun r => if r.mo = mo then { r with st := st } else r)

/-- the bundle that `insert_object` will choose (libblobd-direct/src/tuples.rs:76-80) -/
def chosen (n : Nat) (ts : TS) : Nat := ((bmMin n ts.freeDirty).or (bmMin n ts.free)).getD 0

/-- byte `x` may change because a write is in flight -/
def DevTarget (s : DSt) (x : Nat) : Prop :=
  (∃ th ∈ s.threads, ∃ o t page, th.pc = .createMeta o t page ∧ t.metaOff ≤ x ∧ x < t.metaOff + page.length) ∨
  (∃ w ∈ s.writers ++ s.orphans, w.off ≤ x ∧ x < w.off + w.data.length)

def withPc (th : Thread) (pc : PC) : Thread := { th with pc := pc }

inductive Step (c : SCfg) : DSt → DSt → Prop
  /-- libblobd-direct/src/op/create_object.rs:43-65: layout and data pages -/
  | createData {s lay offs a'} (key : List Byte) (size created : Nat) :
      size < 2 ^ 64 → created < 2 ^ 63 →
      calcObjectLayoutDirect c.pages size = some lay →
      allocPages s.alloc (dataSizes c.pages lay) = (some offs, a') →
      Step c s { s with
        alloc := a'
        threads := s.threads ++ [⟨s.nextCall, s.lin.length,
          .createData ⟨size, created, key, offs.take lay.lpageCount, offs.drop lay.lpageCount⟩⟩]
        nextCall := s.nextCall + 1 }
  /-- out of space: the call panics, keeping what it got (libblobd-direct/src/op/create_object.rs:50, 54) -/
  | createDataPanic {s lay a'} (size : Nat) :
      calcObjectLayoutDirect c.pages size = some lay →
      allocPages s.alloc (dataSizes c.pages lay) = (none, a') →
      Step c s { s with
        alloc := a'
        threads := s.threads ++ [⟨s.nextCall, s.lin.length, .dead⟩]
        nextCall := s.nextCall + 1 }
  /-- libblobd-direct/src/op/create_object.rs:67-92: metadata page, new id -/
  | createMeta {s pre th post m mo a' id} (junk : List Byte) : s.threads = pre ++ th :: post →
      th.pc = .createData m → m.enc.length ≤ 2 ^ c.pages.lpage →
      s.alloc.allocate m.enc.length = (.ok mo, a') → s.names id = none →
      junk.length + m.enc.length = MetaPage.directPageSize c.pages m.enc.length →
      Step c s { s with
        alloc := a'
        threads := pre ++ withPc th (.createMeta ⟨id, m⟩
          ⟨.incomplete, id, mo, MetaPage.directRecorded c.pages m.enc.length⟩ (m.enc ++ junk)) :: post
        names := upd s.names id (some (mo, m))
        recs := ⟨mo, MetaPage.directRecorded c.pages m.enc.length, m, .fresh⟩ :: s.recs
        faults := (if MetaPage.directRecorded c.pages m.enc.length = MetaPage.allocated c.pages m.enc.length
          then [] else [.largeMetadata]) ++ s.faults }
  /-- libblobd-direct/src/op/create_object.rs:73 (metadata too large) or 74 (out of space): the call panics -/
  | createMetaPanic {s pre th post m a'} : s.threads = pre ++ th :: post → th.pc = .createData m →
      (2 ^ c.pages.lpage < m.enc.length ∧ a' = s.alloc ∨
        m.enc.length ≤ 2 ^ c.pages.lpage ∧ s.alloc.allocate m.enc.length = (.err .outOfSpace, a')) →
      Step c s { s with alloc := a', threads := pre ++ withPc th .dead :: post }
  /-- writes in flight reach the device partially, in any order -/
  | device {s} (dev' : Mem) : (∀ x, dev' x ≠ s.dev x → DevTarget s x) → Step c s { s with dev := dev' }
  /-- the metadata is written (libblobd-direct/src/op/create_object.rs:92) -/
  | metaWritten {s pre th post o t page} : s.threads = pre ++ th :: post → th.pc = .createMeta o t page →
      Step c s { s with
        dev := s.dev.write t.metaOff page
        threads := pre ++ withPc th (.createInsert o t) :: post }
  /-- libblobd-direct/src/op/create_object.rs:94, libblobd-direct/src/tuples.rs:73-97 -/
  | createInsert {s pre th post o t ts'} : s.threads = pre ++ th :: post → th.pc = .createInsert o t →
      s.ts.insertObject c.max c.n t = some ts' →
      Step c s { s with
        ts := ts'
        threads := pre ++ withPc th (.createTuple o s.ts.next) :: post
        recs := setRec s.recs t.metaOff (.live (chosen c.n s.ts)) }
  /-- no room for tuples (libblobd-direct/src/tuples.rs:80) -/
  | createInsertPanic {s pre th post o t} : s.threads = pre ++ th :: post → th.pc = .createInsert o t →
      s.ts.insertObject c.max c.n t = none →
      Step c s { s with threads := pre ++ withPc th .dead :: post }
  /-- libblobd-direct/src/op/create_object.rs:97-102 and the answer -/
  | created {s pre th post o ticket} : s.threads = pre ++ th :: post → th.pc = .createTuple o ticket →
      ticket ∈ s.ts.fired →
      Step c s { s with
        threads := pre ++ post
        incomplete := upd s.incomplete o.id (some o)
        lin := s.lin ++ [(th.call, .created o.id o.m)]
        acks := s.acks ++ [⟨th.call, th.start, s.lin.length + 1, .created o.id⟩] }
  /-- libblobd-direct/src/op/write_object.rs:45-49 -/
  | openHandle {s o} (id : Nat) : s.incomplete id = some o → Step c s { s with handles := o :: s.handles }
  /-- libblobd-direct/src/op/write_object.rs:131-145: lock taken, state checked, device write started -/
  | writeStart {s o off p} (data : List Byte) : o ∈ s.handles → o.id ∉ s.sealed →
      (off, p) ∈ o.m.dataPages c.pages → data.length ≤ 2 ^ p →
      Step c s { s with writers := s.writers ++ [⟨o.id, off, data⟩] }
  /-- libblobd-direct/src/op/write_object.rs:145-159 -/
  | writeDone {s pre w post} : s.writers = pre ++ w :: post →
      Step c s { s with dev := s.dev.write w.off w.data, writers := pre ++ post }
  /-- the `write_object` future is dropped while its device write runs: the lock guard goes
  (libblobd-direct/src/op/write_object.rs:131-145), the write, a blocking task or a submitted request (libblobd-direct/src/backing_store/file.rs:43-54,
  uring.rs), runs on -/
  | writeCancel {s pre w post} : s.writers = pre ++ w :: post →
      Step c s { s with
        writers := pre ++ post, orphans := s.orphans ++ [w]
        faults := .writeCancelled :: s.faults }
  | orphanDone {s pre w post} : s.orphans = pre ++ w :: post →
      Step c s { s with dev := s.dev.write w.off w.data, orphans := pre ++ post }
  /-- libblobd-direct/src/op/commit_object.rs:29-38 -/
  | commitClaim {s o} (id : Nat) (ifne : Bool) : s.incomplete id = some o →
      Step c s { s with
        incomplete := upd s.incomplete id none
        threads := s.threads ++ [⟨s.nextCall, s.lin.length, .commitClaimed o ifne⟩]
        lin := s.lin ++ [(s.nextCall, .claimed id o.m)]
        nextCall := s.nextCall + 1 }
  /-- libblobd-direct/src/op/commit_object.rs:33-35 -/
  | commitRefused {s} (id : Nat) : s.incomplete id = none →
      Step c s { s with
        lin := s.lin ++ [(s.nextCall, .refused id)]
        acks := s.acks ++ [⟨s.nextCall, s.lin.length, s.lin.length + 1, .notFound⟩]
        nextCall := s.nextCall + 1 }
  /-- libblobd-direct/src/object/mod.rs:161-166 -/
  | commitSeal {s pre th post o ifne} : s.threads = pre ++ th :: post → th.pc = .commitClaimed o ifne →
      Step c s { s with
        sealed := o.id :: s.sealed
        threads := pre ++ withPc th (.commitSealed o ifne) :: post }
  /-- libblobd-direct/src/op/commit_object.rs:41-42: no writers left; `if_not_exists` and the key exists -/
  | commitKept {s pre th post o} : s.threads = pre ++ th :: post → th.pc = .commitSealed o true →
      (∀ w ∈ s.writers, w.id ≠ o.id) → s.committed o.m.key ≠ none →
      Step c s { s with
        threads := pre ++ withPc th (.reap o .kept) :: post
        lin := s.lin ++ [(th.call, .kept o.id o.m)] }
  /-- libblobd-direct/src/op/commit_object.rs:41-53: no writers left; the object becomes visible -/
  | commitPublish {s pre th post o ifne newId} : s.threads = pre ++ th :: post → th.pc = .commitSealed o ifne →
      (∀ w ∈ s.writers, w.id ≠ o.id) → (ifne = true → s.committed o.m.key = none) → s.names newId = none →
      Step c s { s with
        committed := updKey s.committed o.m.key (some ⟨newId, o.m⟩)
        threads := pre ++ withPc th (.commitPublished o.id ⟨newId, o.m⟩ (s.committed o.m.key)) :: post
        names := upd s.names newId (s.names o.id)
        lin := s.lin ++ [(th.call, .published o.id newId o.m ifne)]
        faults := (if busy s o.m.key then [.overlap] else []) ++ s.faults }
  /-- libblobd-direct/src/op/commit_object.rs:54-61, libblobd-direct/src/tuples.rs:99-128 -/
  | commitUpdate {s pre th post old o ex ts'} : s.threads = pre ++ th :: post →
      th.pc = .commitPublished old o ex → s.ts.updateObject c.max old o.id .committed = some ts' →
      Step c s { s with
        ts := ts'
        threads := pre ++ withPc th (.commitTuple o ex s.ts.next) :: post }
  /-- the tuple is gone (libblobd-direct/src/tuples.rs:107) -/
  | commitUpdatePanic {s pre th post old o ex} : s.threads = pre ++ th :: post →
      th.pc = .commitPublished old o ex → s.ts.updateObject c.max old o.id .committed = none →
      Step c s { s with threads := pre ++ withPc th .dead :: post }
  /-- libblobd-direct/src/op/commit_object.rs:61-62, 91-93: durable, nothing replaced -/
  | commitDone {s pre th post o ticket} : s.threads = pre ++ th :: post → th.pc = .commitTuple o none ticket →
      ticket ∈ s.ts.fired →
      Step c s { s with
        threads := pre ++ post
        acks := s.acks ++ [⟨th.call, th.start, s.lin.length, .committed (some o.id)⟩] }
  /-- libblobd-direct/src/op/commit_object.rs:61-62, 68-69: durable, now reap the replaced object -/
  | commitReap {s pre th post o e ticket} : s.threads = pre ++ th :: post →
      th.pc = .commitTuple o (some e) ticket → ticket ∈ s.ts.fired →
      Step c s { s with threads := pre ++ withPc th (.reap e (.replaced o)) :: post }
  /-- libblobd-direct/src/op/delete_object.rs:44-53 -/
  | delete {s o} (k : List Byte) (want : Option Nat) : s.committed k = some o → wants want o = true →
      Step c s { s with
        committed := updKey s.committed k none
        threads := s.threads ++ [⟨s.nextCall, s.lin.length, .reap o .deleted⟩]
        lin := s.lin ++ [(s.nextCall, .removed k want o.id)]
        nextCall := s.nextCall + 1
        faults := (if busy s k then [.overlap] else []) ++ s.faults }
  /-- libblobd-direct/src/op/delete_object.rs:51-53, libblobd-direct/src/op/inspect_object.rs:25-32: not found -/
  | missing {s} (k : List Byte) (want : Option Nat) : (∀ o, s.committed k = some o → wants want o = false) →
      Step c s { s with
        lin := s.lin ++ [(s.nextCall, .missing k want)]
        acks := s.acks ++ [⟨s.nextCall, s.lin.length, s.lin.length + 1, .notFound⟩]
        nextCall := s.nextCall + 1 }
  /-- libblobd-direct/src/op/inspect_object.rs:25-38 -/
  | inspect {s o} (k : List Byte) (want : Option Nat) : s.committed k = some o → wants want o = true →
      Step c s { s with
        lin := s.lin ++ [(s.nextCall, .found k want o.id o.m)]
        acks := s.acks ++ [⟨s.nextCall, s.lin.length, s.lin.length + 1, .inspected o.id o.m⟩]
        nextCall := s.nextCall + 1 }
  /-- libblobd-direct/src/op/delete_object.rs:11, libblobd-direct/src/tuples.rs:130-145 -/
  | reapTuple {s pre th post o why ts' t} : s.threads = pre ++ th :: post → th.pc = .reap o why →
      s.ts.deleteObject o.id = some (ts', t) →
      Step c s { s with
        ts := ts'
        threads := pre ++ withPc th (.reapTuple o t s.ts.next why) :: post
        recs := setRec s.recs t.metaOff (.dying ((s.ts.toBundle o.id).getD 0)) }
  /-- no such tuple (libblobd-direct/src/tuples.rs:133 `unwrap`): the call panics -/
  | reapPanic {s pre th post o why} : s.threads = pre ++ th :: post → th.pc = .reap o why →
      s.ts.deleteObject o.id = none →
      Step c s { s with threads := pre ++ withPc th .dead :: post }
  /-- libblobd-direct/src/op/delete_object.rs:13-26: the deletion is durable; release the pages and answer -/
  | reaped {s pre th post o t ticket why a'} : s.threads = pre ++ th :: post → th.pc = .reapTuple o t ticket why →
      ticket ∈ s.ts.fired →
      s.alloc.releaseAll (o.m.dataPages c.pages ++ [(t.metaOff, t.metaPow2)]) = some a' →
      Step c s { s with
        alloc := a'
        threads := pre ++ post
        recs := s.recs.filter (fun r => r.mo ≠ t.metaOff)
        acks := s.acks ++ [⟨th.call, th.start, s.lin.length, why.resp⟩] }
  /-- the background commit loop of the tuple index -/
  | bg {s ts'} : TS.BgStep c.n s.ts ts' → Step c s { s with ts := ts' }

/-! ## Start-up (libblobd-direct/src/objects.rs:67-202) -/

/-- the in-memory structures being rebuilt -/
structure LoadSt where
  alloc : Buddy
  incomplete : Nat → Option Obj
  committed : List Byte → Option Obj
  /-- two committed objects with one key were seen -/
  dup : Bool

/-- libblobd-direct/src/objects.rs:105-180 for one tuple; `none` is a panic -/
def loadOne (c : SCfg) (dev : Mem) (l : LoadSt) (t : Tuple) : Option LoadSt :=
  match Meta.dec (dev.read t.metaOff (2 ^ t.metaPow2)) with
  | none => none
  | some m =>
    match calcObjectLayoutDirect c.pages m.size with
    | none => none
    | some _ =>
      let o : Obj := ⟨t.id, m⟩
      let mark (l : LoadSt) : Option LoadSt :=
        match Spec.markAll l.alloc ((t.metaOff, t.metaPow2) :: m.dataPages c.pages) with
        | none => none
        | some a => some { l with alloc := a }
      match t.state with
      | .incomplete =>
        if (l.incomplete t.id).isSome then none
        else mark { l with incomplete := upd l.incomplete t.id (some o) }
      | .committed =>
        match l.committed m.key with
        | none => mark { l with committed := updKey l.committed m.key (some o) }
        | some e =>
          if e.id = t.id then none
          else if e.id > t.id then some { l with dup := true }
          else mark { l with committed := updKey l.committed m.key (some o), dup := true }

/-- all tuples, in the order in which the concurrent loop handles them -/
def loadAll (c : SCfg) (dev : Mem) (l : LoadSt) (order : List Tuple) : Option LoadSt :=
  order.foldlM (loadOne c dev) l

/-- the tuples in the tuple area -/
def diskTuples (n : Nat) (ts : TS) : List Tuple := (List.range n).flatMap ts.disk

/-- ghost bookkeeping: the records of the tuples found at start-up -/
def diskRecs (n : Nat) (dev : Mem) (ts : TS) : List Rec :=
  (List.range n).flatMap (fun b => (ts.disk b).filterMap (fun t =>
    (Meta.dec (dev.read t.metaOff (2 ^ t.metaPow2))).map (fun m => ⟨t.metaOff, t.metaPow2, m, .live b⟩)))

/-- libblobd-direct/src/partition/mod.rs:70-107 after a crash: `some` if nothing panics. `order` is the order in which the
loop over bundles (concurrent, libblobd-direct/src/objects.rs:94) reaches the tuples. -/
noncomputable def load (c : SCfg) (s : DSt) (order : List Tuple) : Option DSt :=
  match Buddy.new c.heap.pageNumBits c.heap.base c.heap.heap c.heap.pages c.heap.dir with
  | none => none
  | some a0 =>
    match loadAll c s.dev ⟨a0, fun _ => none, fun _ => none, false⟩ order with
    | none => none
    | some l =>
      open Classical in
      if TS.newOk c.max c.n s.ts.disk then some {
        dev := s.dev, alloc := l.alloc, ts := TS.new c.max c.n s.ts.disk
        incomplete := l.incomplete, committed := l.committed
        handles := [], sealed := [], writers := [], orphans := [], threads := []
        nextCall := s.nextCall, names := s.names
        recs := diskRecs c.n s.dev s.ts
        base := (l.committed, l.incomplete), lin := [], acks := []
        faults := (if l.dup then [.duplicateKey] else []) ++ s.faults }
      else none

/-- a formatted partition (libblobd-direct/src/partition/mod.rs:61-64), started -/
def fresh (c : SCfg) (dev : Mem) : Option DSt :=
  match Buddy.new c.heap.pageNumBits c.heap.base c.heap.heap c.heap.pages c.heap.dir with
  | none => none
  | some a0 => some {
      dev := dev, alloc := a0, ts := TS.new c.max c.n (fun _ => [])
      incomplete := fun _ => none, committed := fun _ => none
      handles := [], sealed := [], writers := [], orphans := [], threads := []
      nextCall := 0, names := fun _ => none, recs := []
      base := (fun _ => none, fun _ => none), lin := [], acks := [], faults := [] }

end Direct
end Blobd
