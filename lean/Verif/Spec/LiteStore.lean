import Verif.Model.LiteStore
import Verif.Spec.Journal
import Verif.Spec.ReadWrite
set_option autoImplicit false
/-!
# Specification vocabulary for the lite store

The abstract store: for every key its versions, newest creation first, each incomplete or committed.
-/
namespace Blobd
namespace Lite

/-- a version of a key -/
structure Ver where
  id : Nat
  size : Nat
  committed : Bool
  deriving DecidableEq, Repr

abbrev Abs := List Byte → List Ver

def Abs.set (a : Abs) (k : List Byte) (l : List Ver) : Abs := fun k' => if k' = k then l else a k'

/-- the version asked for: any, or the one with this id -/
def wants (want : Option Nat) (v : Ver) : Bool := want.isNone || want == some v.id

/-- what inspect, read and delete look for: a committed version -/
def Abs.find (a : Abs) (k : List Byte) (want : Option Nat) : Option Ver :=
  (a k).find? (fun v => v.committed && wants want v)

/-- the incomplete version that write and commit look for -/
def Abs.incomplete (a : Abs) (k : List Byte) (id : Nat) : Option Ver :=
  (a k).find? (fun v => !v.committed && v.id == id)

/-- what each event means; `none`: it cannot happen -/
def absStep (versioning : Bool) (a : Abs) : Ev → Option Abs
  | .created k id size => some (a.set k (⟨id, size, false⟩ :: a k))
  | .committed k id =>
    if (a.incomplete k id).isSome then
      some (a.set k (((a k).filter (fun v => versioning || !v.committed)).map
        (fun v => if v.id = id then { v with committed := true } else v)))
    else none
  | .removed k want id =>
    match a.find k want with
    | some v => if v.id = id then some (a.set k ((a k).filter (fun v => v.id ≠ id))) else none
    | none => none
  | .found k want id size =>
    match a.find k want with
    | some v => if v.id = id ∧ v.size = size then some a else none
    | none => none
  | .missing k want => if (a.find k want).isNone then some a else none
  | .opened k id size =>
    match a.incomplete k id with
    | some v => if v.size = size then some a else none
    | none => none
  | .refused k id => if (a.incomplete k id).isNone then some a else none

/-- the key an event is about -/
def Ev.key : Ev → List Byte
  | .created k _ _ => k
  | .committed k _ => k
  | .removed k _ _ => k
  | .found k _ _ _ => k
  | .missing k _ => k
  | .opened k _ _ => k
  | .refused k _ => k

def absRun (versioning : Bool) (evs : List Ev) : Option Abs := evs.foldlM (absStep versioning) (fun _ => [])

/-- without versioning: the visible object of each key is the one committed last, unless removed since -/
def visMap (evs : List Ev) : List Byte → Option Nat :=
  evs.foldl (fun v e => match e with
    | .committed k id => fun k' => if k' = k then some id else v k'
    | .removed k _ _ => fun k' => if k' = k then none else v k'
    | _ => v) (fun _ => none)

/-- the answer to a call is that of its one event, which happened during the call -/
def Explained (lin : List (Nat × Ev)) (a : Ack) : Prop :=
  let own := (((lin.take a.stop).drop a.start.at_).filter (fun e => e.1 = a.id)).map (·.2)
  match a.start.call, a.resp with
  | .create key size, .created id => own = [.created key id size]
  | .create _ _, .tooLarge => own = []
  | .lookup (.look want) key, .found id size _ => own = [.found key want id size]
  | .lookup (.look want) key, .notFound => own = [.missing key want]
  | .lookup (.delete want) key, .deleted => ∃ id, own = [.removed key want id]
  | .lookup (.delete want) key, .notFound => own = [.missing key want]
  | .lookup (.commit id) key, .committed => own = [.committed key id]
  | .lookup (.commit id) key, .notFound => own = [.refused key id]
  | .lookup (.write id _ _) key, .written _ => ∃ size, own = [.opened key id size]
  | .lookup (.write id _ _) key, .notFound => own = [.refused key id]
  | _, _ => False

/-- a usable configuration: page sizes the layout code accepts and that keep offsets 256-byte aligned (bucket heads
drop the low 8 bits); buckets before the journal, the journal before the heap, the heap below 2^48; a 64-bit hash;
a journal that holds the largest transaction (two writes of at most 6 bytes) -/
structure LCfg.Ok (c : LCfg) : Prop where
  sl : c.heap.pages.spage ≤ c.heap.pages.lpage
  l32 : c.heap.pages.lpage < 32
  l24 : c.heap.pages.lpage < c.heap.pages.spage + 24
  s8 : 8 ≤ c.heap.pages.spage
  buckets : c.bkDev + 5 * 2 ^ c.bits ≤ c.jc.devOffset
  journal : c.jc.devOffset + c.jc.cap ≤ c.heap.base
  heapPos : 0 < c.heap.base
  heapEnd : c.heap.base + c.heap.heap ≤ 2 ^ 48
  bitsMin : 12 ≤ c.bits
  bitsMax : c.bits ≤ 48
  hash : ∀ k, c.hash k < 2 ^ 64
  jok : Journal.CfgOk c.jc
  enc : ∀ w : Nat × List Byte, w.2.length ≤ 6 → 36 + 2 * (c.jc.encode w).length ≤ c.jc.cap

/-- no call is running -/
def Idle (s : LSt) : Prop := ∀ i t, s.thr i = some t → t.pc = .dead

/-- some `create_object` call has died: the heap had no room for one of its pages (libblobd-lite/src/op/create_object.rs:84-92 `unwrap`) -/
def CreateFailed (s : LSt) : Prop :=
  ∃ i t, s.thr i = some t ∧ t.pc = .dead ∧ ∃ key size, t.start.call = .create key size

/-- the action starts a call -/
def Act.starts : Act → Prop
  | .create .. => True
  | .lookup .. => True
  | _ => False

/-- executions where a call starts only when no other call is running, and no write is cancelled half way; the
journal still works in the background -/
inductive SeqReach (c : LCfg) : LSt → Prop
  | fresh {dev : Mem} {s : LSt} : fresh c dev = some s → SeqReach c s
  | act {s s' : LSt} (a : Act) : SeqReach c s → act c s a = some s' → (a.starts → Idle s) →
      (∀ i n bytes, a ≠ .cancel i n bytes) → SeqReach c s'
  | journal {s : LSt} {j' : Journal.State} : SeqReach c s → Journal.Step c.jc s.j j' → j'.hist = s.j.hist →
      SeqReach c { s with j := j' }

/-- the next pointer of the inode at `off`, as a walk reads it: the overlay's value if there is one, else the device's
(libblobd-lite/src/bucket.rs:90-92, libblobd-lite/src/object.rs:180-186) -/
def nextOf (s : LSt) (off : Nat) : Nat := (s.ov.get (.next (rdId s.j.dev off))).getD (rdNext s.j.dev off)

/-- the state of the inode at `off`, likewise -/
def stateOf (s : LSt) (off : Nat) : Nat := (s.ov.get (.state (rdId s.j.dev off))).getD (rdState s.j.dev off)

/-- following next pointers from `off` visits exactly `l` and then ends -/
inductive Chain (s : LSt) : Nat → List Nat → Prop
  | nil : Chain s 0 []
  | cons {off : Nat} {l : List Nat} : off ≠ 0 → Chain s (nextOf s off) l → Chain s off (off :: l)

/-- the inode at `off` is in some bucket's list -/
def Listed (c : LCfg) (s : LSt) (off : Nat) : Prop := ∃ b, b < 2 ^ c.bits ∧ ∃ l, Chain s (getHead c s b) l ∧ off ∈ l

/-- the inode at `off` was deleted or replaced by a call that has not released its pages yet (the metadata page is the
last of those it will release) -/
def Leaving (s : LSt) (off : Nat) : Prop :=
  ∃ i st txn free tickets resp pow2, s.thr i = some ⟨st, .wait txn free tickets resp⟩ ∧ free.getLast? = some (off, pow2)

/-- a committed object that is still listed, or one whose pages have not been released -/
def InUse (c : LCfg) (s : LSt) (off : Nat) : Prop := (Listed c s off ∧ stateOf s off = stCommitted) ∨ Leaving s off

/-- the data pages named by the record at `off`: place and size (power of two) -/
def dataAt (c : LCfg) (m : Mem) (off : Nat) : List (Nat × Nat) :=
  match calcObjectLayout c.pages (rdSize m off) with
  | some lay => RW.objPages c.pages lay (rwObj c.pages m off)
  | none => []

/-- `y` is a byte of one of these pages -/
def InPages (ps : List (Nat × Nat)) (y : Nat) : Prop := ∃ p ∈ ps, p.1 ≤ y ∧ y < p.1 + 2 ^ p.2

/-- the inode at `off` as a version: id, size and whether it is committed -/
def verAt (s : LSt) (off : Nat) : Ver := ⟨rdId s.j.dev off, rdSize s.j.dev off, decide (stateOf s off = stCommitted)⟩

/-- consecutive states of one execution -/
def Trace (c : LCfg) (tr : Nat → LSt) (n : Nat) : Prop := ∀ i, i < n → Step c (tr i) (tr (i + 1))

/-- what the event of a step (if any) does to bucket `b`'s list -/
def ListEff (c : LCfg) (s s' : LSt) (b : Nat) (l l' : List Nat) : Option Ev → Prop
  | some (.created k id size) =>
    if b = c.bkt k then ∃ off, l' = off :: l ∧ rdKey s'.j.dev off = k ∧ verAt s' off = ⟨id, size, false⟩ else l' = l
  | some (.removed k _ id) =>
    if b = c.bkt k then ∃ pre off post, l = pre ++ off :: post ∧ l' = pre ++ post ∧ rdKey s.j.dev off = k ∧ rdId s.j.dev off = id ∧
      stateOf s off = stCommitted
    else l' = l
  | some (.committed k id) =>
    if b = c.bkt k then l' = l ∨ (c.versioning = false ∧ ∃ pre off post, l = pre ++ off :: post ∧ l' = pre ++ post ∧
      rdKey s.j.dev off = k ∧ rdId s.j.dev off ≠ id ∧ stateOf s off = stCommitted)
    else l' = l
  | _ => l' = l

/-- an inode in the list before and after the step is the same object, in the same state unless the step commits it -/
def InodeSame (s s' : LSt) (off : Nat) (e : Option Ev) : Prop :=
  rdKey s'.j.dev off = rdKey s.j.dev off ∧ rdId s'.j.dev off = rdId s.j.dev off ∧ rdSize s'.j.dev off = rdSize s.j.dev off ∧
  ((∀ k, e ≠ some (.committed k (rdId s.j.dev off))) → stateOf s' off = stateOf s off)

end Lite
end Blobd
