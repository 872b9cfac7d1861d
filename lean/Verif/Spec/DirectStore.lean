import Verif.Model.DirectStore
import Verif.Spec.ReadWrite
/-!
# Specification vocabulary for the direct store

The abstract store: tokens of incomplete objects and, per key, at most one visible object. `absStep` says
what each event may do; an event that is not possible is `none`.
-/
namespace Blobd
namespace Direct

/-- all states of all executions, with any number of crashes and restarts -/
inductive Reach (c : SCfg) : DSt → Prop
  | fresh {dev s} : fresh c dev = some s → Reach c s
  | step {s s'} : Reach c s → Step c s s' → Reach c s'
  | restart {s s'} (order : List Tuple) : Reach c s → order.Perm (diskTuples c.n s.ts) →
      load c s order = some s' → Reach c s'

structure Abs where
  vis : List Byte → Option Obj
  tokens : Nat → Option Obj

def absStep (a : Abs) : Ev → Option Abs
  | .created id m => if a.tokens id = none then some { a with tokens := upd a.tokens id (some ⟨id, m⟩) } else none
  | .claimed id m => if a.tokens id = some ⟨id, m⟩ then some { a with tokens := upd a.tokens id none } else none
  | .refused id => if a.tokens id = none then some a else none
  | .published _ id m ifne =>
    if ifne = true ∧ a.vis m.key ≠ none then none
    else some { a with vis := updKey a.vis m.key (some ⟨id, m⟩) }
  | .kept _ m => if a.vis m.key ≠ none then some a else none
  | .removed k want id =>
    match a.vis k with
    | some o => if wants want o = true ∧ o.id = id then some { a with vis := updKey a.vis k none } else none
    | none => none
  | .missing k want =>
    match a.vis k with
    | some o => if wants want o = true then none else some a
    | none => some a
  | .found k want id m =>
    match a.vis k with
    | some o => if wants want o = true ∧ o = ⟨id, m⟩ then some a else none
    | none => none

def absRun (a : Abs) (evs : List Ev) : Option Abs := evs.foldlM absStep a

/-- the visible map after events; only `published` and `removed` change it -/
def visMap (base : List Byte → Option Obj) (evs : List Ev) : List Byte → Option Obj :=
  evs.foldl (fun v e => match e with
    | .published _ id m _ => updKey v m.key (some ⟨id, m⟩)
    | .removed k _ _ => updKey v k none
    | _ => v) base

/-- the event changes what is visible under key `k` -/
def Ev.touches (k : List Byte) : Ev → Prop
  | .published _ _ m _ => m.key = k
  | .removed k' _ _ => k' = k
  | _ => False

/-- the id this event gives to an object (a token, or the id of a version) -/
def Ev.newId : Ev → List Nat
  | .created id _ => [id]
  | .published _ id _ _ => [id]
  | _ => []

/-- the answer `r` matches the events of the call `call` between positions `i` and `j` -/
def Explained (lin : List (Nat × Ev)) (a : Ack) : Prop :=
  let own := ((lin.take a.stop).drop a.start).filter (fun e => e.1 = a.call)
  match a.resp with
  | .created id => ∃ m, own.map (·.2) = [.created id m]
  | .committed (some id) => ∃ old m ifne, own.map (·.2) = [.claimed old m, .published old id m ifne]
  | .committed none => ∃ old m, own.map (·.2) = [.claimed old m, .kept old m]
  | .deleted => ∃ k want id, own.map (·.2) = [.removed k want id]
  | .notFound => (∃ id, own.map (·.2) = [.refused id]) ∨ ∃ k want, own.map (·.2) = [.missing k want]
  | .inspected id m => ∃ k want, own.map (·.2) = [.found k want id m]

/-- every byte of the object's metadata page and data pages -/
def objPages (c : SCfg) (mo mp : Nat) (m : Meta) : List (Nat × Nat) := (mo, mp) :: m.dataPages c.pages

/-- objects a call has to delete (because it deletes or replaces them) but whose pages it still keeps -/
def PC.victims : PC → List Obj
  | .commitPublished _ _ ex => ex.toList
  | .commitTuple _ ex _ => ex.toList
  | .reap _ .kept => []
  | .reap o _ => [o]
  | .reapTuple _ _ _ .kept => []
  | .reapTuple o _ _ _ => [o]
  | _ => []

/-- the object is visible, or was and the call deleting or replacing it has not been answered -/
def InUse (s : DSt) (o : Obj) : Prop := s.committed o.m.key = some o ∨ ∃ th ∈ s.threads, o ∈ th.pc.victims

/-- the object as the read and write operations see it -/
def Meta.rw (m : Meta) : RW.Obj := ⟨m.size, fun i => m.lpages.getD i 0, fun i => m.tails.getD i 0⟩

/-- consecutive states of one execution, without a restart -/
def Trace (c : SCfg) (tr : Nat → DSt) (n : Nat) : Prop := ∀ i, i < n → Step c (tr i) (tr (i + 1))

/-- the events the claims about pages exclude -/
def PageFaultFree (s : DSt) : Prop :=
  Fault.largeMetadata ∉ s.faults ∧ Fault.duplicateKey ∉ s.faults ∧ Fault.writeCancelled ∉ s.faults

/-- a configuration: small pages of at least one tuple, large pages below 4 GiB, heap offsets below 2^64 -/
structure SCfg.Ok (c : SCfg) : Prop where
  sl : c.heap.pages.spage ≤ c.heap.pages.lpage
  l32 : c.heap.pages.lpage < 32
  l24 : c.heap.pages.lpage < c.heap.pages.spage + 24
  heapEnd : c.heap.base + c.heap.heap ≤ 2 ^ 64

end Direct
end Blobd
