import Verif.Model.DirectTuple
/-!
# Direct store: the in-memory tuple index and its background commit loop

libblobd-direct/src/tuples.rs:27-196. The state is protected by one mutex; each operation is one lock
section followed by waiting for a signal, so an operation is modelled by its lock section (a function on
the state that also hands out a *ticket*) and the wait is "until the ticket has fired". The three
bitmaps are membership functions on bundle ids; a bundle's `HashMap` is the list of its entries (its
iteration order, which is arbitrary in the code, is irrelevant to every statement). `disk b` is what
decoding bundle `b`'s page would yield (see C24 for the bytes). `none` is a panic.
-/
namespace Blobd
namespace Direct

structure TS where
  /-- `object_id_to_bundle` -/
  toBundle : Nat → Option Nat
  /-- `bundle_tuples` -/
  bundles : Nat → List Tuple
  free : Nat → Bool
  dirty : Nat → Bool
  freeDirty : Nat → Bool
  /-- `dirty_signals`: tickets of operations waiting for the next batch -/
  waiting : List Nat
  /-- background loop between its lock section and its signals: page writes still to perform, and the
  tickets to fire afterwards; `none` at the top of the loop -/
  batch : Option (List (Nat × List Tuple) × List Nat)
  /-- tickets already signalled -/
  fired : List Nat
  /-- next ticket number -/
  next : Nat
  disk : Nat → List Tuple

/-- function update -/
def upd {β : Type} (f : Nat → β) (i : Nat) (v : β) : Nat → β := fun j => if j = i then v else f j

/-- `RoaringBitmap::min` on bundle ids below `n` -/
def bmMin (n : Nat) (s : Nat → Bool) : Option Nat := (List.range n).find? s

namespace TS

/-- libblobd-direct/src/tuples.rs:49-71 `Tuples::new` on a device whose tuple area decodes to `init` -/
def new (max n : Nat) (init : Nat → List Tuple) : TS where
  toBundle := fun id => (List.range n).find? (fun b => (init b).any (fun t => t.id == id))
  bundles := init
  free := fun b => decide (b < n) && decide ((init b).length < max)
  dirty := fun _ => false
  freeDirty := fun _ => false
  waiting := []
  batch := none
  fired := []
  next := 0
  disk := init

/-- the asserts of libblobd-direct/src/tuples.rs:55-61: no bundle too long, no id twice -/
def newOk (max n : Nat) (init : Nat → List Tuple) : Prop :=
  (∀ b, b < n → (init b).length ≤ max) ∧ (∀ b, n ≤ b → init b = []) ∧
  (∀ b, b < n → ((init b).map (·.id)).Nodup) ∧
  (∀ b c, b < n → c < n → b ≠ c → ∀ t ∈ init b, ∀ u ∈ init c, t.id ≠ u.id)

/-- libblobd-direct/src/tuples.rs:73-97 `insert_object`; the ticket handed out is `s.next` -/
def insertObject (max n : Nat) (s : TS) (o : Tuple) : Option TS := do
  let b ← (bmMin n s.freeDirty).or (bmMin n s.free)
  if (s.toBundle o.id).isSome then none
  else if (s.bundles b).any (fun t => t.id == o.id) then none
  else
    let bundle := s.bundles b ++ [o]
    if bundle.length > max then none
    else some { s with
      toBundle := upd s.toBundle o.id (some b),
      bundles := upd s.bundles b bundle,
      freeDirty := upd s.freeDirty b (decide (bundle.length ≠ max)),
      free := if bundle.length = max then upd s.free b false else s.free,
      dirty := upd s.dirty b true,
      waiting := s.waiting ++ [s.next],
      next := s.next + 1 }

/-- libblobd-direct/src/tuples.rs:99-128 `update_object_id_and_state` -/
def updateObject (max : Nat) (s : TS) (cur new : Nat) (st : ObjState) : Option TS := do
  let b ← s.toBundle cur
  let t ← (s.bundles b).find? (fun t => t.id == cur)
  let rest := (s.bundles b).filter (fun t => t.id != cur)
  let tb := upd s.toBundle cur none
  if rest.any (fun t => t.id == new) then none
  else if (tb new).isSome then none
  else some { s with
    toBundle := upd tb new (some b),
    bundles := upd s.bundles b (rest ++ [{ t with id := new, state := st }]),
    freeDirty := if (s.bundles b).length < max then upd s.freeDirty b true else s.freeDirty,
    dirty := upd s.dirty b true,
    waiting := s.waiting ++ [s.next],
    next := s.next + 1 }

/-- libblobd-direct/src/tuples.rs:130-145 `delete_object`; also returns the tuple -/
def deleteObject (s : TS) (id : Nat) : Option (TS × Tuple) := do
  let b ← s.toBundle id
  let t ← (s.bundles b).find? (fun t => t.id == id)
  some ({ s with
    toBundle := upd s.toBundle id none,
    bundles := upd s.bundles b ((s.bundles b).filter (fun t => t.id != id)),
    freeDirty := upd s.freeDirty b true,
    dirty := upd s.dirty b true,
    waiting := s.waiting ++ [s.next],
    next := s.next + 1 }, t)

/-- libblobd-direct/src/tuples.rs:152-164: the lock section of the background loop (only when the previous round is over).
When nothing changed, libblobd-direct/src/tuples.rs:165-169 drops the drained signals and starts over. -/
def snapshot (n : Nat) (s : TS) : TS :=
  let changes := ((List.range n).filter s.dirty).map (fun b => (b, s.bundles b))
  { s with
    dirty := fun _ => false, freeDirty := fun _ => false, waiting := [],
    batch := if changes.isEmpty then none else some (changes, s.waiting) }

/-- libblobd-direct/src/tuples.rs:170-190: one of the concurrent page writes of the round completes -/
def writePage (s : TS) (i : Nat) : Option TS :=
  match s.batch with
  | none => none
  | some (ws, sig) =>
    match ws[i]? with
    | none => none
    | some (b, ts) => some { s with batch := some (ws.eraseIdx i, sig), disk := upd s.disk b ts }

/-- libblobd-direct/src/tuples.rs:191-193: all writes done, fire the signals -/
def signal (s : TS) : Option TS :=
  match s.batch with
  | some ([], sig) => some { s with batch := none, fired := s.fired ++ sig }
  | _ => none

/-- one step of the background loop -/
inductive BgStep (n : Nat) : TS → TS → Prop
  | snapshot {s : TS} (h : s.batch = none) : BgStep n s (s.snapshot n)
  | write {s s' : TS} (i : Nat) (h : s.writePage i = some s') : BgStep n s s'
  | signal {s s' : TS} (h : s.signal = some s') : BgStep n s s'

/-- One step of the tuple index: an operation that did not panic, or the background loop. -/
inductive Step (max n : Nat) : TS → TS → Prop
  | insert {s s' : TS} (o : Tuple) (h : s.insertObject max n o = some s') : Step max n s s'
  | update {s s' : TS} (cur new : Nat) (st : ObjState) (h : s.updateObject max cur new st = some s') : Step max n s s'
  | delete {s s' : TS} (id : Nat) (t : Tuple) (h : s.deleteObject id = some (s', t)) : Step max n s s'
  | bg {s s' : TS} (h : BgStep n s s') : Step max n s s'

end TS
end Direct
end Blobd
