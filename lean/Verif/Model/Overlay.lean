import Verif.Model.Journal
/-!
# The overlay of pending metadata values: libblobd-lite/src/overlay.rs

The three `DashMap`s `bucket_heads`, `object_states`, `object_nexts` (libblobd-lite/src/overlay.rs:17-22) behave
identically and are one map here, keyed by an arbitrary key type `K` (a key says which of the three
maps and which entry). Serial numbers are naturals (no wrap-around of the `u64` counter). A DashMap
operation is atomic.
-/
namespace Blobd
namespace Overlay

/-- libblobd-lite/src/overlay.rs:17-27 -/
structure Ov (K V : Type) where
  nextSerial : Nat := 0
  map : K → Option (Nat × V) := fun _ => none

/-- libblobd-lite/src/overlay.rs:29-35 -/
structure Ticket (K : Type) where
  key : K
  serial : Nat

variable {K V : Type} [DecidableEq K]

/-- libblobd-lite/src/overlay.rs:81-85, 91-97, 103-107 `set_*` -/
def Ov.set (o : Ov K V) (k : K) (v : V) : Ov K V × Ticket K :=
  ({ nextSerial := o.nextSerial + 1,
     map := fun k' => if k' = k then some (o.nextSerial, v) else o.map k' },
   { key := k, serial := o.nextSerial })

/-- libblobd-lite/src/overlay.rs:77-79, 87-89, 99-101 `get_*` -/
def Ov.get (o : Ov K V) (k : K) : Option V := (o.map k).map (·.2)

/-- libblobd-lite/src/overlay.rs:51-75 `evict`: only if the entry still has the ticket's serial -/
def Ov.evict (o : Ov K V) (t : Ticket K) : Ov K V :=
  { o with map := fun k' =>
      if k' = t.key then
        match o.map t.key with
        | some (s, v) => if s = t.serial then none else some (s, v)
        | none => none
      else o.map k' }

/-- set several values in order, collecting the tickets -/
def Ov.setAll (o : Ov K V) : List (K × V) → Ov K V × List (Ticket K)
  | [] => (o, [])
  | (k, v) :: rest =>
    let r := o.set k v
    let r' := r.1.setAll rest
    (r'.1, r.2 :: r'.2)

/-- How a metadata field lives on the device: a fixed-width cell with an encoding. -/
structure Cells (K V : Type) where
  addr : K → Nat
  width : K → Nat
  enc : K → V → List Byte
  dec : K → List Byte → V

/-- The journal together with the overlay and the tickets held by operations in progress. -/
structure State (K V : Type) where
  j : Journal.State
  ov : Ov K V := {}
  /-- tickets not yet evicted, with the transaction their operation is waiting for -/
  held : List (Nat × Ticket K) := []
  /-- ghost: all field updates so far, in order, one list per transaction -/
  updates : List (List (K × V)) := []

/-- Reading a field: overlay first, else the device (libblobd-lite/src/bucket.rs:123-133, libblobd-lite/src/object.rs:165-186). -/
def State.get (cs : Cells K V) (s : State K V) (k : K) : V :=
  (s.ov.get k).getD (cs.dec k (s.j.dev.read (cs.addr k) (cs.width k)))

/-- The journal transaction of a list of field updates. -/
def txnOf (cs : Cells K V) (id : Nat) (kvs : List (K × V)) : Journal.Txn :=
  kvs.foldl (fun t kv => t.write (cs.addr kv.1) (cs.enc kv.1 kv.2)) ⟨id, []⟩

/-- Steps of the combined system. `update` is what an operation does while holding the bucket lock:
set overlay values, append the writes to a transaction and commit it (libblobd-lite/src/op/create_object.rs:98-122,
libblobd-lite/src/op/commit_object.rs:61-84, libblobd-lite/src/bucket.rs:190-200). `evict` happens only after the operation's transaction
was acknowledged (libblobd-lite/src/op/create_object.rs:123-127, libblobd-lite/src/op/commit_object.rs:85-92, libblobd-lite/src/op/delete_object.rs:37-47). -/
inductive Step (c : Journal.JCfg) (cs : Cells K V) : State K V → State K V → Prop
  | update {s : State K V} {j' : Journal.State} (idle : Bool) (kvs : List (K × V))
      (h : Journal.commit c idle (txnOf cs s.updates.length kvs) s.j = some j') :
      Step c cs s { s with
        j := j',
        ov := (s.ov.setAll kvs).1,
        held := s.held ++ (s.ov.setAll kvs).2.map (fun t => (s.updates.length, t)),
        updates := s.updates ++ [kvs] }
  | journal {s : State K V} {j' : Journal.State} (h : Journal.Step c s.j j') (hh : j'.hist = s.j.hist) :
      Step c cs s { s with j := j' }
  | evict {s : State K V} (e : Nat × Ticket K) (he : e ∈ s.held) (ha : e.1 ∈ s.j.acked) (rest)
      (hr : s.held.Perm (e :: rest)) :
      Step c cs s { s with ov := s.ov.evict e.2, held := rest }

inductive Reach (c : Journal.JCfg) (cs : Cells K V) (m : Mem) : State K V → Prop
  | init : Reach c cs m { j := { dev := m } }
  | step {s s' : State K V} : Reach c cs m s → Step c cs s s' → Reach c cs m s'

end Overlay
end Blobd
