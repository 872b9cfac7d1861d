import Verif.Spec.DirectStore
import Verif.Model.Regions
/-!
# Direct store: all partitions together

libblobd-direct/src/lib.rs: `Blobd` is a list of partitions, each with its own index, tuples and heap
(Model/DirectStore). Calls with a key go to the partition chosen by the key's hash, calls with a token to the
partition named in the token. Nothing else is shared (the device, if several partitions are on one, is shared in
disjoint regions; metrics are not modelled).
-/
set_option autoImplicit false
namespace Blobd
namespace Direct

/-- what the cluster is configured with: partitions, and the 64-bit hash of a key (libblobd-direct/src/lib.rs:248-252) -/
structure CCfg where
  n : Nat
  part : Nat → SCfg
  hash : List Byte → Nat

/-- libblobd-direct/src/lib.rs:248-252 `get_partition_index_by_object_key`; `none`: no partitions (remainder by zero) -/
def CCfg.owner (c : CCfg) (k : List Byte) : Option Nat := Regions.partitionIndex c.hash c.n k

structure Cluster where
  parts : Nat → DSt
  /-- ghost: what happened since the last start, in all partitions, in the order in which it happened: partition,
  call, event -/
  lin : List (Nat × Nat × Ev)

/-- the key of a call that creates an object (libblobd-direct/src/lib.rs:262-268) -/
def PC.createKey : PC → Option (List Byte)
  | .createData m => some m.key
  | _ => none

/-- the key of a call that deletes, inspects or reads (libblobd-direct/src/lib.rs:270-287, 309-315) -/
def Ev.callKey : Ev → Option (List Byte)
  | .removed k _ _ => some k
  | .missing k _ => some k
  | .found k _ _ _ => some k
  | _ => none

/-- the keys given with the calls that begin (or happen) in this step of a partition -/
def callKeys (s s' : DSt) : List (List Byte) :=
  (s'.threads.drop s.threads.length).filterMap (fun th => th.pc.createKey) ++
  (s'.lin.drop s.lin.length).filterMap (fun e => e.2.callKey)

/-- libblobd-direct/src/lib.rs:248-329: one partition makes a step; calls with a key are at the partition that owns the key. Calls with a
token (261-267, 317-329) are at the partition the token names, which can be any (an index out of range panics). -/
inductive CStep (c : CCfg) : Cluster → Cluster → Prop
  | part {x} (i : Nat) (s' : DSt) : i < c.n → Step (c.part i) (x.parts i) s' →
      (∀ k ∈ callKeys (x.parts i) s', c.owner k = some i) →
      CStep c x ⟨upd x.parts i s', x.lin ++ (s'.lin.drop (x.parts i).lin.length).map (fun e => (i, e))⟩

/-- all executions: formatting (libblobd-direct/src/lib.rs:176-182), calls, crashes and restarts (libblobd-direct/src/lib.rs:189-221) -/
inductive CReach (c : CCfg) : Cluster → Prop
  | fresh {parts} : (∀ i, i < c.n → ∃ dev, fresh (c.part i) dev = some (parts i)) → CReach c ⟨parts, []⟩
  | step {x y} : CReach c x → CStep c x y → CReach c y
  | restart {x parts} (order : Nat → List Tuple) : CReach c x →
      (∀ i, i < c.n → (order i).Perm (diskTuples (c.part i).n (x.parts i).ts) ∧
        load (c.part i) (x.parts i) (order i) = some (parts i)) →
      CReach c ⟨parts, []⟩

/-- what a call with key `k` finds: libblobd-direct/src/lib.rs:278-287 with libblobd-direct/src/op/inspect_object.rs:25-32 -/
def Cluster.find (c : CCfg) (x : Cluster) (k : List Byte) : Option Obj :=
  match c.owner k with
  | some i => (x.parts i).committed k
  | none => none

/-- the upload a token (partition, id) stands for (libblobd-direct/src/lib.rs:254-260, libblobd-direct/src/op/commit_object.rs:29-35) -/
def Cluster.upload (c : CCfg) (x : Cluster) (i id : Nat) : Option Obj :=
  if i < c.n then (x.parts i).incomplete id else none

/-- libblobd-direct/src/lib.rs:294-307 `list_objects`, taken at one moment: the object is listed by partition `i` under key `k` -/
def Cluster.lists (c : CCfg) (x : Cluster) (i : Nat) (k : List Byte) (o : Obj) : Prop :=
  i < c.n ∧ (x.parts i).committed k = some o

end Direct
end Blobd
