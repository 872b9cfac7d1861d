import Verif.Model.ReadWrite
/-!
# Several writers of one object at once

Part writes of one object run concurrently (the HTTP server runs one request per part; lite
libblobd-lite/src/op/write_object.rs:57-69 takes only a read lock, libblobd-direct/src/op/write_object.rs:131-134 only a per-object read
lock). Each writer runs the loop of `wstep`; the device is shared. One step is one loop iteration of
one writer (which performs at most one device write), or an arbitrary change by the rest of the system
outside this object's pages.
-/
namespace Blobd
namespace RW

/-- one writer: still looping (its own `dev` field is ignored), or finished -/
inductive Writer
  | looping (s : WState)
  | finished (r : Except OpError Unit)
  | panicked

structure CState where
  dev : Mem
  ws : Nat → Writer

structure WriteReq where
  offset : Nat
  len : Nat
  stream : List (Except Unit (List Byte))

def setW (ws : Nat → Writer) (i : Nat) (w : Writer) : Nat → Writer := fun j => if j = i then w else ws j

/-- one loop iteration of writer `i` on the shared device (libblobd-lite/src/op/write_object.rs:136-178, libblobd-direct/src/op/write_object.rs:104-161) -/
def cstep (block : List Byte → List Byte) (len : Nat) (targets : List (Nat × Nat)) (c : CState) (i : Nat)
    (s : WState) : CState :=
  match wstep block len targets { s with dev := c.dev } with
  | .cont s' => { dev := s'.dev, ws := setW c.ws i (.looping s') }
  | .done r d => { dev := d, ws := setW c.ws i (.finished r) }
  | .panic => { c with ws := setW c.ws i .panicked }

/-- reachable states of `reqs` writers on object `o`; `mine x` says byte `x` is in one of its pages -/
inductive CReach (block : List Byte → List Byte) (pages : Pages) (lay : ObjectLayout) (o : Obj)
    (reqs : List WriteReq) (mine : Nat → Prop) (dev0 : Mem) : CState → Prop
  | init : CReach block pages lay o reqs mine dev0
      { dev := dev0, ws := fun i => .looping { stream := (reqs[i]?.map (·.stream)).getD [], dev := dev0 } }
  | step {c : CState} (h : CReach block pages lay o reqs mine dev0 c) (i : Nat) (q : WriteReq)
      (hq : reqs[i]? = some q) (s : WState) (hs : c.ws i = .looping s) :
      CReach block pages lay o reqs mine dev0 (cstep block q.len (writeTargets pages lay o q.offset) c i s)
  | env {c : CState} (h : CReach block pages lay o reqs mine dev0 c) (dev : Mem)
      (hd : ∀ x, mine x → dev x = c.dev x) : CReach block pages lay o reqs mine dev0 { c with dev := dev }

end RW
end Blobd
