import Verif.Spec.LiteStore
set_option autoImplicit false
/-! # Calls of one bucket kept apart

A weaker discipline than one call at a time: calls of different buckets overlap in any way; calls of one bucket that change
nothing (inspect, read, write) overlap with each other in any way; but between the start of a call that changes the bucket's
list (create, commit, delete) and its answer no other call of that bucket runs. -/
namespace Blobd
namespace Lite

/-- the key a call is about -/
def callKey : Call → List Byte
  | .create key _ => key
  | .lookup _ key => key

/-- create, commit and delete -/
def callChanges : Call → Bool
  | .create .. => true
  | .lookup (.commit _) _ => true
  | .lookup (.delete _) _ => true
  | .lookup (.look _) _ => false
  | .lookup (.write ..) _ => false

/-- the call an action starts -/
def actCall : Act → Option Call
  | .create key size _ _ _ => some (.create key size)
  | .lookup req key => some (.lookup req key)
  | _ => none

/-- `call` may start: of its bucket no call runs, or only calls that change nothing and `call` changes nothing either -/
def MayStart (c : LCfg) (s : LSt) (call : Call) : Prop :=
  ∀ i t, s.thr i = some t → t.pc ≠ .dead → c.bkt (callKey t.start.call) = c.bkt (callKey call) →
    callChanges call = false ∧ callChanges t.start.call = false

/-- executions where changes of a bucket do not overlap with other calls of that bucket, and no write is cancelled half way -/
inductive ApartReach (c : LCfg) : LSt → Prop
  | fresh {dev : Mem} {s : LSt} : fresh c dev = some s → ApartReach c s
  | act {s s' : LSt} (a : Act) : ApartReach c s → act c s a = some s' → (∀ call, actCall a = some call → MayStart c s call) →
      (∀ i n bytes, a ≠ .cancel i n bytes) → ApartReach c s'
  | journal {s : LSt} {j' : Journal.State} : ApartReach c s → Journal.Step c.jc s.j j' → j'.hist = s.j.hist →
      ApartReach c { s with j := j' }

end Lite
end Blobd
