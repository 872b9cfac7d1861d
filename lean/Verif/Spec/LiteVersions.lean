import Verif.Spec.LiteStore
/-!
# What versioning means (C85)
-/
set_option autoImplicit false
namespace Blobd
namespace Lite

/-- the versions of a key there should be: all that were committed, in the order they were committed, but those deleted since -/
def versions (evs : List Ev) (key : List Byte) : List Nat :=
  evs.foldl (fun l e => match e with
    | .committed k id => if k = key then l ++ [id] else l
    | .removed k _ id => if k = key then l.filter (· ≠ id) else l
    | _ => l) []

/-- the ids created for a key, in order -/
def madeFor (evs : List Ev) (key : List Byte) : List Nat :=
  evs.filterMap fun e => match e with
    | .created k id _ => if k = key then some id else none
    | _ => none

/-- versions of the key were committed in the order they were created: none while one that was created later was there -/
def InOrder (evs : List Ev) (key : List Byte) : Prop :=
  ∀ pre post id, evs = pre ++ .committed key id :: post → ∀ id' ∈ versions pre key, [id', id].Sublist (madeFor pre key)

/-- the answer to a call is about a moment during it, at which this much had happened -/
def During (s : LSt) (a : Ack) (pre : List Ev) : Prop :=
  ∃ e post, s.lin.map (·.2) = pre ++ e :: post ∧ a.start.at_ ≤ pre.length ∧ pre.length < a.stop

end Lite
end Blobd
