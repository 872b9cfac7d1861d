import Verif.Model.DirectTuples
/-! Specification of the tuple index: a map from object id to tuple, changed only by the operations. -/
namespace Blobd
namespace Direct

/-- what each live object's tuple should be -/
abbrev Live := Nat → Option Tuple

/-- Executions, with the abstract map next to the concrete state. -/
inductive TReach (max n : Nat) : TS → Live → Prop
  | init (init : Nat → List Tuple) (h : TS.newOk max n init) (L : Live)
      (hL : ∀ x t, L x = some t ↔ t.id = x ∧ ∃ b, b < n ∧ t ∈ init b) : TReach max n (TS.new max n init) L
  | insert {s s' : TS} {L : Live} (h : TReach max n s L) (o : Tuple) (hs : s.insertObject max n o = some s') :
      TReach max n s' (upd L o.id (some o))
  | update {s s' : TS} {L : Live} (h : TReach max n s L) (cur new : Nat) (st : ObjState)
      (hs : s.updateObject max cur new st = some s') :
      TReach max n s' (upd (upd L cur none) new ((L cur).map (fun t => { t with id := new, state := st })))
  | delete {s s' : TS} {L : Live} (h : TReach max n s L) (id : Nat) (t : Tuple) (hs : s.deleteObject id = some (s', t)) :
      TReach max n s' (upd L id none)
  | bg {s s' : TS} {L : Live} (h : TReach max n s L) (hs : TS.BgStep n s s') : TReach max n s' L

/-- background loop has nothing to do -/
def Quiet (n : Nat) (s : TS) : Prop := s.batch = none ∧ ∀ b, b < n → s.dirty b = false

/-- the tuples on the device: `t` is in some bundle's page -/
def OnDisk (n : Nat) (s : TS) (t : Tuple) : Prop := ∃ b, b < n ∧ t ∈ s.disk b

end Direct
end Blobd
