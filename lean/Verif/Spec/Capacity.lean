import Verif.Spec.DirectTuples
/-! Specification for C59: how many objects are stored, and histories without deletes. -/
set_option autoImplicit false
namespace Blobd
namespace Direct

/-- exactly `k` objects are live -/
def Holds (L : Live) (k : Nat) : Prop := ∃ ids : List Nat, ids.Nodup ∧ (∀ x, x ∈ ids ↔ L x ≠ none) ∧ ids.length = k

/-- Executions of the tuple index since a start, without a delete (any contents at the start). -/
inductive GrowReach (max n : Nat) : TS → Live → Prop
  | start (init : Nat → List Tuple) (h : TS.newOk max n init) (L : Live)
      (hL : ∀ x t, L x = some t ↔ t.id = x ∧ ∃ b, b < n ∧ t ∈ init b) : GrowReach max n (TS.new max n init) L
  | insert {s s' : TS} {L : Live} (h : GrowReach max n s L) (o : Tuple) (hs : s.insertObject max n o = some s') :
      GrowReach max n s' (upd L o.id (some o))
  | update {s s' : TS} {L : Live} (h : GrowReach max n s L) (cur new : Nat) (st : ObjState)
      (hs : s.updateObject max cur new st = some s') :
      GrowReach max n s' (upd (upd L cur none) new ((L cur).map (fun t => { t with id := new, state := st })))
  | bg {s s' : TS} {L : Live} (h : GrowReach max n s L) (hs : TS.BgStep n s s') : GrowReach max n s' L

end Direct
end Blobd
