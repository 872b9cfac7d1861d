import Verif.Model.DirectMetrics
import Verif.Spec.DirectStore
set_option autoImplicit false
/-! # Specification vocabulary for C75 (direct store) -/
namespace Blobd
namespace Direct

/-- `l` lists the entries of the map `f`, each once, each filed under its `key` -/
def Lists {α : Type} (f : α → Option Obj) (key : Obj → α) (l : List Obj) : Prop :=
  (l.map key).Nodup ∧ ∀ a o, f a = some o ↔ o ∈ l ∧ key o = a

/-- the counters tell the truth about the stored objects: `I` are the incomplete ones, `C` the committed ones -/
def Truthful (s : DSt) (m : Metrics) : Prop :=
  ∃ I C : List Obj, Lists s.incomplete (·.id) I ∧ Lists s.committed (·.m.key) C ∧
    m.incomplete = I.length ∧ m.committed = C.length ∧
    m.metaBytes = ((I ++ C).map (fun o => (o.metaSize : Int))).sum ∧
    m.dataBytes = ((I ++ C).map (fun o => (o.m.size : Int))).sum

/-- answers of each kind given since the start -/
def answered (s : DSt) (p : Resp → Bool) : Nat := (s.acks.filter (fun a => p a.resp)).length

def Resp.isCreated : Resp → Bool | .created _ => true | _ => false
def Resp.isCommitted : Resp → Bool | .committed _ => true | _ => false
def Resp.isDeleted : Resp → Bool | .deleted => true | _ => false

end Direct
end Blobd
