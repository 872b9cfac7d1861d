import Verif.Model.LiteMetrics
import Verif.Spec.LiteStore
set_option autoImplicit false
/-! # Specification vocabulary for C75 (lite store) -/
namespace Blobd
namespace Lite

/-- `l` lists the versions of all keys, each once -/
def Abs.Listing (a : Abs) (l : List (List Byte × Ver)) : Prop :=
  (l.map (fun x => (x.1, x.2.id))).Nodup ∧ ∀ k v, (k, v) ∈ l ↔ v ∈ a k

/-- a `create_object` call that has made its object and not answered yet: the object's size -/
def creatingT : Option Thread → Option Nat
  | some ⟨⟨.create _ n, _⟩, .wait _ _ _ (.created _)⟩ => some n
  | some ⟨⟨.create _ n, _⟩, .evict _ (.created _)⟩ => some n
  | _ => none

def creating (s : LSt) (i : Nat) : Option Nat := creatingT (s.thr i)

end Lite
end Blobd
