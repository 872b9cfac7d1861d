import Verif.Model.DirectCluster
/-!
# Specification: one store

A single abstract store: what is visible under each key, and the uploads, by token (a partition number and an id). An
event of partition `i` is an event of the abstract store whose tokens carry the number `i`.
-/
set_option autoImplicit false
namespace Blobd
namespace Direct

structure GAbs where
  vis : List Byte → Option Obj
  tokens : Nat → Nat → Option Obj

/-- `absStep` on the whole visible map and the tokens with number `i` -/
def gStep (g : GAbs) (e : Nat × Ev) : Option GAbs :=
  (absStep ⟨g.vis, g.tokens e.1⟩ e.2).map (fun a => ⟨a.vis, upd g.tokens e.1 a.tokens⟩)

def gRun (g : GAbs) (l : List (Nat × Ev)) : Option GAbs := l.foldlM gStep g

end Direct
end Blobd
