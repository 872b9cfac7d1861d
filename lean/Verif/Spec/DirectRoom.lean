import Verif.Spec.DirectProgress
set_option autoImplicit false
/-!
# Specification vocabulary: room for uploads in the direct store
-/
namespace Blobd
namespace Direct

/-- how many large pages are wholly free -/
def largePages (c : SCfg) (s : DSt) : Nat := (s.alloc.free c.pages.lpage).card

/-- the index knows a tuple bundle with a free slot -/
def SlotKnown (c : SCfg) (s : DSt) : Prop := ∃ b, b < c.n ∧ s.ts.free b = true

/-- the object a create call under way is making -/
def PC.making : PC → Option Meta
  | .createData m => some m
  | .createMeta o _ _ | .createInsert o _ | .createTuple o _ => some o.m
  | _ => none

/-- call `i` has been answered with an upload token, and the upload is there: empty object `m` not committed yet -/
def Begun (s : DSt) (i : Nat) (m : Meta) : Prop :=
  ∃ a ∈ s.acks, a.call = i ∧ ∃ id, a.resp = .created id ∧ s.incomplete id = some ⟨id, m⟩

end Direct
end Blobd
