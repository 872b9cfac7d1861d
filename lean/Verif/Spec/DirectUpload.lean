import Verif.Spec.DirectDiscipline
/-!
# Vocabulary for "what was uploaded is what is read" on the direct store
-/
set_option autoImplicit false
namespace Blobd
namespace Direct

/-- pages `(device offset, exponent)` one after another, each with its position in the object (the first at `pos`) -/
def placed : Nat → List (Nat × Nat) → List (Nat × Nat × Nat)
  | _, [] => []
  | pos, (off, p) :: l => (pos, off, p) :: placed (pos + 2 ^ p) l

/-- the bytes `d`, written to the page at position `pos` of exponent `p`, are the bytes of `D` that belong there; past the
end of the object they may be anything -/
def HoldsPart (D d : List Byte) (pos p : Nat) : Prop := ∀ j, j < 2 ^ p → pos + j < D.length → d[j]? = D[pos + j]?

/-- one step of an execution in which clients are polite, or a restart after a crash that did not hit a commit replacing
an object -/
def Moves (c : SCfg) (s s' : DSt) : Prop :=
  (Step c s s' ∧ Polite c s s') ∨
  (NoReplacing s ∧ ∃ order, order.Perm (diskTuples c.n s.ts) ∧ load c s order = some s')

/-- between `s` and `s'` the device write `w` of a `write_object` call completes -/
def Completes (w : Writer) (s s' : DSt) : Prop :=
  ∃ pre post, s.writers = pre ++ w :: post ∧ s' = { s with dev := s.dev.write w.off w.data, writers := pre ++ post }

/-- the last `write_object` device write to the page at `off` for the upload `id` completed, and put the bytes of `D` there -/
def PageWritten (tr : Nat → DSt) (n : Nat) (id : Nat) (D : List Byte) (pos off p : Nat) : Prop :=
  ∃ k w, k < n ∧ Completes w (tr k) (tr (k + 1)) ∧ w.id = id ∧ w.off = off ∧ HoldsPart D w.data pos p ∧
    ∀ i, k < i → i ≤ n → ∀ w' ∈ (tr i).writers, w'.id = id → w'.off ≠ off

/-- `write_object` (libblobd-direct/src/op/write_object.rs:80-160) stores the bytes `d` of a part page by page: one device write for each of the
part's pages, padded with whatever the buffer held -/
def pageWrites (pages : Pages) (junk : Nat → Byte) : List (Nat × Nat) → List Byte → List (Nat × List Byte)
  | [], _ => []
  | (amt, off) :: ts, d => (off, RW.blockDirect pages junk (d.take amt)) :: pageWrites pages junk ts (d.drop amt)

/-- the device writes of a `write_object` call for the part at `off` with bytes `d` (C62_parts_write_pages shows that the
call makes them) -/
def partWrites (pages : Pages) (junk : Nat → Byte) (lay : ObjectLayout) (m : Meta) (off : Nat) (d : List Byte) : List (Nat × List Byte) :=
  pageWrites pages junk (RW.writeTargets pages lay m.rw off) d

/-- each of the device writes `ws` was made by a `write_object` call for the upload `id` and completed, and no other write
to the same place was running for this upload since -/
def Stored (tr : Nat → DSt) (n : Nat) (id : Nat) (ws : List (Nat × List Byte)) : Prop :=
  ∀ x ∈ ws, ∃ k w, k < n ∧ Completes w (tr k) (tr (k + 1)) ∧ w.id = id ∧ w.off = x.1 ∧ w.data = x.2 ∧
    ∀ i, k < i → i ≤ n → ∀ w' ∈ (tr i).writers, w'.id = id → w'.off ≠ x.1

end Direct
end Blobd
