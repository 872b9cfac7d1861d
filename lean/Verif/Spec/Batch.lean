import Verif.Model.Batch
/-!
# Specification: creating a list of objects one after another
-/
namespace Blobd
namespace Http

open MP (Bytes)

/-- the parts of an object: offset and bytes, in pieces of `L` -/
def partsOf (L : Nat) (data : Bytes) : List (Nat × Bytes) :=
  (List.range (partCount data.length L)).map (fun i => (i * L, (data.drop (i * L)).take L))

def writeParts {σ : Type} (B : Store σ) (tok : Tok) : List (Nat × Bytes) → σ → σ × Bool
  | [], s => (s, true)
  | p :: ps, s =>
    match B.write s tok p.1 p.2 with
    | (s, false) => (s, false)
    | (s, true) => writeParts B tok ps s

/-- create, write every part, commit; stop at the first failure -/
def createOne {σ : Type} (B : Store σ) (L : Nat) (e : Bytes × Bytes) (s : σ) : σ × Bool :=
  match B.create s e.1 e.2.length with
  | (s, none) => (s, false)
  | (s, some tok) =>
    match writeParts B tok (partsOf L e.2) s with
    | (s, false) => (s, false)
    | (s, true) => B.commit s tok

/-- the objects of a list in order, until the first that fails; how many succeeded -/
def createAll {σ : Type} (B : Store σ) (L : Nat) : List (Bytes × Bytes) → σ → σ × Nat
  | [], s => (s, 0)
  | e :: es, s =>
    match createOne B L e s with
    | (s, false) => (s, 0)
    | (s, true) => ((createAll B L es s).1, (createAll B L es s).2 + 1)

/-- A reference store: uploads in progress (key, size, written bytes) and a map of committed objects.
A write is accepted exactly when the store's range check accepts it (C21). -/
structure RefStore where
  next : Nat
  inc : Nat → Option (Bytes × Nat × Mem)
  map : Bytes → Option Bytes

def refStore (pages : Pages) : Store RefStore where
  create s k n := ({ s with next := s.next + 1, inc := fun i => if i = s.next then some (k, n, fun _ => 0) else s.inc i },
    some ⟨s.next, 0⟩)
  write s t off d :=
    match s.inc t.id with
    | none => (s, false)
    | some (k, n, m) =>
      match RW.writeCheck pages n off d.length with
      | some _ => (s, false)
      | none => ({ s with inc := fun i => if i = t.id then some (k, n, m.write off d) else s.inc i }, true)
  commit s t :=
    match s.inc t.id with
    | none => (s, false)
    | some (k, n, m) => ({ s with inc := fun i => if i = t.id then none else s.inc i,
                                  map := fun x => if x = k then some (m.read 0 n) else s.map x }, true)

/-- later objects replace earlier ones under the same key -/
def putAll (es : List (Bytes × Bytes)) (m : Bytes → Option Bytes) : Bytes → Option Bytes :=
  es.foldl (fun m e => fun x => if x = e.1 then some e.2 else m x) m

end Http
end Blobd
