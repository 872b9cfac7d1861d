import Verif.Model.Stresser
/-!
# What the stress tester is for

`Passed c p l`: the calls `l` are a complete test of one object. The ideal store: what a correct store answers.
-/
set_option autoImplicit false
namespace Blobd
namespace Stress

/-- the contents of an object -/
def data (c : Cfg) (p : Params) : Bytes := poolGet c p.dataOff p.dataLen

/-- writes of `d`, in parts of `lpage` bytes one after another, beginning at `off`, the last one up to the end -/
inductive Parts (k : Bytes) (tok lpage : Nat) (d : Bytes) : Nat → List (Call × Ans) → Prop
  | last {off} : off < d.length → d.length ≤ off + lpage → Parts k tok lpage d off [(.write k tok off (d.drop off), .written)]
  | more {off l} : off + lpage < d.length → Parts k tok lpage d (off + lpage) l →
      Parts k tok lpage d off ((.write k tok off ((d.drop off).take lpage), .written) :: l)

/-- reads of ranges of an object with contents `d` one after another, beginning at `off`, up to the end, each answered with
exactly the bytes of the range -/
inductive Reads (k : Bytes) (id : Option Nat) (d : Bytes) : Nat → List (Call × Ans) → Prop
  | last {off chunks} : off < d.length → chunks.flatten = d.drop off → Reads k id d off [(.read k id off d.length, .read chunks)]
  | more {off stop chunks l} : off < stop → stop < d.length → chunks.flatten = (d.drop off).take (stop - off) → Reads k id d stop l →
      Reads k id d off ((.read k id off stop, .read chunks) :: l)

/-- created with its size; all its bytes written in parts; committed; found with its size; all its bytes read back and right;
deleted -/
def Passed (k : Bytes) (lpage : Nat) (d : Bytes) (l : List (Call × Ans)) : Prop :=
  ∃ tok id ws rs, Parts k tok lpage d 0 ws ∧ Reads k id d 0 rs ∧
    l = (.create k d.length, .created tok) :: ws ++ (.commit k tok, .committed id) :: (.inspect k id, .inspected id d.length) :: rs ++
      [(.delete k id, .deleted)]

/-- the answered calls for a key -/
def about (k : Bytes) (l : List (Call × Ans)) : List (Call × Ans) := l.filter (fun e => decide (e.1.key = k))

/-! ## A correct store -/

structure Ideal where
  /-- uploads: key and bytes so far -/
  ups : Nat → Option (Bytes × Bytes)
  /-- objects: id and bytes -/
  objs : Bytes → Option (Option Nat × Bytes)

/-- what a correct store answers -/
inductive Answers : Ideal → Call → Ans → Ideal → Prop
  | create {s k n tok} (junk : Bytes) : s.ups tok = none → junk.length = n →
      Answers s (.create k n) (.created tok) { s with ups := fun t => if t = tok then some (k, junk) else s.ups t }
  | write {s k tok off d old} : s.ups tok = some (k, old) → off + d.length ≤ old.length →
      Answers s (.write k tok off d) .written
        { s with ups := fun t => if t = tok then some (k, old.take off ++ d ++ old.drop (off + d.length)) else s.ups t }
  | commit {s k tok d} (id : Option Nat) : s.ups tok = some (k, d) →
      Answers s (.commit k tok) (.committed id)
        ⟨fun t => if t = tok then none else s.ups t, fun k' => if k' = k then some (id, d) else s.objs k'⟩
  | inspect {s k id d} : s.objs k = some (id, d) → Answers s (.inspect k id) (.inspected id d.length) s
  | read {s k id d start stop chunks} : s.objs k = some (id, d) → start ≤ stop → stop ≤ d.length →
      chunks.flatten = (d.drop start).take (stop - start) → Answers s (.read k id start stop) (.read chunks) s
  | delete {s k id d} : s.objs k = some (id, d) →
      Answers s (.delete k id) .deleted { s with objs := fun k' => if k' = k then none else s.objs k' }

/-- the tester runs against a correct store (a call takes effect when it is answered) -/
inductive GStep (c : Cfg) : St × Ideal → St × Ideal → Prop
  | quiet {s s' i} : Step c s .quiet s' → GStep c (s, i) (s', i)
  | call {s s' i i' call ans} : Step c s (.answered call ans) s' → Answers i call ans i' → GStep c (s, i) (s', i')

inductive GReach (c : Cfg) : St × Ideal → Prop
  | start {q} (n : Nat) : tasks c = some q → GReach c (⟨q, List.replicate n .idle, 0, false, []⟩, ⟨fun _ => none, fun _ => none⟩)
  | step {x y} : GReach c x → GStep c x y → GReach c y

end Stress
end Blobd
