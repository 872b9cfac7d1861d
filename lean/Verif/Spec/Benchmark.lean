import Verif.Model.Benchmark
import Verif.Spec.Stresser
/-!
# What a benchmark should have done when it reports results
-/
set_option autoImplicit false
namespace Blobd
namespace Bench
open Stress (Bytes Call Ans about Ideal)

/-- writes of `d`, in parts of `chunk` bytes (the last one may be shorter) one after another, beginning at `off` -/
inductive Writes (k : Bytes) (tok chunk : Nat) (d : Bytes) : Nat → List (Call × Ans) → Prop
  | done {off : Nat} : d.length ≤ off → Writes k tok chunk d off []
  | more {off : Nat} {l : List (Call × Ans)} : off < d.length → Writes k tok chunk d (off + chunk) l →
      Writes k tok chunk d off ((.write k tok off ((d.drop off).take chunk), .written) :: l)

/-- reads of `d` in parts of `len` bytes one after another, beginning at `off`; what came back was right as far as it went -/
inductive Reads (k : Bytes) (len : Nat) (d : Bytes) : Nat → List (Call × Ans) → Prop
  | done {off : Nat} : d.length ≤ off → Reads k len d off []
  | more {off : Nat} {chunks : List Bytes} {l : List (Call × Ans)} : off < d.length → chunks.flatten <+: d.drop off → Reads k len d (off + len) l →
      Reads k len d off ((.read k none off (min d.length (off + len)), .read chunks) :: l)

/-- `l` is what the phase should do with object `i`, whose upload has the token `tok` -/
def Performed (c : Cfg) (p : Phase) (i tok : Nat) (l : List (Call × Ans)) : Prop :=
  match p with
  | .create => l = [(.create (key i) c.size, .created tok)]
  | .write => Writes (key i) tok c.chunk c.pool 0 l
  | .commit => ∃ id, l = [(.commit (key i) tok, .committed id)]
  | .inspect => ∃ id n, l = [(.inspect (key i) none, .inspected id n)]
  | .randomRead => ∃ start chunks, start + min 4000 c.size ≤ c.size ∧ chunks.flatten <+: c.pool.drop start ∧
      l = [(.read (key i) none start (start + min 4000 c.size), .read chunks)]
  | .read => Reads (key i) c.readSize c.pool 0 l
  | .delete => l = [(.delete (key i) none, .deleted)]

/-- what a correct store answers; the benchmark names no versions -/
inductive Answers : Ideal → Call → Ans → Ideal → Prop
  | create {s : Ideal} {k : Bytes} {n tok : Nat} (junk : Bytes) : s.ups tok = none → junk.length = n →
      Answers s (.create k n) (.created tok) { s with ups := fun t => if t = tok then some (k, junk) else s.ups t }
  | write {s : Ideal} {k d old : Bytes} {tok off : Nat} : s.ups tok = some (k, old) → off + d.length ≤ old.length →
      Answers s (.write k tok off d) .written
        { s with ups := fun t => if t = tok then some (k, old.take off ++ d ++ old.drop (off + d.length)) else s.ups t }
  | commit {s : Ideal} {k d : Bytes} {tok : Nat} (id : Option Nat) : s.ups tok = some (k, d) →
      Answers s (.commit k tok) (.committed id)
        ⟨fun t => if t = tok then none else s.ups t, fun k' => if k' = k then some (id, d) else s.objs k'⟩
  | inspect {s : Ideal} {k d : Bytes} {id : Option Nat} : s.objs k = some (id, d) → Answers s (.inspect k none) (.inspected id d.length) s
  | read {s : Ideal} {k d : Bytes} {id : Option Nat} {start stop : Nat} {chunks : List Bytes} : s.objs k = some (id, d) → start ≤ stop →
      stop ≤ d.length → chunks.flatten = (d.drop start).take (stop - start) → Answers s (.read k none start stop) (.read chunks) s
  | delete {s : Ideal} {k d : Bytes} {id : Option Nat} : s.objs k = some (id, d) →
      Answers s (.delete k none) .deleted { s with objs := fun k' => if k' = k then none else s.objs k' }

/-- the benchmark runs against a correct store (a call takes effect when it is answered), which holds `i0` at first; nothing crashes -/
inductive GStep (c : Cfg) : St × Ideal → St × Ideal → Prop
  | quiet {s s' : St} {i : Ideal} : Step c s .quiet s' → s'.panicked = false → GStep c (s, i) (s', i)
  | call {s s' : St} {i i' : Ideal} {call : Call} {ans : Ans} : Step c s (.answered call ans) s' → Answers i call ans i' → GStep c (s, i) (s', i')

inductive GReach (c : Cfg) (i0 : Ideal) : St × Ideal → Prop
  | start {s : St} : Start c s → GReach c i0 (s, i0)
  | step {x y : St × Ideal} : GReach c i0 x → GStep c x y → GReach c i0 y

/-- what the store must hold at the beginning: it can always issue another token, and if nothing is to be created,
the objects are there, with the bytes of the pool -/
def Ready (c : Cfg) (i0 : Ideal) : Prop :=
  (∃ N, ∀ t, N ≤ t → i0.ups t = none) ∧ (c.skipCreation = true → ∀ i, i < c.objects → ∃ id, i0.objs (key i) = some (id, c.pool))

/-- the answers of a store that keeps nothing -/
def voidAns : Call → Ans
  | .create _ _ => .created 0
  | .write _ _ _ _ => .written
  | .commit _ _ => .committed none
  | .inspect _ _ => .inspected none 0
  | .read _ _ _ _ => .read []
  | .delete _ _ => .deleted

/-- `v` is a `num`/100 quantile of `l`: at least that part of the entries is at most `v`, and at least the rest is at least `v` -/
def Quantile (num : Nat) (l : List Nat) (v : Nat) : Prop :=
  v ∈ l ∧ num * l.length ≤ 100 * (l.filter (fun x => x ≤ v)).length ∧ (100 - num) * l.length ≤ 100 * (l.filter (fun x => v ≤ x)).length

end Bench
end Blobd
