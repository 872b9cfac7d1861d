import Mathlib.Data.List.Sort
import Verif.Model.Stresser
/-!
# The benchmark runner

benchmark-runner/src/main.rs: phases one after another; in each, one task per object, in a random order, at most
`concurrency` of them at a time (benchmark-runner/src/main.rs:261-790). Here the order is any, and the store answers as it likes.
-/
set_option autoImplicit false
namespace Blobd
namespace Bench
open Stress (Bytes Call Ans)

/-- what a run is configured with (benchmark-runner/src/main.rs:71-102, 273-285, 326-331), the random pool
(benchmark-runner/src/main.rs:309-311) and the store's `write_chunk_size` (benchmark-runner/src/main.rs:435) -/
structure Cfg where
  objects : Nat
  size : Nat
  concurrency : Nat
  readSize : Nat
  chunk : Nat
  skipCreation : Bool
  skipDeletion : Bool
  pool : Bytes
  deriving DecidableEq

/-- benchmark-runner/src/main.rs:378-730 -/
inductive Phase
  | create | write | commit | inspect | randomRead | read | delete
  deriving DecidableEq, Repr

/-- all phases, in their order (benchmark-runner/src/main.rs:378-730) -/
def Phase.all : List Phase := [.create, .write, .commit, .inspect, .randomRead, .read, .delete]

/-- the phases of a run (benchmark-runner/src/main.rs:378, 691) -/
def phases (c : Cfg) : List Phase :=
  (if c.skipCreation then [] else [.create, .write, .commit]) ++ [.inspect, .randomRead, .read] ++ (if c.skipDeletion then [] else [.delete])

/-- benchmark-runner/src/main.rs:395 `create_u64_be(i)` -/
def key (i : Nat) : Bytes := beBytes 8 i

/-- a spawned task: the next call it makes, with the object's number (benchmark-runner/src/main.rs:391-404, 433-451, 481-494, 522-534, 566-603,
636-671, 701-713). `over`: it has made its last one. -/
inductive Job
  | create (i : Nat)
  | write (i tok off : Nat)
  | commit (i tok : Nat)
  | inspect (i : Nat)
  | random (i off : Nat)
  | read (i off : Nat)
  | delete (i : Nat)
  | over (i tok : Nat)
  deriving DecidableEq

/-- benchmark-runner/src/main.rs:574 `min(4000, object_size)` -/
def randomLen (c : Cfg) : Nat := min 4000 c.size

/-- benchmark-runner/src/main.rs:569-573 `gen_range(0..object_size - 4000)`, or 0 -/
def RandomOk (c : Cfg) (off : Nat) : Prop := if c.size > 4000 then off < c.size - 4000 else off = 0

instance (c : Cfg) (off : Nat) : Decidable (RandomOk c off) := by unfold RandomOk; infer_instance

/-- the task of a phase for one element of the list it goes over (benchmark-runner/src/main.rs:387, 429, 478, 519, 561, 631, 698); `off`: the random
offset -/
def Job.begin (p : Phase) (x : Nat × Nat) (off : Nat) : Job :=
  match p with
  | .create => .create x.1
  | .write => .write x.1 x.2 0
  | .commit => .commit x.1 x.2
  | .inspect => .inspect x.1
  | .randomRead => .random x.1 off
  | .read => .read x.1 0
  | .delete => .delete x.1

/-- the call a task makes next (benchmark-runner/src/main.rs:393-398, 436-445, 483-489, 524-529, 576-584, 640-650, 703-708) -/
def Job.call (c : Cfg) : Job → Option Call
  | .create i => some (.create (key i) c.size)
  | .write i tok off =>
    if c.chunk ≠ 0 ∧ off < c.size then
      let dataLen := min (c.size - off) c.chunk
      some (.write (key i) tok off ((c.pool.drop off).take dataLen))
    else none
  | .commit i tok => some (.commit (key i) tok)
  | .inspect i => some (.inspect (key i) none)
  | .random i off => some (.read (key i) none off (off + randomLen c))
  | .read i off =>
    if c.readSize ≠ 0 ∧ off < c.size then
      let readLen := min c.size (off + c.readSize) - off
      some (.read (key i) none off (off + readLen))
    else none
  | .delete i => some (.delete (key i) none)
  | .over _ _ => none

/-- the task has nothing more to do: the loops of benchmark-runner/src/main.rs:436 and 640 end (`step_by(0)` panics instead) -/
def Job.finished (c : Cfg) : Job → Bool
  | .write _ _ off => decide (c.chunk ≠ 0 ∧ c.size ≤ off)
  | .read _ off => decide (c.readSize ≠ 0 ∧ c.size ≤ off)
  | .over _ _ => true
  | _ => false

/-- benchmark-runner/src/main.rs:588-597, 654-664: each chunk is compared with the pool at its offset (a chunk that ends beyond the pool
panics, too). The end of the stream is not compared with anything. -/
def checkChunks (c : Cfg) : Nat → List Bytes → Bool
  | _, [] => true
  | off, ch :: r => decide (off + ch.length ≤ c.pool.length ∧ ch = (c.pool.drop off).take ch.length) && checkChunks c (off + ch.length) r

/-- what an answer does to the task (benchmark-runner/src/main.rs:400, 436, 595, 640, 662); `none`: an assertion fails (or the store gives an answer its type excludes) -/
def Job.next (c : Cfg) : Job → Ans → Option Job
  | .create i, .created tok => some (.over i tok)
  | .write i tok off, .written => some (.write i tok (off + c.chunk))
  | .commit i tok, .committed _ => some (.over i tok)
  | .inspect i, .inspected _ _ => some (.over i 0)
  | .random i off, .read chunks => if checkChunks c off chunks then some (.over i 0) else none
  | .read i off, .read chunks => if checkChunks c off chunks then some (.read i (off + c.readSize)) else none
  | .delete i, .deleted => some (.over i 0)
  | _, _ => none

/-- the object and the token of a task (benchmark-runner/src/main.rs:387, 429, 478, 519, 561, 631, 698) -/
def Job.item : Job → Nat × Nat
  | .create i => (i, 0)
  | .write i tok _ => (i, tok)
  | .commit i tok => (i, tok)
  | .inspect i => (i, 0)
  | .random i _ => (i, 0)
  | .read i _ => (i, 0)
  | .delete i => (i, 0)
  | .over i tok => (i, tok)

/-- a finished phase: what was reported about it (benchmark-runner/src/main.rs:409-415). `latencies`: how many were recorded. -/
structure Done where
  phase : Phase
  latencies : Nat
  /-- ghost: the calls of the phase that were answered, oldest first -/
  log : List (Call × Ans)

/-- a run (benchmark-runner/src/main.rs:261) -/
structure St where
  /-- finished phases, oldest first -/
  past : List Done
  /-- the phase under way and those to come -/
  phases : List Phase
  todo : List (Nat × Nat)
  running : List Job
  latencies : Nat
  log : List (Call × Ans)
  /-- benchmark-runner/src/main.rs:379 `incomplete_tokens` -/
  toks : List (Nat × Nat)
  panicked : Bool

/-- what the phase goes over, before it is shuffled (benchmark-runner/src/main.rs:172-175, 384, 425, 474, 516, 558, 628, 695) -/
def items (c : Cfg) (toks : List (Nat × Nat)) : Phase → List (Nat × Nat)
  | .write | .commit => toks
  | _ => (List.range c.objects).map (fun i => (i, 0))

/-- what the outside sees of a step: a call of the store (store/src/lib.rs) and its answer -/
inductive Lbl
  | quiet
  | answered (call : Call) (ans : Ans)

/-- the steps of a run (benchmark-runner/src/main.rs:378-787) -/
inductive Step (c : Cfg) : St → Lbl → St → Prop
  /-- `for_each_concurrent` takes the next element (a limit of 0 is no limit) -/
  | start {s : St} {p : Phase} {ps : List Phase} {x : Nat × Nat} {r : List (Nat × Nat)} (off : Nat) : s.panicked = false → s.phases = p :: ps →
      s.todo = x :: r → (c.concurrency = 0 ∨ s.running.length < c.concurrency) → RandomOk c off →
      Step c s .quiet { s with todo := r, running := s.running ++ [.begin p x off] }
  /-- a call is answered -/
  | answer {s : St} {a b : List Job} {j j' : Job} {call : Call} {ans : Ans} : s.panicked = false → s.running = a ++ j :: b → j.call c = some call →
      j.next c ans = some j' → Step c s (.answered call ans) { s with running := a ++ j' :: b, log := s.log ++ [(call, ans)] }
  /-- an assertion about the answer fails (benchmark-runner/src/main.rs:595, 662); the `unwrap` of the task's handle passes the panic on -/
  | wrong {s : St} {a b : List Job} {j : Job} {call : Call} {ans : Ans} : s.panicked = false → s.running = a ++ j :: b → j.call c = some call →
      j.next c ans = none → Step c s (.answered call ans) { s with panicked := true, log := s.log ++ [(call, ans)] }
  /-- a task ends: its latency is recorded, and the token if it created an object (benchmark-runner/src/main.rs:399-401, 447-448, 490-491, 530-531,
  599-600, 667-668, 709-710) -/
  | finish {s : St} {p : Phase} {ps : List Phase} {a b : List Job} {j : Job} : s.panicked = false → s.phases = p :: ps → s.running = a ++ j :: b →
      j.finished c = true →
      Step c s .quiet { s with
        running := a ++ b, latencies := s.latencies + 1
        toks := if p = .create then s.toks ++ [j.item] else s.toks }
  /-- all tasks have ended; the next phase goes over its list in some order (benchmark-runner/src/main.rs:406-426) -/
  | phase {s : St} {p p' : Phase} {ps : List Phase} {l : List (Nat × Nat)} : s.panicked = false → s.phases = p :: p' :: ps → s.todo = [] →
      s.running = [] → l.Perm (items c s.toks p') →
      Step c s .quiet { s with
        past := s.past ++ [⟨p, s.latencies, s.log⟩], phases := p' :: ps, todo := l, latencies := 0, log := [] }
  /-- the last phase has ended; results are written (benchmark-runner/src/main.rs:732-787) -/
  | results {s : St} {p : Phase} : s.panicked = false → s.phases = [p] → s.todo = [] → s.running = [] →
      Step c s .quiet { s with past := s.past ++ [⟨p, s.latencies, s.log⟩], phases := [], latencies := 0, log := [] }
  /-- the store panics, or the runner for want of root rights (benchmark-runner/src/main.rs:135) -/
  | crash {s : St} : s.panicked = false → Step c s .quiet { s with panicked := true }

/-- the beginning of the first phase (benchmark-runner/src/main.rs:378-384, 516) -/
inductive Start (c : Cfg) : St → Prop
  | mk {p : Phase} {ps : List Phase} {l : List (Nat × Nat)} : phases c = p :: ps → l.Perm (items c [] p) →
      Start c ⟨[], p :: ps, l, [], 0, [], [], false⟩

/-- the runs (benchmark-runner/src/main.rs:261-790) -/
inductive Reach (c : Cfg) : St → Prop
  | start {s : St} : Start c s → Reach c s
  | step {s s' : St} {l : Lbl} : Reach c s → Step c s l s' → Reach c s'

/-- the results have been written (benchmark-runner/src/main.rs:786) -/
def Reported (s : St) : Prop := s.phases = [] ∧ s.panicked = false

/-! ## Latency figures -/

/-- rounding in the products of benchmark-runner/src/main.rs:157-158: the nearest multiple of `2^e`, ties to even -/
def roundAt (e x : Nat) : Nat :=
  let q := x / 2 ^ e
  let r := x % 2 ^ e
  if 2 * r < 2 ^ e then q * 2 ^ e else if 2 ^ e < 2 * r then (q + 1) * 2 ^ e else (q + q % 2) * 2 ^ e

/-- benchmark-runner/src/main.rs:157-158: `x as f64 * y` truncated, where `y = m / 2^53`, in IEEE double arithmetic: exact product, rounded to 53 bits, then truncated. For `x < 2^53`, which
`as f64` leaves as it is. -/
def mulTrunc (x m : Nat) : Nat := roundAt (Nat.log2 (x * m) + 1 - 53) (x * m) / 2 ^ 53

/-- benchmark-runner/src/main.rs:157: the double next to 0.95, times 2^53 -/
def m95 : Nat := 8556839292003942
/-- benchmark-runner/src/main.rs:158: the double next to 0.99, times 2^53 -/
def m99 : Nat := 8917127262193582

/-- benchmark-runner/src/main.rs:157-160: the entry of the sorted list -/
def pick (m : Nat) (sorted : List Nat) : Option Nat := sorted[min (mulTrunc sorted.length m) (sorted.length - 1)]?

/-- benchmark-types/src/lib.rs:116-121 `LatencyStats` without the average; times as integers -/
structure Stats where
  p95 : Nat
  p99 : Nat
  max : Nat
  deriving DecidableEq

/-- benchmark-runner/src/main.rs:144-169 `calculate_percentiles`; `none`: index out of range -/
def percentiles (l : List Nat) : Option Stats :=
  if l = [] then some ⟨0, 0, 0⟩
  else
    let sorted := l.mergeSort (fun a b => decide (a ≤ b))
    match pick m95 sorted, pick m99 sorted, sorted.getLast? with
    | some a, some b, some m => some ⟨a, b, m⟩
    | _, _, _ => none

end Bench
end Blobd
