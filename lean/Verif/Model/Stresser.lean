import Mathlib.Data.List.Basic
import Verif.Model.Bytes
/-!
# The stochastic stress tester

stochastic-stresser/src/main.rs: workers take random tasks from a shared channel; each task makes one store call, checks the
answer and sends the next task of the same object. Here any task may be taken at any time, and the store answers as it likes.
-/
set_option autoImplicit false
namespace Blobd
namespace Stress

abbrev Bytes := List UInt8

/-- what the run is configured with (stochastic-stresser/src/main.rs:70-104), the pool (stochastic-stresser/src/main.rs:106-118), and the hashes of the object number with
the four seeds (stochastic-stresser/src/main.rs:250-253) -/
structure Cfg where
  objects : Nat
  lpage : Nat
  maxObj : Nat
  keyMax : Nat
  pool : Bytes
  hKeyLen : Nat → Nat
  hKeyOff : Nat → Nat
  hDataLen : Nat → Nat
  hDataOff : Nat → Nat

/-- stochastic-stresser/src/main.rs:135-141: what every task of an object carries -/
structure Params where
  pfx : Nat
  keyLen : Nat
  keyOff : Nat
  dataLen : Nat
  dataOff : Nat
  deriving DecidableEq

/-- stochastic-stresser/src/main.rs:271-280. `none`: remainder by zero or subtraction below zero (a release build wraps in the second case). -/
def params (c : Cfg) (i : Nat) : Option Params :=
  if c.keyMax < 2 ∨ c.maxObj < 2 then none
  else
    let keyLen := c.hKeyLen i % (c.keyMax - 1) + 1
    let dataLen := c.hDataLen i % (c.maxObj - 1) + 1
    if c.pool.length ≤ keyLen ∨ c.pool.length ≤ dataLen then none
    else some ⟨i, keyLen, c.hKeyOff i % (c.pool.length - keyLen), dataLen, c.hDataOff i % (c.pool.length - dataLen)⟩

/-- stochastic-stresser/src/main.rs:120-124 `Pool::get`; the slice is in range for all uses below -/
def poolGet (c : Cfg) (off len : Nat) : Bytes := (c.pool.drop off).take len

/-- stochastic-stresser/src/main.rs:126-130 `get_then_prefix` -/
def key (c : Cfg) (p : Params) : Bytes := leBytes 8 p.pfx ++ poolGet c p.keyOff p.keyLen

/-- store/src/lib.rs:33-96: the calls of the `Store` interface. Tokens and object ids are opaque (numbers here). -/
inductive Call
  | create (key : Bytes) (size : Nat)
  | write (key : Bytes) (tok off : Nat) (data : Bytes)
  | commit (key : Bytes) (tok : Nat)
  | inspect (key : Bytes) (id : Option Nat)
  | read (key : Bytes) (id : Option Nat) (start stop : Nat)
  | delete (key : Bytes) (id : Option Nat)
  deriving DecidableEq

def Call.key : Call → Bytes
  | .create k _ | .write k _ _ _ | .commit k _ | .inspect k _ | .read k _ _ _ | .delete k _ => k

/-- their answers -/
inductive Ans
  | created (tok : Nat)
  | written
  | committed (id : Option Nat)
  | inspected (id : Option Nat) (size : Nat)
  | read (chunks : List Bytes)
  | deleted
  deriving DecidableEq

/-- stochastic-stresser/src/main.rs:133-182 -/
inductive Task
  | create (p : Params)
  | write (p : Params) (tok off : Nat)
  | commit (p : Params) (tok : Nat)
  | inspect (p : Params) (id : Option Nat)
  | read (p : Params) (off : Nat) (id : Option Nat)
  | delete (p : Params) (id : Option Nat)
  deriving DecidableEq

def Task.p : Task → Params
  | .create p | .write p _ _ | .commit p _ | .inspect p _ | .read p _ _ | .delete p _ => p

/-- stochastic-stresser/src/main.rs:378-383 -/
def chunkLen (c : Cfg) (p : Params) (off : Nat) : Nat :=
  if off + c.lpage ≤ p.dataLen then c.lpage else p.dataLen - off

/-- the store call of a task; `stop` is the random end of a read (stochastic-stresser/src/main.rs:350-355, 384-391, 424-430, 451-456, 483-491, 530-535) -/
def Task.call (c : Cfg) (stop : Nat) : Task → Call
  | .create p => .create (key c p) p.dataLen
  | .write p tok off => .write (key c p) tok off (poolGet c (p.dataOff + off) (chunkLen c p off))
  | .commit p tok => .commit (key c p) tok
  | .inspect p id => .inspect (key c p) id
  | .read p off id => .read (key c p) id off stop
  | .delete p id => .delete (key c p) id

/-- stochastic-stresser/src/main.rs:482 `gen_range(chunk_offset + 1..=data_len)` -/
def Task.stopOk (stop : Nat) : Task → Prop
  | .read p off _ => off + 1 ≤ stop ∧ stop ≤ p.dataLen
  | _ => True

/-- stochastic-stresser/src/main.rs:492-499: the loop over the chunks of a read; `none`: an assertion failed -/
def checkChunks (c : Cfg) (p : Params) (stop : Nat) : Nat → List Bytes → Option Nat
  | off, [] => if off = stop then some off else none
  | off, ch :: r =>
    if ch = poolGet c (p.dataOff + off) ch.length ∧ off + ch.length ≤ stop then checkChunks c p stop (off + ch.length) r else none

/-- what a worker does after an answer: send the next task, count a finished object, or panic (stochastic-stresser/src/main.rs:343-540) -/
inductive Next
  | send (t : Task)
  | done
  | panic

/-- what happens with the answer (stochastic-stresser/src/main.rs:357-367, 392-414, 432-441, 458-470, 492-522, 536-538) -/
def Task.next (c : Cfg) (stop : Nat) : Task → Ans → Next
  | .create p, .created tok => .send (.write p tok 0)
  | .write p tok off, .written => .send (if off + c.lpage < p.dataLen then .write p tok (off + c.lpage) else .commit p tok)
  | .commit p _, .committed id => .send (.inspect p id)
  | .inspect p id, .inspected id' size => if id' = id ∧ size = p.dataLen then .send (.read p 0 id) else .panic
  | .read p off id, .read chunks =>
    match checkChunks c p stop off chunks with
    | none => .panic
    | some off' => .send (if stop < p.dataLen then .read p off' id else .delete p id)
  | .delete _ _, .deleted => .done
  | _, _ => .panic

/-- a worker (stochastic-stresser/src/main.rs:328-542) -/
inductive W
  | idle
  | busy (t : Task) (stop : Nat)
  /-- its task panicked: a failed assertion, or the store panicked -/
  | dead (t : Task)
  | exited
  deriving DecidableEq

/-- the tester: task channel, workers, counters (stochastic-stresser/src/main.rs:256-330) -/
structure St where
  queue : List Task
  workers : List W
  /-- `completed_by_type.delete` -/
  deletes : Nat
  /-- `complete` -/
  complete : Bool
  /-- ghost: the calls that were answered, oldest first -/
  log : List (Call × Ans)

/-- what a step is, towards the store -/
inductive Lbl
  | quiet
  | answered (call : Call) (ans : Ans)
  | storePanic

/-- stochastic-stresser/src/main.rs:329-340, 536-541 -/
inductive Step (c : Cfg) : St → Lbl → St → Prop
  | take {s a b pre t post} (stop : Nat) : s.workers = a ++ .idle :: b → s.queue = pre ++ t :: post → t.stopOk stop →
      Step c s .quiet { s with workers := a ++ .busy t stop :: b, queue := pre ++ post }
  | exit {s a b} : s.workers = a ++ .idle :: b → s.complete = true → Step c s .quiet { s with workers := a ++ .exited :: b }
  | send {s a t stop b t' ans} : s.workers = a ++ .busy t stop :: b → t.next c stop ans = .send t' →
      Step c s (.answered (t.call c stop) ans)
        { s with workers := a ++ .idle :: b, queue := s.queue ++ [t'], log := s.log ++ [(t.call c stop, ans)] }
  | done {s a t stop b ans} : s.workers = a ++ .busy t stop :: b → t.next c stop ans = .done →
      Step c s (.answered (t.call c stop) ans)
        { s with
          workers := a ++ .idle :: b
          deletes := s.deletes + 1
          complete := s.complete || decide (s.deletes + 1 = c.objects)
          log := s.log ++ [(t.call c stop, ans)] }
  /-- an assertion fails -/
  | fail {s a t stop b ans} : s.workers = a ++ .busy t stop :: b → t.next c stop ans = .panic →
      Step c s (.answered (t.call c stop) ans) { s with workers := a ++ .dead t :: b, log := s.log ++ [(t.call c stop, ans)] }
  /-- the store panics inside the call -/
  | crash {s a t stop b} : s.workers = a ++ .busy t stop :: b → Step c s .storePanic { s with workers := a ++ .dead t :: b }

/-- stochastic-stresser/src/main.rs:270-296: the first tasks; `none`: a panic -/
def tasks (c : Cfg) : Option (List Task) := (List.range c.objects).mapM (fun i => (params c i).map Task.create)

/-- the runs of the tester with `n` workers (stochastic-stresser/src/main.rs:256-548) -/
inductive Reach (c : Cfg) : St → Prop
  | start {q} (n : Nat) : tasks c = some q → Reach c ⟨q, List.replicate n .idle, 0, false, []⟩
  | step {s l s'} : Reach c s → Step c s l s' → Reach c s'

/-- stochastic-stresser/src/main.rs:546-565: all workers have been awaited without a panic; "all done" is printed -/
def AllDone (s : St) : Prop := ∀ w ∈ s.workers, w = .exited

end Stress
end Blobd
