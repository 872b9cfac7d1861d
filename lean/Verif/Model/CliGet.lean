import Verif.Model.Server
import Verif.Model.Wire
/-!
# `blobc get`

blobc/src/get.rs over the client library and the server. By contract: HTTP delivers the body in chunks cut anywhere and, when the connection
breaks before `Content-Length` bytes, ends them with an error; `write_all` on a tokio `Stdout` returns when the bytes are handed to
the blocking thread pool; tasks of the pool run on different threads, in no order, each writing its bytes in one piece; when `main` ends, tasks that
have not started are dropped (nothing flushes).
-/
set_option autoImplicit false
namespace Blobd
namespace Cli

open MP (Bytes)
open Http Server
open Direct (CCfg)

/-- blobc/src/get.rs:8-12 and blobd-client-rs/src/lib.rs:276-305: the request and the server's answer. blobc/src/main.rs:41-47: `start` is a number (0 by
default), `end` optional. Read as `Some(start)`: the source passes a `u64` where the client takes `Option<u64>`, which rustc refuses. -/
def getAnswer (c : CCfg) (S : Srv) (x : Site) (sent now : Nat) (key : Bytes) (start : Nat) (stop : Option Nat) : Option (Except Nat ReadResp) :=
  match extract (rustWire S sent true (.read key (some start) stop)) with
  | .error e => some (.error e)
  | .ok (.read path range t) => x.get c S now path range t
  | .ok _ => none

/-- the items of the response's stream (contract of `bytes_stream`, blobd-client-rs/src/lib.rs:304) -/
inductive Delivers (body : Bytes) : List (Except Unit Bytes) → Prop
  | all {cs : List Bytes} : cs.flatten = body → Delivers body (cs.map .ok)
  | broken {cs : List Bytes} {rest : Bytes} : cs.flatten ++ rest = body → Delivers body (cs.map .ok ++ [.error ()])

/-- the program while it copies the stream to standard output -/
structure Copy where
  /-- items of the stream still to come -/
  rest : List (Except Unit Bytes)
  /-- chunks handed to the thread pool and not yet written -/
  pend : List Bytes
  /-- what standard output has received -/
  out : Bytes
  /-- how `main` ended: `true` is status 0 -/
  exit : Option Bool
  deriving DecidableEq

/-- what happens next -/
inductive Act
  | hand | broke | finish | write | drop
  deriving DecidableEq

/-- blobc/src/get.rs:13-16. `stdout()` makes a new handle for every chunk, so a chunk does not wait for the one before it. Simplified: a
chunk of more than 2 MiB is handed over in pieces, here chunks of their own. -/
inductive CopyStep : Copy → Act → Copy → Prop
  /-- blobc/src/get.rs:13, 15: the next chunk is handed over -/
  | hand {c r p o} : CopyStep ⟨.ok c :: r, p, o, none⟩ .hand ⟨r, p ++ [c], o, none⟩
  /-- blobc/src/get.rs:14: the stream broke: `expect` panics -/
  | broke {r p o} : CopyStep ⟨.error () :: r, p, o, none⟩ .broke ⟨r, p, o, some false⟩
  /-- blobc/src/get.rs:13, 17: the end of the stream, `main` returns -/
  | finish {p o} : CopyStep ⟨[], p, o, none⟩ .finish ⟨[], p, o, some true⟩
  /-- a pool thread writes a chunk -/
  | write {r a c b o e} : CopyStep ⟨r, a ++ c :: b, o, e⟩ .write ⟨r, a ++ b, o ++ c, e⟩
  /-- the runtime is dropped: a task that has not started never will -/
  | drop {r a c b o e} : CopyStep ⟨r, a ++ c :: b, o, some e⟩ .drop ⟨r, a ++ b, o, some e⟩

/-- a run with a schedule -/
inductive Copies (may : Copy → Act → Prop) : Copy → Copy → Prop
  | refl {a} : Copies may a a
  | tail {a b l d} : Copies may a b → CopyStep b l d → may b l → Copies may a d

/-- any schedule -/
def anyHow : Copy → Act → Prop := fun _ _ => True

/-- the thread pool happens to write every chunk before the next one is handed over, and drops none -/
def inTurn : Copy → Act → Prop
  | s, .hand => s.pend = []
  | _, .drop => False
  | _, _ => True

/-- a run of `blobc get` given the server's answer: what standard output got, and the exit status (blobc/src/get.rs:12 `expect` for answers
that are not a success: blobd-client-rs/src/lib.rs:303) -/
inductive Gets (may : Copy → Act → Prop) : Except Nat ReadResp → Bytes → Bool → Prop
  | refused {e} : Gets may (.error e) [] false
  | copied {r items rest out ok} : Delivers r.body items → Copies may ⟨items, [], [], none⟩ ⟨rest, [], out, some ok⟩ → Gets may (.ok r) out ok

end Cli
end Blobd
