import Verif.Spec.Http
import Verif.Spec.DirectUpload
import Verif.Model.DirectCluster
import Verif.Model.HttpRead
/-!
# The whole server: HTTP endpoints over the direct store

blobd/src/endpoint/{create_object,write_object,commit_object}.rs on libblobd-direct, at the granularity of the store model:
every endpoint call is interleaved with every other one, device writes are in flight for a while, the process may crash and
start again. Any number of partitions (libblobd-direct/src/lib.rs:248-329). `/` (batch creation) is left out (see C43); DELETE, HEAD and GET change
nothing here but the store, so they are store steps (`inner`) or reads of a state.
-/
set_option autoImplicit false
namespace Blobd
namespace Server

open MP (Bytes)
open Direct (SCfg DSt Step Polite Writer NoReplacing diskTuples load Meta upd Tuple CCfg callKeys)

/-- a running `PATCH` request that passed its checks: blobd/src/endpoint/write_object.rs:28-72 inside
libblobd-direct/src/op/write_object.rs:44-174 -/
structure Put where
  path : Bytes
  off : Nat
  len : Nat
  up : List Char
  t : List Char
  body : List (Except Unit Bytes)
  /-- when the request was checked -/
  now : Nat
  /-- the object found under the token (libblobd-direct/src/op/write_object.rs:45-49) -/
  o : Direct.Obj
  /-- its layout (libblobd-direct/src/op/write_object.rs:77) -/
  lay : ObjectLayout
  /-- what the request body has still to yield -/
  stream : List (Except Unit Bytes)
  /-- `buf`, `written`, `write_page_idx` (libblobd-direct/src/op/write_object.rs:101-103) -/
  buf : Bytes
  written : Nat
  idx : Nat
  /-- the block being written to the device (libblobd-direct/src/op/write_object.rs:145) -/
  busy : Option Bytes

def Put.req (p : Put) : Http.Req := .write p.path p.off p.len p.up p.t p.body

/-- libblobd-direct/src/op/write_object.rs:80-99 -/
def Put.targets (c : SCfg) (p : Put) : List (Nat × Nat) := RW.writeTargets c.pages p.lay p.o.m.rw p.off

/-- A partition of the server, and (ghost) what happened. -/
structure World where
  s : DSt
  /-- ghost: tokens handed out, objects created, writes acknowledged, commits, in all partitions (Spec/Http.lean) -/
  h : List Http.Ev
  puts : List Put
  /-- ghost: upload id, offset and body of every write that was let through -/
  sent : List (Nat × Nat × List (Except Unit Bytes))
  /-- ghost: the upload an object came from -/
  origin : Nat → Option Nat

/-- a device write that has not completed has reached the device in part: every byte is the old one or the new one -/
def Torn (s s' : DSt) : Prop := ∀ x, s'.dev x ≠ s.dev x →
  (∃ th ∈ s.threads, ∃ o t page, th.pc = .createMeta o t page ∧ t.metaOff ≤ x ∧ x < t.metaOff + page.length) ∨
  ∃ w ∈ s.writers, w.off ≤ x ∧ w.data[x - w.off]? = some (s'.dev x)

/-- a step of the store, with clients that keep to the rules of C29 and a device that tears writes only bytewise -/
structure Runs (c : SCfg) (s s' : DSt) : Prop where
  step : Step c s s'
  polite : Polite c s s'
  torn : Torn s s'

/-- effects that this model attributes to a request -/
def Tracked : Direct.Ev → Prop
  | .created .. => True
  | .claimed .. => True
  | .published .. => True
  | _ => False

/-- a step of the partition `part` of a running server -/
inductive WStep (c : SCfg) (S : Http.Srv) (part : Nat) : World → World → Prop
  /-- a holder of the secret issues an auth token -/
  | issue {w a e} : a.Valid → e < 2 ^ 64 → WStep c S part w { w with h := .issued a e :: w.h }
  /-- blobd/src/endpoint/create_object.rs:28-57: the store has created the object; the upload token goes to the client -/
  | created {w s' path t now call id m} : Http.Unforged S w.h (.create path m.size t) →
      Http.preflight S now (.create path m.size t) = .ok (.create m.key m.size) → m.size < 2 ^ 64 → id < 2 ^ 128 →
      Runs c w.s s' → s'.lin = w.s.lin ++ [(call, .created id m)] →
      WStep c S part w { w with s := s', h := .created ⟨id, part⟩ m.key m.size :: w.h }
  /-- blobd/src/endpoint/write_object.rs:35-56 and libblobd-direct/src/op/write_object.rs:44-99: the checks, the object under the token -/
  | putStart {w s' path off len up t body now id o lay} : Http.Unforged S w.h (.write path off len up t body) →
      Http.preflight S now (.write path off len up t body) = .ok (.write ⟨id, part⟩ off len body) → off < 2 ^ 64 →
      w.s.incomplete id = some o → RW.writeCheck c.pages o.m.size off len = none →
      calcObjectLayoutDirect c.pages o.m.size = some lay →
      Runs c w.s s' → s' = { w.s with handles := o :: w.s.handles } →
      WStep c S part w { w with
        s := s'
        puts := w.puts ++ [⟨path, off, len, up, t, body, now, o, lay, body, [], 0, 0, none⟩]
        sent := (id, off, body) :: w.sent }
  /-- libblobd-direct/src/op/write_object.rs:104-115: a chunk of the body. Simplified: chunks may also arrive while a full page is
buffered, and the length check of lines 117-124 may be late; this only adds executions. -/
  | putChunk {w pre p post c' rest} : w.puts = pre ++ p :: post → p.busy = none → p.stream = .ok c' :: rest →
      WStep c S part w { w with puts := pre ++ { p with stream := rest, buf := p.buf ++ c' } :: post }
  /-- libblobd-direct/src/op/write_object.rs:127-145: enough for the next page; lock, state check, device write started -/
  | putWrite {w s' pre p post amt poff} (junk : Nat → Byte) : w.puts = pre ++ p :: post → p.busy = none →
      (p.targets c)[p.idx]? = some (amt, poff) → amt ≤ p.buf.length →
      Runs c w.s s' → s' = { w.s with writers := w.s.writers ++ [⟨p.o.id, poff, RW.blockDirect c.pages junk (p.buf.take amt)⟩] } →
      WStep c S part w { w with
        s := s'
        puts := pre ++ { p with busy := some (RW.blockDirect c.pages junk (p.buf.take amt)) } :: post }
  /-- libblobd-direct/src/op/write_object.rs:145-160: the device write is done -/
  | putWritten {w s' pre p post amt poff data ws ws'} : w.puts = pre ++ p :: post → p.busy = some data →
      (p.targets c)[p.idx]? = some (amt, poff) → w.s.writers = ws ++ ⟨p.o.id, poff, data⟩ :: ws' →
      Runs c w.s s' → s' = { w.s with dev := w.s.dev.write poff data, writers := ws ++ ws' } →
      WStep c S part w { w with
        s := s'
        puts := pre ++ { p with busy := none, buf := p.buf.drop amt, written := p.written + amt, idx := p.idx + 1 } :: post }
  /-- libblobd-direct/src/op/write_object.rs:162-173 and blobd/src/endpoint/write_object.rs:58-69: all received and written; the receipt goes to the client -/
  | putAck {w pre p post} : w.puts = pre ++ p :: post → p.busy = none → p.stream = [] → p.buf = [] → p.written = p.len →
      WStep c S part w { w with puts := pre ++ post, h := .acked ⟨p.o.id, part⟩ p.off p.len :: w.h }
  /-- libblobd-direct/src/op/write_object.rs:109, 123, 134, 168 and cancellation: the request ends without a receipt: broken or too long body, the upload is gone, the connection is lost between device
  writes -/
  | putFail {w pre p post} : w.puts = pre ++ p :: post → p.busy = none → WStep c S part w { w with puts := pre ++ post }
  /-- blobd/src/endpoint/commit_object.rs:29-50 and libblobd-direct/src/op/commit_object.rs:28-35: the checks passed, the store takes the upload for committing -/
  | commit {w s' path up rc t now id key claimed call m} : Http.Unforged S w.h (.commit path up rc t) →
      Http.preflight S now (.commit path up rc t) = .ok (.commit ⟨id, part⟩) → Http.parseKey path = some key →
      Http.parseUpload S up = some (⟨id, part⟩, claimed) →
      Runs c w.s s' → s'.lin = w.s.lin ++ [(call, .claimed id m)] →
      WStep c S part w { w with s := s', h := .committed ⟨id, part⟩ key claimed :: w.h }
  /-- libblobd-direct/src/op/commit_object.rs:41-53: the object becomes visible, under a new id -/
  | publish {w s' call old new m ifne} : Runs c w.s s' → s'.lin = w.s.lin ++ [(call, .published old new m ifne)] →
      WStep c S part w { w with s := s', origin := upd w.origin new (some old) }
  /-- everything else the store does, for whatever request -/
  | inner {w s'} : Runs c w.s s' → s'.writers = w.s.writers →
      (s'.lin = w.s.lin ∨ ∃ e, s'.lin = w.s.lin ++ [e] ∧ ¬ Tracked e.2) → WStep c S part w { w with s := s' }

/-- The server with all its partitions. -/
structure Site where
  s : Nat → DSt
  h : List Http.Ev
  puts : Nat → List Put
  sent : Nat → List (Nat × Nat × List (Except Unit Bytes))
  origin : Nat → Nat → Option Nat

/-- partition `i` -/
def Site.at (x : Site) (i : Nat) : World := ⟨x.s i, x.h, x.puts i, x.sent i, x.origin i⟩

def Site.set (x : Site) (i : Nat) (w : World) : Site :=
  ⟨upd x.s i w.s, w.h, upd x.puts i w.puts, upd x.sent i w.sent, upd x.origin i w.origin⟩

/-- blobd/src/endpoint/read_object.rs:35-110, libblobd-direct/src/lib.rs:309-315 and libblobd-direct/src/op/read_object.rs:72-79: GET, answered at one moment. Simplified: the real stream reads page after page; see
`C72_read_partial` for reads at different moments. -/
def Site.get (c : CCfg) (S : Http.Srv) (x : Site) (now : Nat) (path : Bytes) (range : Option (List Char)) (t : List Char) : Option (Except Nat Http.ReadResp) :=
  match Http.preflight S now (.read path range t) with
  | .error e => some (.error e)
  | .ok (.read key _ _) =>
    match c.owner key with
    | none => none
    | some i =>
      match (x.s i).committed key with
      | none => some (.error (Http.errStatus .objectNotFound))
      | some o => Http.httpRead (c.part i).pages o.m.rw (x.s i).dev range
  | .ok _ => none

/-- the server's states: started on formatted devices (libblobd-direct/src/lib.rs:176-182) -/
inductive Serves (c : CCfg) (S : Http.Srv) : Site → Prop
  | start {s} : (∀ i, i < c.n → ∃ dev, Direct.fresh (c.part i) dev = some (s i)) →
      Serves c S ⟨s, [], fun _ => [], fun _ => [], fun _ _ => none⟩
  /-- libblobd-direct/src/lib.rs:248-329: one partition makes a step; calls with a key are at the partition that owns the key, calls with a
token at the partition the token names -/
  | step {x w'} (i : Nat) : Serves c S x → i < c.n → WStep (c.part i) S i (x.at i) w' →
      (∀ k ∈ callKeys (x.s i) w'.s, c.owner k = some i) → Serves c S (x.set i w')
  /-- a crash and a restart (libblobd-direct/src/lib.rs:189-221, objects.rs, as in the store model); running requests are gone -/
  | restart {x s'} (order : Nat → List Tuple) : Serves c S x →
      (∀ i, i < c.n → NoReplacing (x.s i) ∧ (order i).Perm (diskTuples (c.part i).n (x.s i).ts) ∧ load (c.part i) (x.s i) (order i) = some (s' i)) →
      Serves c S { x with s := s', puts := fun _ => [] }

end Server
end Blobd
