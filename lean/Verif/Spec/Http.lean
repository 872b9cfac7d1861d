import Verif.Model.Http
/-!
# Specification vocabulary for the HTTP server

* a history of what was issued, created, acknowledged and committed;
* the idealised MAC: a MAC that verifies was handed out before for that very message
  (existential unforgeability, as an assumption on each request);
* executions of the server against arbitrary clients.
-/
namespace Blobd
namespace Http

open MP (Bytes)

/-- What happened, as seen from outside. -/
inductive Ev
  /-- a holder of the secret issued an auth token for an action -/
  | issued (a : Action) (expires : Nat)
  /-- the server created an object and returned an upload token -/
  | created (tok : Tok) (key : Bytes) (size : Nat)
  /-- the server acknowledged a write and returned a write receipt -/
  | acked (tok : Tok) (offset len : Nat)
  /-- the server committed the upload `tok` for a request naming `key`; `claimed` is the object size in
  the upload token of the request -/
  | committed (tok : Tok) (key : Bytes) (claimed : Nat)
  deriving DecidableEq, Repr

/-- the message whose MAC the event made public -/
def Ev.message (pages : Pages) : Ev → Option Bytes
  | .issued a e => some (encAuth a e)
  | .created t _ size => some (encPair t size)
  | .acked t offset _ => some (encPair t (offset / 2 ^ pages.lpage))
  | .committed .. => none

def released (pages : Pages) (h : List Ev) (m : Bytes) : Prop := ∃ e ∈ h, e.message pages = some m

/-- the action a request performs: what its auth token must be for -/
def required : Req → Option Action
  | .batch .. => some .batchCreate
  | .commit path _ _ _ => (parseKey path).map .commit
  | .create path size _ => (parseKey path).map (fun k => .create k size)
  | .delete path _ => (parseKey path).map .delete
  | .inspect path _ => (parseKey path).map .inspect
  | .read path _ _ => (parseKey path).map .read
  | .write path _ _ _ _ _ => (parseKey path).map .write

def Req.token : Req → List Char
  | .batch t _ | .commit _ _ _ t | .create _ _ t | .delete _ t | .inspect _ t | .read _ _ t | .write _ _ _ _ t _ => t

/-- **Idealised MAC.** Whenever text in the request carries a valid MAC for the message the server
compares it with, that MAC had been made public for that message. -/
structure Unforged (S : Srv) (h : List Ev) (req : Req) : Prop where
  auth : ∀ a raw, required req = some a → S.b64.dec req.token = some raw →
    S.mac (encAuth a (beVal (raw.take 8))) = raw.drop 8 → released S.pages h (encAuth a (beVal (raw.take 8)))
  upload : ∀ path up rc t raw off len body,
    (req = .commit path up rc t ∨ req = .write path off len up t body) → S.b64.dec up = some raw →
    S.mac (raw.drop 32) = raw.take 32 → released S.pages h (raw.drop 32)
  receipts : ∀ path up rc t tok claimed part r m, req = .commit path up rc t →
    parseUpload S up = some (tok, claimed) → (splitComma rc)[part]? = some r → S.b64.dec r = some m →
    S.mac (encPair tok part) = m → released S.pages h (encPair tok part)

/-- values that fit their Rust types -/
def Action.Valid : Action → Prop
  | .batchCreate => True
  | .commit k | .delete k | .inspect k | .read k | .write k => k.length < 2 ^ 32
  | .create k n => k.length < 2 ^ 32 ∧ n < 2 ^ 64

def Tok.Valid (t : Tok) : Prop := t.id < 2 ^ 128 ∧ t.part < 2 ^ 64

/-- Executions: any client sends any requests in any order, the store answers as it likes, except that it
hands out a new token for every created object and acknowledges a write only if its range check passes
(C21). Newest event first. -/
inductive Exec (S : Srv) : List Ev → Prop
  | nil : Exec S []
  | issue {h a e} : Exec S h → a.Valid → e < 2 ^ 64 → Exec S (.issued a e :: h)
  | create {h path size t now key tok} : Exec S h → Unforged S h (.create path size t) →
      preflight S now (.create path size t) = .ok (.create key size) → size < 2 ^ 64 → tok.Valid →
      (∀ k s, .created tok k s ∉ h) → Exec S (.created tok key size :: h)
  | write {h path off len up t body now tok key size} : Exec S h → Unforged S h (.write path off len up t body) →
      preflight S now (.write path off len up t body) = .ok (.write tok off len body) → .created tok key size ∈ h →
      off < 2 ^ 64 → RW.writeCheck S.pages size off len = none → Exec S (.acked tok off len :: h)
  | commit {h path up rc t now tok key key' size claimed} : Exec S h → Unforged S h (.commit path up rc t) →
      preflight S now (.commit path up rc t) = .ok (.commit tok) → .created tok key' size ∈ h →
      parseKey path = some key → parseUpload S up = some (tok, claimed) →
      Exec S (.committed tok key claimed :: h)

/-- every part of an object of `size` bytes was acknowledged -/
def AllPartsAcked (S : Srv) (h : List Ev) (tok : Tok) (size : Nat) : Prop :=
  ∀ off, off % 2 ^ S.pages.lpage = 0 → off < size → .acked tok off (min (2 ^ S.pages.lpage) (size - off)) ∈ h

end Http
end Blobd
