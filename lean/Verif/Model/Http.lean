import Verif.Model.MsgPack
import Verif.Model.ReadWrite
/-!
# The HTTP server: tokens, endpoints, routes

blobd-token/src/lib.rs and blobd/src/{endpoint,server.rs}. Dependencies by contract: axum extracts path,
query and headers; `data_encoding::BASE64URL_NOPAD` is the codec `B64`; `blake3::keyed_hash` with the server
secret is the function `mac`. The store below the endpoints is a `Call` and its result.
-/
namespace Blobd
namespace Http

open MP (Bytes)
open RW (OpError)

/-- a letter, a digit, `-` or `_` -/
def B64Char (c : Char) : Prop :=
  (48 ≤ c.toNat ∧ c.toNat < 58) ∨ (65 ≤ c.toNat ∧ c.toNat < 91) ∨ (97 ≤ c.toNat ∧ c.toNat < 123) ∨ c.toNat = 45 ∨ c.toNat = 95

/-- `BASE64URL_NOPAD`: decoding inverts encoding, only canonical text is accepted, and the alphabet is letters, digits, `-`
and `_`. -/
structure B64 where
  enc : Bytes → List Char
  dec : List Char → Option Bytes
  dec_enc : ∀ b, dec (enc b) = some b
  enc_dec : ∀ s b, dec s = some b → enc b = s
  alphabet : ∀ b, ∀ c ∈ enc b, B64Char c
  empty : enc [] = []

theorem B64.no_comma (e : B64) (b : Bytes) : ',' ∉ e.enc b := by
  intro h
  have := e.alphabet b _ h
  revert this
  unfold B64Char; decide

/-- blobd/src/endpoint/mod.rs:24-29 `HttpCtx` (and the part of the configuration it uses). `blobd/src/main.rs:41-80` gives the
same secret to `tokens` and `token_secret`, so there is one `mac`. -/
structure Srv where
  authEnabled : Bool
  mac : Bytes → Bytes
  mac_len : ∀ m, (mac m).length = 32
  b64 : B64
  pages : Pages

def ascii (s : List Char) : Bytes := s.map (fun c => UInt8.ofNat c.toNat)

/-- blobd-token blobd-token/src/lib.rs:46-58 `AuthTokenAction` -/
inductive Action
  | batchCreate
  | commit (key : Bytes)
  | create (key : Bytes) (size : Nat)
  | delete (key : Bytes)
  | inspect (key : Bytes)
  | read (key : Bytes)
  | write (key : Bytes)
  deriving DecidableEq, Repr

def nBatch : Bytes := ascii ['B','a','t','c','h','C','r','e','a','t','e','O','b','j','e','c','t','s']
def nCommit : Bytes := ascii ['C','o','m','m','i','t','O','b','j','e','c','t']
def nCreate : Bytes := ascii ['C','r','e','a','t','e','O','b','j','e','c','t']
def nDelete : Bytes := ascii ['D','e','l','e','t','e','O','b','j','e','c','t']
def nInspect : Bytes := ascii ['I','n','s','p','e','c','t','O','b','j','e','c','t']
def nRead : Bytes := ascii ['R','e','a','d','O','b','j','e','c','t']
def nWrite : Bytes := ascii ['W','r','i','t','e','O','b','j','e','c','t']

/-- serde derive of `AuthTokenAction` -/
def encAction : Action → Bytes
  | .batchCreate => MP.variant nBatch 0 []
  | .commit k => MP.variant nCommit 1 (MP.bytes k)
  | .create k n => MP.variant nCreate 2 (MP.bytes k ++ MP.uint n)
  | .delete k => MP.variant nDelete 1 (MP.bytes k)
  | .inspect k => MP.variant nInspect 1 (MP.bytes k)
  | .read k => MP.variant nRead 1 (MP.bytes k)
  | .write k => MP.variant nWrite 1 (MP.bytes k)

/-- blobd-token blobd-token/src/lib.rs:60-65 `AuthToken`, serialised: the message under the MAC of an auth token -/
def encAuth (a : Action) (expires : Nat) : Bytes := MP.arr 2 ++ encAction a ++ MP.uint expires

/-- libblobd-direct libblobd-direct/src/incomplete_token.rs:8-13 -/
structure Tok where
  id : Nat
  part : Nat
  deriving DecidableEq, Repr

/-- `(incomplete_token, n).serialize(..)`, blobd/src/endpoint/mod.rs:46-49 and 84-87: the message under the MAC of
an upload token (`n` the object size) and of a write receipt (`n` the part index) -/
def encPair (t : Tok) (n : Nat) : Bytes := MP.arr 2 ++ (MP.arr 2 ++ MP.u128 t.id ++ MP.uint t.part) ++ MP.uint n

/-- `rmp_serde::from_slice::<(IncompleteToken, u64)>`, blobd/src/endpoint/mod.rs:71-72 -/
def decPair (b : Bytes) : Option (Tok × Nat) :=
  match MP.getArr b with
  | some (2, b) =>
    match MP.getArr b with
    | some (2, b) =>
      match MP.getU128 b with
      | some (id, b) =>
        match MP.getUint b with
        | some (part, b) =>
          match MP.getUint b with
          | some (n, _) => some (⟨id, part⟩, n)
          | none => none
        | none => none
      | none => none
    | _ => none
  | _ => none

/-- blobd-token/src/lib.rs:67-74 `AuthToken::new` -/
def newToken (S : Srv) (a : Action) (expires : Nat) : List Char :=
  S.b64.enc (beBytes 8 expires ++ S.mac (encAuth a expires))

/-- blobd-token/src/lib.rs:33-44 `BlobdTokens::verify`: lengths, then the MAC comparison -/
def macVerify (S : Srv) (tag msg : Bytes) : Bool := tag.length == 32 && S.mac msg == tag

/-- blobd-token/src/lib.rs:76-100 `AuthToken::verify`, at time `now` -/
def verifyToken (S : Srv) (now : Nat) (token : List Char) (expected : Action) : Bool :=
  match S.b64.dec token with
  | none => false
  | some raw =>
    if raw.length ≠ 8 + 32 then false
    else
      let expires := beVal (raw.take 8)
      if ¬ macVerify S (raw.drop 8) (encAuth expected expires) then false
      else if expires ≤ now then false
      else true

/-- blobd/src/endpoint/mod.rs:36-38 -/
def verifyAuth (S : Srv) (now : Nat) (t : List Char) (expected : Action) : Bool :=
  !S.authEnabled || verifyToken S now t expected

/-- blobd/src/endpoint/mod.rs:41-54 -/
def uploadToken (S : Srv) (t : Tok) (size : Nat) : List Char :=
  S.b64.enc (S.mac (encPair t size) ++ encPair t size)

/-- blobd/src/endpoint/mod.rs:57-74 -/
def parseUpload (S : Srv) (s : List Char) : Option (Tok × Nat) :=
  match S.b64.dec s with
  | none => none
  | some raw =>
    if raw.length ≤ 32 then none
    else if raw.take 32 ≠ S.mac (raw.drop 32) then none
    else decPair (raw.drop 32)

/-- blobd/src/endpoint/mod.rs:76-88 -/
def writeReceipt (S : Srv) (t : Tok) (part : Nat) : List Char := S.b64.enc (S.mac (encPair t part))

/-- blobd/src/endpoint/mod.rs:31-33 -/
def partCount (n d : Nat) : Nat := n / d + (if n % d ≠ 0 then 1 else 0)

/-- blobd/src/endpoint/mod.rs:98-104, the loop body -/
def receiptOk (S : Srv) (receipts : List (List Char)) (t : Tok) (part : Nat) : Bool :=
  match receipts[part]? with
  | none => false
  | some r =>
    match S.b64.dec r with
    | none => false
    | some m => m.length == 32 && S.mac (encPair t part) == m

/-- blobd/src/endpoint/mod.rs:90-107 -/
def verifyReceipts (S : Srv) (receipts : List (List Char)) (t : Tok) (size : Nat) : Bool :=
  (List.range (partCount size (2 ^ S.pages.lpage))).all (fun part => receiptOk S receipts t part)

/-- `req.write_receipts.split(",")` -/
def splitComma : List Char → List (List Char)
  | [] => [[]]
  | c :: r =>
    if c = ',' then [] :: splitComma r
    else
      match splitComma r with
      | [] => [[c]]
      | x :: xs => (c :: x) :: xs

/-! ### Keys in the request path -/

def hexVal (b : Byte) : Option Nat :=
  let n := b.toNat
  if 48 ≤ n ∧ n < 58 then some (n - 48)
  else if 65 ≤ n ∧ n < 71 then some (n - 55)
  else if 97 ≤ n ∧ n < 103 then some (n - 87)
  else none

/-- `percent_encoding::percent_decode`: `%` and two hex digits, anything else as it is -/
def pctDecode : Bytes → Bytes
  | [] => []
  | [a] => [a]
  | [a, b] => [a, b]
  | a :: b :: c :: r =>
    if a = 37 then
      match hexVal b, hexVal c with
      | some x, some y => UInt8.ofNat (16 * x + y) :: pctDecode r
      | _, _ => a :: pctDecode (b :: c :: r)
    else a :: pctDecode (b :: c :: r)
  termination_by l => l.length

/-- blobd/src/endpoint/mod.rs:124-126; `none` is the panic of `strip_prefix("/").unwrap()` (axum paths start with `/`) -/
def parseKey : Bytes → Option Bytes
  | 47 :: r => some (pctDecode r)
  | _ => none

/-! ### Range header -/

/-- `std::ops::Bound<u64>` -/
inductive Bound
  | included (v : Nat) | excluded (v : Nat) | unbounded
  deriving DecidableEq, Repr

def digitVal (c : Char) : Option Nat := if '0' ≤ c ∧ c ≤ '9' then some (c.toNat - 48) else none

/-- `str::parse::<u64>` on the digits -/
def parseDigits : Nat → List Char → Option Nat
  | acc, [] => some acc
  | acc, c :: r =>
    match digitVal c with
    | none => none
    | some d => if acc * 10 + d < 2 ^ 64 then parseDigits (acc * 10 + d) r else none

def parseU64 : List Char → Option Nat
  | [] => none
  | c :: r => if c = '+' then (if r = [] then none else parseDigits 0 r) else parseDigits 0 (c :: r)

/-- `headers` 0.3 `range.rs parse_bound` -/
def parseBound (s : List Char) : Option Bound :=
  if s = [] then some .unbounded else (parseU64 s).map .included

def trimL : List Char → List Char
  | [] => []
  | c :: r => if c = ' ' ∨ c = '\t' then trimL r else c :: r

def trim (s : List Char) : List Char := (trimL (trimL s).reverse).reverse

/-- `splitn(2, '-')`: `none` when there is no dash -/
def splitDash : List Char → Option (List Char × List Char)
  | [] => none
  | c :: r => if c = '-' then some ([], r) else (splitDash r).map (fun p => (c :: p.1, p.2))

def parseSpec (s : List Char) : Option (Bound × Bound) :=
  match splitDash (trim s) with
  | none => none
  | some (a, b) =>
    match parseBound a, parseBound b with
    | some x, some y => some (x, y)
    | _, _ => none

/-- `headers` 0.3 `Range::iter` on what follows `bytes=` -/
def parseRanges (s : List Char) : List (Bound × Bound) := (splitComma s).filterMap parseSpec

/-! ### Endpoints -/

/-- A request as axum hands it to the endpoint. `t` is empty when absent (`#[serde(default)]`). -/
inductive Req
  | batch (t : List Char) (body : Bytes)
  | commit (path : Bytes) (upload receipts t : List Char)
  | create (path : Bytes) (size : Nat) (t : List Char)
  | delete (path : Bytes) (t : List Char)
  | inspect (path : Bytes) (t : List Char)
  | read (path : Bytes) (range : Option (List Char)) (t : List Char)
  | write (path : Bytes) (offset len : Nat) (upload t : List Char) (body : List (Except Unit Bytes))

/-- What the endpoint asks of the store. -/
inductive Call
  | batch (body : Bytes)
  | commit (tok : Tok)
  | create (key : Bytes) (size : Nat)
  | delete (key : Bytes)
  | inspect (key : Bytes)
  | read (key : Bytes) (start : Nat) (stop : Option Nat)
  | write (tok : Tok) (offset len : Nat) (body : List (Except Unit Bytes))

/-- blobd/src/endpoint/read_object.rs:44-67: the single range as start and exclusive end. `v + 1` is `u64` arithmetic; in a
release build it wraps (a debug build panics). -/
def rangeOf (ranges : List (Bound × Bound)) : Except Nat (Nat × Option Nat) :=
  if ranges.length > 1 then .error 416
  else
    let r := ranges.head?.getD (.unbounded, .unbounded)
    match r.1 with
    | .excluded _ => .error 416
    | .included a => .ok (a, stopOf r.2)
    | .unbounded => .ok (0, stopOf r.2)
where
  stopOf : Bound → Option Nat
    | .included v => some ((v + 1) % 2 ^ 64)
    | .excluded v => some v
    | .unbounded => none

/-- ranges of a request: `Option<TypedHeader<Range>>` -/
def reqRanges (range : Option (List Char)) : List (Bound × Bound) :=
  match range with
  | none => []
  | some s => parseRanges s

/-- Everything the endpoint does before calling the store: `error status` is an early return.
blobd/src/endpoint/batch_create_objects.rs:36-38, blobd/src/endpoint/commit_object.rs:29-42, blobd/src/endpoint/create_object.rs:28-34, blobd/src/endpoint/delete_object.rs:25-28,
blobd/src/endpoint/inspect_object.rs:28-31, blobd/src/endpoint/read_object.rs:39-67, blobd/src/endpoint/write_object.rs:35-42. A path without leading slash is the
panic of `parse_key`; shown as status 0. -/
def preflight (S : Srv) (now : Nat) : Req → Except Nat Call
  | .batch t body => if verifyAuth S now t .batchCreate then .ok (.batch body) else .error 401
  | .commit path upload receipts t =>
    match parseKey path with
    | none => .error 0
    | some key =>
      if ¬ verifyAuth S now t (.commit key) then .error 401
      else
        match parseUpload S upload with
        | none => .error 404
        | some (tok, size) =>
          if verifyReceipts S (splitComma receipts) tok size then .ok (.commit tok) else .error 412
  | .create path size t =>
    match parseKey path with
    | none => .error 0
    | some key => if verifyAuth S now t (.create key size) then .ok (.create key size) else .error 401
  | .delete path t =>
    match parseKey path with
    | none => .error 0
    | some key => if verifyAuth S now t (.delete key) then .ok (.delete key) else .error 401
  | .inspect path t =>
    match parseKey path with
    | none => .error 0
    | some key => if verifyAuth S now t (.inspect key) then .ok (.inspect key) else .error 401
  | .read path range t =>
    match parseKey path with
    | none => .error 0
    | some key =>
      if ¬ verifyAuth S now t (.read key) then .error 401
      else
        match rangeOf (reqRanges range) with
        | .error e => .error e
        | .ok (start, stop) => .ok (.read key start stop)
  | .write path offset len upload t body =>
    match parseKey path with
    | none => .error 0
    | some key =>
      if ¬ verifyAuth S now t (.write key) then .error 401
      else
        match parseUpload S upload with
        | none => .error 404
        | some (tok, _) => .ok (.write tok offset len body)

/-- blobd/src/endpoint/mod.rs:110-120 `transform_op_error` -/
def errStatus : OpError → Nat
  | .dataStreamError => 408
  | .dataStreamLengthMismatch => 416
  | .inexactWriteLength => 416
  | .objectMetadataTooLarge => 413
  | .objectNotFound => 404
  | .rangeOutOfBounds => 416
  | .unalignedWrite => 416

/-- the `match res` at the end of every endpoint: status for the result of the store call -/
def respond (req : Req) (res : Except OpError Unit) : Nat :=
  match req, res with
  | .batch .., _ => 200
  | .commit .., .ok _ => 201
  | .create .., .ok _ => 202
  | .delete .., .ok _ => 200
  | .inspect .., .ok _ => 200
  | .read _ range _, .ok _ => if (reqRanges range).isEmpty then 200 else 206
  | .write .., .ok _ => 202
  | _, .error e => errStatus e

/-- a complete request: status, and whether the store was called -/
def serve (S : Srv) (now : Nat) (req : Req) (store : Call → Except OpError Unit) : Nat :=
  match preflight S now req with
  | .error e => e
  | .ok c => respond req (store c)

/-- blobd/src/server.rs:28-49: which endpoint handles a method and path. `CorsLayer` (blobd/src/server.rs:43-49) answers every
OPTIONS request itself, with 200. -/
inductive Method
  | get | head | post | put | patch | delete | options | other
  deriving DecidableEq, Repr

inductive Endpoint
  | batch | commit | create | delete | inspect | read | write | notAllowed
  deriving DecidableEq, Repr

def route (m : Method) (path : Bytes) : Endpoint :=
  if path = [47] then (if m = .post then .batch else .notAllowed)
  else
    match m with
    | .get => .read | .head => .inspect | .post => .create | .put => .commit
    | .patch => .write | .delete => .delete | .options => .notAllowed | .other => .notAllowed

/-- what axum takes from a request: the decoded query parameters (`t`, `size`, `offset`, `upload_token`,
`write_receipts`), the `Range` and `Content-Length` headers and the body; parameters an endpoint needs and does not get
are refused by axum before the endpoint (Model/Wire) -/
structure Raw where
  path : Bytes
  t : List Char
  size : Nat
  offset : Nat
  len : Nat
  upload : List Char
  receipts : List Char
  range : Option (List Char)
  body : Bytes
  chunks : List (Except Unit Bytes)

/-- blobd/src/server.rs:28-40 and the argument lists of the endpoints: the request an endpoint gets; `none` if there is no endpoint -/
def Raw.request (m : Method) (r : Raw) : Option Req :=
  match route m r.path with
  | .batch => some (.batch r.t r.body)
  | .commit => some (.commit r.path r.upload r.receipts r.t)
  | .create => some (.create r.path r.size r.t)
  | .delete => some (.delete r.path r.t)
  | .inspect => some (.inspect r.path r.t)
  | .read => some (.read r.path r.range r.t)
  | .write => some (.write r.path r.offset r.len r.upload r.t r.chunks)
  | .notAllowed => none

/-- the store call a raw request leads to, if any -/
def Raw.call (S : Srv) (now : Nat) (m : Method) (r : Raw) : Option Call :=
  match r.request m with
  | none => none
  | some req =>
    match preflight S now req with
    | .ok c => some c
    | .error _ => none

/-- the status a raw request is answered with -/
def Raw.status (S : Srv) (now : Nat) (m : Method) (r : Raw) (store : Call → Except OpError Unit) : Nat :=
  match r.request m with
  | none => if m = .options then 200 else 405
  | some req => serve S now req store

end Http
end Blobd
