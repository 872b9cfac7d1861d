import Verif.Model.JsClient
import Verif.Model.RustClient
set_option autoImplicit false
/-!
# Requests and replies on the wire

What the client libraries write into the request line, the headers and the body, what the server's extractors make of it, what
the endpoints write into the reply, and what the client libraries make of that. Dependencies by contract: `url` /
`form_urlencoded` (and `URLSearchParams`, same format), `serde_urlencoded` with derived `Deserialize` (unknown parameters are
ignored, repeated ones are an error, a missing one is an error unless it has a default), `headers`, `reqwest`, `fetch`, and
HTTP itself, which carries a request and its reply unchanged. A body arrives in one chunk (C22: cuts do not matter). Text of
parameters is ASCII here; other bytes cannot be part of a parameter name or of anything the server accepts in one.
-/
namespace Blobd
namespace Http

open MP (Bytes)
open RW (OpError)

/-! ### Query strings -/

/-- `form_urlencoded` leaves letters, digits and `*-._` alone -/
def setForm (b : Byte) : Bool :=
  let n := b.toNat
  !((48 ≤ n && n < 58) || (65 ≤ n && n < 91) || (97 ≤ n && n < 123) || n == 42 || n == 45 || n == 46 || n == 95)

/-- `form_urlencoded::byte_serialize` -/
def formEnc (l : Bytes) : Bytes :=
  l.flatMap (fun b => if b = 32 then [43] else if setForm b then [37, hexDigit (b.toNat / 16), hexDigit (b.toNat % 16)] else [b])

def formPair (p : List Char × List Char) : Bytes := formEnc (ascii p.1) ++ 61 :: formEnc (ascii p.2)

/-- `Url::query_pairs_mut` / `URLSearchParams.append`: one more pair after what the query already holds -/
def appendPair (q : Bytes) (p : List Char × List Char) : Bytes := if q = [] then formPair p else q ++ 38 :: formPair p

def appendPairs (q : Bytes) (ps : List (List Char × List Char)) : Bytes := ps.foldl appendPair q

/-- the query percent-encode set of the URL standard for http URLs -/
def setQuery (b : Byte) : Bool :=
  setControls b || b == 32 || b == 34 || b == 35 || b == 39 || b == 60 || b == 62

/-- the query of `Url::parse(endpoint ++ s)`: what stands between the first `?` and `#`; empty if there is none -/
def urlQuery (s : Bytes) : Bytes :=
  let s := (s.reverse.dropWhile (fun b => b.toNat ≤ 32)).reverse
  let s := s.takeWhile (fun b => b ≠ 35)
  pctEnc setQuery ((s.dropWhile (fun b => b ≠ 63)).drop 1)

def splitAmp : Bytes → List Bytes
  | [] => [[]]
  | c :: r =>
    if c = 38 then [] :: splitAmp r
    else
      match splitAmp r with
      | [] => [[c]]
      | x :: xs => (c :: x) :: xs

/-- `form_urlencoded::decode`: `+` is a space, then percent-decoding -/
def formDec (l : Bytes) : Bytes := pctDecode (l.map (fun b => if b = 43 then 32 else b))

/-- name and value: cut at the first `=` -/
def decodePair (s : Bytes) : Bytes × Bytes :=
  (formDec (s.takeWhile (fun b => b ≠ 61)), formDec ((s.dropWhile (fun b => b ≠ 61)).drop 1))

/-- `form_urlencoded::parse` -/
def params (q : Bytes) : List (Bytes × Bytes) := ((splitAmp q).filter (fun s => !s.isEmpty)).map decodePair

def text (b : Bytes) : List Char := b.map (fun x => Char.ofNat x.toNat)

/-- derived `Deserialize` of one field: `none` if it is given twice -/
def field (ps : List (Bytes × Bytes)) (name : List Char) : Option (Option (List Char)) :=
  match ps.filter (fun p => p.1 = ascii name) with
  | [] => some none
  | [p] => some (some (text p.2))
  | _ => none

def pT : List Char := ['t']
def pSize : List Char := ['s','i','z','e']
def pOffset : List Char := ['o','f','f','s','e','t']
def pUpload : List Char := ['u','p','l','o','a','d','_','t','o','k','e','n']
def pReceipts : List Char := ['w','r','i','t','e','_','r','e','c','e','i','p','t','s']

/-- `#[serde(default)] t: String` -/
def fieldT (ps : List (Bytes × Bytes)) : Option (List Char) := (field ps pT).map (fun x => x.getD [])

/-- `String` without default -/
def fieldStr (ps : List (Bytes × Bytes)) (name : List Char) : Option (List Char) := (field ps name).join

/-- `u64` without default -/
def fieldU64 (ps : List (Bytes × Bytes)) (name : List Char) : Option Nat := (fieldStr ps name).bind parseU64

/-! ### The server's side of a request -/

/-- a request as it arrives -/
structure Wire where
  method : Method
  path : Bytes
  query : Bytes
  /-- the `Range` header after `bytes=` -/
  range : Option (List Char)
  /-- the `Content-Length` header -/
  len : Option Nat
  body : Bytes

/-- the extractors of each endpoint: blobd/src/endpoint/batch_create_objects.rs:23-35, blobd/src/endpoint/commit_object.rs:15-27,
blobd/src/endpoint/create_object.rs:16-26, blobd/src/endpoint/delete_object.rs:14-23, blobd/src/endpoint/inspect_object.rs:17-26,
blobd/src/endpoint/read_object.rs:27-37, blobd/src/endpoint/write_object.rs:18-33. A rejection is 400. -/
def extract (w : Wire) : Except Nat Req :=
  let ps := params w.query
  let orBad : Option Req → Except Nat Req := fun x => match x with | some r => .ok r | none => .error 400
  match route w.method w.path with
  | .batch => orBad ((fieldT ps).map (fun t => .batch t w.body))
  | .commit => orBad ((fieldStr ps pUpload).bind (fun up => (fieldStr ps pReceipts).bind (fun rs => (fieldT ps).map (fun t =>
      .commit w.path up rs t))))
  | .create => orBad ((fieldU64 ps pSize).bind (fun n => (fieldT ps).map (fun t => .create w.path n t)))
  | .delete => orBad ((fieldT ps).map (fun t => .delete w.path t))
  | .inspect => orBad ((fieldT ps).map (fun t => .inspect w.path t))
  | .read => orBad ((fieldT ps).map (fun t => .read w.path w.range t))
  | .write => orBad (w.len.bind (fun len => (fieldU64 ps pOffset).bind (fun off => (fieldStr ps pUpload).bind (fun up =>
      (fieldT ps).map (fun t => .write w.path off len up t [.ok w.body])))))
  | .notAllowed => .error (if w.method = .options then 200 else 405)

/-! ### The store's answers and the server's replies -/

/-- what `read_object` returns: libblobd-direct/src/op/read_object.rs:36-42 with its stream collected -/
structure ReadOut where
  start : Nat
  stop : Nat
  id : Nat
  size : Nat
  body : Bytes

/-- the result of each store call, as the endpoints use it -/
def ResOf : Call → Type
  | .batch _ => Nat
  | .commit _ => Except OpError Unit
  | .create _ _ => Except OpError Tok
  | .delete _ => Except OpError Unit
  | .inspect _ => Except OpError (Nat × Nat)
  | .read _ _ _ => Except OpError ReadOut
  | .write _ _ _ _ => Except OpError Unit

/-- the headers that matter: `x-blobd-upload-token`, `x-blobd-write-receipt`, `content-length`, `x-blobd-object-id`,
`x-blobd-objects-created-count` -/
inductive Hdr
  | uploadToken | writeReceipt | contentLength | objectId | createdCount
  deriving DecidableEq, Repr

structure Reply where
  status : Nat
  headers : List (Hdr × List Char)
  body : Bytes

def Reply.get (r : Reply) (h : Hdr) : Option (List Char) := (r.headers.find? (fun p => p.1 = h)).map (·.2)

/-- the end of each endpoint: blobd/src/endpoint/batch_create_objects.rs:108-110, blobd/src/endpoint/commit_object.rs:52-55,
blobd/src/endpoint/create_object.rs:44-56, blobd/src/endpoint/delete_object.rs:35-38, blobd/src/endpoint/inspect_object.rs:38-49,
blobd/src/endpoint/read_object.rs:81-110, blobd/src/endpoint/write_object.rs:57-71 -/
def reply (S : Srv) (req : Req) : (c : Call) → ResOf c → Reply
  | .batch _, n => ⟨200, [(.createdCount, decStr n)], []⟩
  | .commit _, .ok _ => ⟨201, [], []⟩
  | .commit _, .error e => ⟨errStatus e, [], []⟩
  | .create _ size, .ok tok => ⟨202, [(.uploadToken, uploadToken S tok size)], []⟩
  | .create _ _, .error e => ⟨errStatus e, [], []⟩
  | .delete _, .ok _ => ⟨200, [], []⟩
  | .delete _, .error e => ⟨errStatus e, [], []⟩
  | .inspect _, .ok (id, size) => ⟨200, [(.contentLength, decStr size), (.objectId, decStr id)], []⟩
  | .inspect _, .error e => ⟨errStatus e, [], []⟩
  | .read _ _ _, .ok o => ⟨respond req (.ok ()), [(.contentLength, decStr (o.stop - o.start)), (.objectId, decStr o.id)], o.body⟩
  | .read _ _ _, .error e => ⟨errStatus e, [], []⟩
  | .write tok off _ _, .ok _ => ⟨202, [(.writeReceipt, writeReceipt S tok (off / 2 ^ S.pages.lpage))], []⟩
  | .write _ _ _ _, .error e => ⟨errStatus e, [], []⟩

/-- a request from arrival to reply -/
def answer (S : Srv) (now : Nat) (store : (c : Call) → ResOf c) (w : Wire) : Reply :=
  match extract w with
  | .error e => ⟨e, [], []⟩
  | .ok req =>
    match preflight S now req with
    | .error e => ⟨e, [], []⟩
    | .ok c => reply S req c (store c)

/-! ### The Rust client -/

/-- the path and query of the URL for a key, with the parameters of the method: blobd-client-rs/src/lib.rs:78-85 and `.query(..)`, which
appends to whatever query the URL already has -/
def rustUrl (key : Bytes) (ps : List (List Char × List Char)) : Bytes × Bytes :=
  (urlPath (clientPath key), appendPairs (urlQuery (clientPath key)) ps)

/-- blobd-client-rs/src/lib.rs:128-341: what each method sends. `sized`: the body of `write_object` has a known length (bytes or a string);
a `Body::wrap_stream` has none and is sent without `Content-Length`. -/
def rustWire (S : Srv) (now : Nat) (sized : Bool) : ClientCall → Wire
  | .batch body => ⟨.post, [47], appendPairs [] [(pT, clientToken S now .batchCreate)], none, none, body⟩
  | .commit k up rs =>
    let u := rustUrl k [(pUpload, up), (pReceipts, joinComma rs), (pT, clientToken S now (.commit k))]
    ⟨.put, u.1, u.2, none, none, []⟩
  | .create k n =>
    let u := rustUrl k [(pSize, decStr n), (pT, clientToken S now (.create k n))]
    ⟨.post, u.1, u.2, none, none, []⟩
  | .delete k =>
    let u := rustUrl k [(pT, clientToken S now (.delete k))]
    ⟨.delete, u.1, u.2, none, none, []⟩
  | .inspect k =>
    let u := rustUrl k [(pT, clientToken S now (.inspect k))]
    ⟨.head, u.1, u.2, none, none, []⟩
  | .read k a b =>
    let u := rustUrl k [(pT, clientToken S now (.read k))]
    ⟨.get, u.1, u.2, clientRange a b, none, []⟩
  | .write k up off data =>
    let u := rustUrl k [(pOffset, decStr off), (pUpload, up), (pT, clientToken S now (.write k))]
    ⟨.patch, u.1, u.2, none, if sized then some data.length else none, data⟩

/-- blobd-client-rs/src/lib.rs:97-107 `generate_presigned_url`, used with a method -/
def rustPresigned (S : Srv) (now secs : Nat) (key : Bytes) (a : Action) (m : Method) : Wire :=
  let u := rustUrl key [(pT, newToken S a (now + secs))]
  ⟨m, u.1, u.2, none, none, []⟩

/-- what a method of a client library gives its caller -/
inductive Got
  | batch (count : Nat)
  | created (upload : List Char)
  | written (receipt : List Char)
  | inspected (id size : Nat)
  | stream (body : Bytes)
  | done
  /-- an error carrying the status -/
  | refused (status : Nat)
  /-- Rust: an `unwrap` fails -/
  | panicked
  /-- JavaScript: an error that does not say what happened ("Missing ... header in response") -/
  | missing
  deriving DecidableEq

/-- `str::parse` for an unsigned type below `max` -/
def parseDigitsTo (max : Nat) : Nat → List Char → Option Nat
  | acc, [] => some acc
  | acc, c :: r =>
    match digitVal c with
    | none => none
    | some d => if acc * 10 + d < max then parseDigitsTo max (acc * 10 + d) r else none

def parseU128 : List Char → Option Nat
  | [] => none
  | c :: r => if c = '+' then (if r = [] then none else parseDigitsTo (2 ^ 128) 0 r) else parseDigitsTo (2 ^ 128) 0 (c :: r)

/-- blobd-client-rs/src/lib.rs:152-170, 184-199, 222-224, 238-240, 252-273, 303-304, 325-340: `error_for_status` (400 to 599), then the
headers -/
def rustGot (c : ClientCall) (r : Reply) : Got :=
  if 400 ≤ r.status ∧ r.status < 600 then .refused r.status
  else
    match c with
    | .batch _ => match (r.get .createdCount).bind parseU64 with | some n => .batch n | none => .panicked
    | .commit .. => .done
    | .create .. => match r.get .uploadToken with | some t => .created t | none => .panicked
    | .delete _ => .done
    | .inspect _ =>
      match (r.get .objectId).bind parseU128, (r.get .contentLength).bind parseU64 with
      | some id, some n => .inspected id n
      | _, _ => .panicked
    | .read .. => .stream r.body
    | .write .. => match r.get .writeReceipt with | some t => .written t | none => .panicked

/-- a method of the Rust client called at `sent`, its request handled at `now` -/
def rustCall (S : Srv) (sent now : Nat) (store : (c : Call) → ResOf c) (sized : Bool) (c : ClientCall) : Got :=
  rustGot c (answer S now store (rustWire S sent sized c))

/-! ### The JavaScript client -/

/-- blobd-client-js/src/main.ts:65-325: what each method sends; `sized` as above (a `ReadableStream` has no length: blobd-client-js/src/main.ts:110-115).
Sizes and offsets are safe integers. -/
def jsWire (S : Srv) (now : Nat) (sized : Bool) : ClientCall → Wire
  | .batch body => ⟨.post, [47], appendPairs [] [(pT, jsToken S .batchCreate (now + 300))], none, none, body⟩
  | .commit k up rs => ⟨.put, urlPath (jsPath k),
      appendPairs (urlQuery (jsPath k)) [(pUpload, up), (pReceipts, joinComma rs), (pT, jsToken S (.commit k) (now + 300))], none, none, []⟩
  | .create k n => ⟨.post, urlPath (jsPath k),
      appendPairs (urlQuery (jsPath k)) [(pSize, decStr n), (pT, jsToken S (.create k n) (now + 300))], none, none, []⟩
  | .delete k => ⟨.delete, urlPath (jsPath k), appendPairs (urlQuery (jsPath k)) [(pT, jsToken S (.delete k) (now + 300))], none, none, []⟩
  | .inspect k => ⟨.head, urlPath (jsPath k), appendPairs (urlQuery (jsPath k)) [(pT, jsToken S (.inspect k) (now + 300))], none, none, []⟩
  | .read k a b => ⟨.get, urlPath (jsPath k), appendPairs (urlQuery (jsPath k)) [(pT, jsToken S (.read k) (now + 300))], jsRange a b, none, []⟩
  | .write k up off data => ⟨.patch, urlPath (jsPath k),
      appendPairs (urlQuery (jsPath k)) [(pOffset, decStr off), (pUpload, up), (pT, jsToken S (.write k) (now + 300))], none,
      if sized then some data.length else none, data⟩

/-- the request each method of the JavaScript client is meant to make -/
def jsReq (S : Srv) (now : Nat) : ClientCall → Req
  | .batch body => .batch (jsToken S .batchCreate (now + 300)) body
  | .commit k up rs => .commit (urlPath (jsPath k)) up (joinComma rs) (jsToken S (.commit k) (now + 300))
  | .create k n => .create (urlPath (jsPath k)) n (jsToken S (.create k n) (now + 300))
  | .delete k => .delete (urlPath (jsPath k)) (jsToken S (.delete k) (now + 300))
  | .inspect k => .inspect (urlPath (jsPath k)) (jsToken S (.inspect k) (now + 300))
  | .read k a b => .read (urlPath (jsPath k)) (jsRange a b) (jsToken S (.read k) (now + 300))
  | .write k up off data => .write (urlPath (jsPath k)) off data.length up (jsToken S (.write k) (now + 300)) [.ok data]

/-- a natural number as a JavaScript number: exact below 2^53, then rounded to 53 bits, ties to even -/
def jsNumber (n : Nat) : Nat :=
  if n < 2 ^ 53 then n
  else
    let u := 2 ^ (n.log2 - 52)
    let q := n / u
    let r := n % u
    if 2 * r < u then q * u
    else if u < 2 * r then (q + 1) * u
    else if q % 2 = 0 then q * u else (q + 1) * u

def parseNat : Nat → List Char → Option Nat
  | acc, [] => some acc
  | acc, c :: r =>
    match digitVal c with
    | none => none
    | some d => parseNat (acc * 10 + d) r

/-- a header as `fetch` shows it. A page of another origin sees only the safelisted ones (`content-length` among them), because
`CorsLayer` (blobd/src/server.rs:43-49) exposes none. An empty value counts as missing (`if (!x)`). -/
def jsHeader (crossOrigin : Bool) (r : Reply) (h : Hdr) : Option (List Char) :=
  if crossOrigin ∧ h ≠ .contentLength then none
  else match r.get h with
    | some [] => none
    | x => x

/-- blobd-client-js/src/main.ts:81-92, 124-136, 161-165, 188-198, 217-234, 254-258, 311-327: `response.ok` (200 to 299), then the headers. `BigInt` is exact. -/
def jsGot (crossOrigin : Bool) (c : ClientCall) (r : Reply) : Got :=
  if ¬ (200 ≤ r.status ∧ r.status < 300) then .refused r.status
  else
    match c with
    | .batch _ => match (jsHeader crossOrigin r .createdCount).bind (parseNat 0) with | some n => .batch (jsNumber n) | none => .missing
    | .commit .. => .done
    | .create .. => match jsHeader crossOrigin r .uploadToken with | some t => .created t | none => .missing
    | .delete _ => .done
    | .inspect _ =>
      match (jsHeader crossOrigin r .objectId).bind (parseNat 0), (jsHeader crossOrigin r .contentLength).bind (parseNat 0) with
      | some id, some n => .inspected id (jsNumber n)
      | _, _ => .missing
    | .read .. => .stream r.body
    | .write .. => match jsHeader crossOrigin r .writeReceipt with | some t => .written t | none => .missing

def jsCall (S : Srv) (sent now : Nat) (store : (c : Call) → ResOf c) (crossOrigin sized : Bool) (c : ClientCall) : Got :=
  jsGot crossOrigin c (answer S now store (jsWire S sent sized c))

end Http
end Blobd
