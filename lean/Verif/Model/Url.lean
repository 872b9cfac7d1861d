import Verif.Model.Http
/-!
# From the client's key to the server's key

blobd-client-rs/src/lib.rs:78-85 `build_url`, the `url` crate (WHATWG URL parsing of the path of an http
URL, by its documented contract), and blobd/src/endpoint/mod.rs:124-126 `parse_key`.
-/
namespace Blobd
namespace Http

open MP (Bytes)

/-- upper-case hex digit, as written by `percent_encoding` -/
def hexDigit (n : Nat) : Byte := if n < 10 then UInt8.ofNat (48 + n) else UInt8.ofNat (55 + n)

/-- percent-encode the bytes in a set -/
def pctEnc (set : Byte → Bool) (l : Bytes) : Bytes :=
  l.flatMap (fun b => if set b then [37, hexDigit (b.toNat / 16), hexDigit (b.toNat % 16)] else [b])

/-- `percent_encoding::CONTROLS`; `utf8_percent_encode` also encodes every non-ASCII byte -/
def setControls (b : Byte) : Bool := b.toNat < 32 || b.toNat == 127 || b.toNat ≥ 128

/-- the path percent-encode set of the URL standard: controls, space, `"#<>?` backquote `{}` -/
def setPath (b : Byte) : Bool :=
  setControls b || b == 32 || b == 34 || b == 35 || b == 60 || b == 62 || b == 63 || b == 96 || b == 123 || b == 125

/-- blobd-client-rs/src/lib.rs:78-85: `/` and every segment encoded; the separators of the key are themselves `/` -/
def clientPath (key : Bytes) : Bytes := 47 :: pctEnc setControls key

def splitSlash : Bytes → List Bytes
  | [] => [[]]
  | c :: r =>
    if c = 47 then [] :: splitSlash r
    else
      match splitSlash r with
      | [] => [[c]]
      | x :: xs => (c :: x) :: xs

def joinSlash : List Bytes → Bytes
  | [] => []
  | [x] => x
  | x :: y :: xs => x ++ 47 :: joinSlash (y :: xs)

def lower (b : Byte) : Byte := if 65 ≤ b.toNat ∧ b.toNat ≤ 90 then UInt8.ofNat (b.toNat + 32) else b

/-- single-dot segment: `.` or `%2e` -/
def isDot (s : Bytes) : Bool := s == [46] || s.map lower == [37, 50, 101]

/-- double-dot segment: `..`, `.%2e`, `%2e.`, `%2e%2e` -/
def isDotDot (s : Bytes) : Bool :=
  s == [46, 46] || s.map lower == [46, 37, 50, 101] || s.map lower == [37, 50, 101, 46] || s.map lower == [37, 50, 101, 37, 50, 101]

/-- path state of the URL parser: segments seen so far (reversed) and segments left -/
def pathSegs : List Bytes → List Bytes → List Bytes
  | acc, [] => acc.reverse
  | acc, s :: rest =>
    let e := pctEnc setPath s
    if isDotDot e then
      let acc := acc.drop 1
      pathSegs (if rest.isEmpty then [] :: acc else acc) rest
    else if isDot e then pathSegs (if rest.isEmpty then [] :: acc else acc) rest
    else pathSegs (e :: acc) rest

/-- the path of `Url::parse(endpoint ++ s)` for an http URL, `s` starting with `/`: trailing spaces are
trimmed, the path ends at `?` or `#`, backslashes are slashes, dot segments are resolved. -/
def urlPath (s : Bytes) : Bytes :=
  let s := (s.reverse.dropWhile (fun b => b.toNat ≤ 32)).reverse
  let s := s.takeWhile (fun b => b ≠ 63 ∧ b ≠ 35)
  let s := s.map (fun b => if b = 92 then 47 else b)
  47 :: joinSlash (pathSegs [] (splitSlash (s.drop 1)))

/-- the key the server uses for a request of the client for `key` -/
def serverKey (key : Bytes) : Option Bytes := parseKey (urlPath (clientPath key))

end Http
end Blobd
