import Verif.Model.Batch
import Verif.Model.HttpRead
import Verif.Model.Url
set_option autoImplicit false
/-!
# The JavaScript client: tokens, URLs, ranges and batches

blobd-client-js/src/tokens.ts and main.ts. Dependencies by contract: `@msgpack/msgpack` encodes an object as a map
from its property names, in the order they were written, a `Uint8Array` as a binary and a non-negative safe integer
in the smallest unsigned form; `keyedHash` is the MAC of the server (same secret); strings are given by their UTF-8
bytes (a key with a lone surrogate throws `URIError`).
-/
namespace Blobd
namespace Http

open MP (Bytes)

/-- `@msgpack/msgpack` on a `Uint8Array`: `bin 8`, `bin 16` or `bin 32` -/
def jsBin (b : Bytes) : Bytes :=
  if b.length < 256 then 0xc4 :: beBytes 1 b.length ++ b
  else if b.length < 65536 then 0xc5 :: beBytes 2 b.length ++ b
  else 0xc6 :: beBytes 4 b.length ++ b

def sType : Bytes := ascii ['t','y','p','e']
def sKey : Bytes := ascii ['k','e','y']
def sSize : Bytes := ascii ['s','i','z','e']
def sAction : Bytes := ascii ['a','c','t','i','o','n']
def sExpires : Bytes := ascii ['e','x','p','i','r','e','s']

/-- blobd-client-js/src/tokens.ts:5-12 `AuthTokenAction` as written in blobd-client-js/src/main.ts:71, 105, 148, 172, 205, 237, 261: a map with its type and
fields -/
def jsAction : Action → Bytes
  | .batchCreate => 0x81 :: MP.str sType ++ MP.str nBatch
  | .commit k => 0x82 :: MP.str sType ++ MP.str nCommit ++ MP.str sKey ++ jsBin k
  | .create k n => 0x83 :: MP.str sType ++ MP.str nCreate ++ MP.str sKey ++ jsBin k ++ MP.str sSize ++ MP.uint n
  | .delete k => 0x82 :: MP.str sType ++ MP.str nDelete ++ MP.str sKey ++ jsBin k
  | .inspect k => 0x82 :: MP.str sType ++ MP.str nInspect ++ MP.str sKey ++ jsBin k
  | .read k => 0x82 :: MP.str sType ++ MP.str nRead ++ MP.str sKey ++ jsBin k
  | .write k => 0x82 :: MP.str sType ++ MP.str nWrite ++ MP.str sKey ++ jsBin k

/-- blobd-client-js/src/tokens.ts:42 `{ action, expires }` and blobd-client-js/src/tokens.ts:22: the message under the MAC -/
def jsAuth (a : Action) (expires : Nat) : Bytes :=
  0x82 :: MP.str sAction ++ jsAction a ++ MP.str sExpires ++ MP.uint expires

/-- blobd-client-js/src/tokens.ts:37-56 `AuthToken.new` -/
def jsToken (S : Srv) (a : Action) (expires : Nat) : List Char :=
  S.b64.enc (beBytes 8 expires ++ S.mac (jsAuth a expires))

/-- blobd-client-js/src/tokens.ts:58-91 `AuthToken.verify`. `dec` is `base64UrlDecode` (blobd-client-js/src/tokens.ts:99-104), which accepts more than the
canonical text. `Number(..)` is exact below 2^53. -/
def jsVerify (S : Srv) (dec : List Char → Bytes) (now : Nat) (token : List Char) (expected : Action) : Bool :=
  let raw := dec token
  if raw.length ≠ 8 + 32 then false
  else
    let expires := beVal (raw.take 8)
    if ¬ macVerify S (raw.drop 8) (jsAuth expected expires) then false
    else if expires ≤ now then false
    else true

/-! ### URLs -/

/-- `encodeURIComponent` leaves letters, digits and `-_.!~*'()` alone -/
def setComponent (b : Byte) : Bool :=
  let n := b.toNat
  !((48 ≤ n && n < 58) || (65 ≤ n && n < 91) || (97 ≤ n && n < 123) ||
    n == 45 || n == 95 || n == 46 || n == 33 || n == 126 || n == 42 || n == 39 || n == 40 || n == 41)

/-- blobd-client-js/src/main.ts:39-45 `buildUrl`: the path -/
def jsPath (key : Bytes) : Bytes := 47 :: joinSlash ((splitSlash key).map (pctEnc setComponent))

/-- the key the server uses for a request of the JavaScript client for `key`: `new URL(..)` (blobd-client-js/src/main.ts:68 and others), then
`parse_key` -/
def jsServerKey (key : Bytes) : Option Bytes := parseKey (urlPath (jsPath key))

/-! ### Reading -/

/-- blobd-client-js/src/main.ts:178-181: the range header (after `bytes=`); `end - 1` is a JavaScript number, so `0 - 1` prints `-1` -/
def jsRange (start stop : Option Nat) : Option (List Char) :=
  match start with
  | none => none
  | some a => some (decStr a ++ '-' :: (match stop with
      | none => []
      | some 0 => ['-', '1']
      | some (b + 1) => decStr b))

/-! ### Batches -/

/-- blobd-client-js/src/main.ts:14-28, 270-298: one object of a batch: `setUint16` keeps the low 16 bits of the key length, the size is
the caller's `size`, then whatever data the caller supplies -/
def jsEntry (key : Bytes) (size : Nat) (data : Bytes) : Bytes := beBytes 2 key.length ++ key ++ beBytes 5 size ++ data

end Http
end Blobd
