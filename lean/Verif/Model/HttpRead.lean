import Verif.Model.Http
/-!
# Reading over HTTP: the response to a range request, and the client's request

blobd/src/endpoint/read_object.rs:33-111 (the object already found), blobd-client-rs/src/lib.rs:78-85
(`build_url`) and 276-305 (`read_object`).
-/
namespace Blobd
namespace Http

open MP (Bytes)
open RW (OpError)

/-- the response as the client sees it -/
structure ReadResp where
  status : Nat
  contentLength : Nat
  /-- `bytes first-last/size` -/
  contentRange : Nat × Nat × Nat
  body : List Byte
  deriving DecidableEq

/-- blobd/src/endpoint/read_object.rs:69-110 with `STREAM_BUFSIZE` = 8192 (line 25). Panics and endless streams of the store
are `none` (excluded by C18). The headers repeat the range check's `start` and `end`. -/
def httpRead (pages : Pages) (o : RW.Obj) (dev : Mem) (range : Option (List Char)) : Option (Except Nat ReadResp) :=
  match rangeOf (reqRanges range) with
  | .error e => some (.error e)
  | .ok (start, stop?) =>
    match RW.opReadDirect pages o dev 8192 start stop? (o.size + 1) with
    | .ret (.error e) => some (.error (errStatus e))
    | .ret (.ok chunks) =>
      let stop := stop?.getD o.size
      some (.ok { status := if (reqRanges range).isEmpty then 200 else 206,
                  contentLength := stop - start,
                  contentRange := (start, stop - 1, o.size),
                  body := chunks.flatten })
    | _ => none

/-- decimal digits (`u64::to_string`) -/
def decStr (n : Nat) : List Char :=
  if n < 10 then [Char.ofNat (48 + n)] else decStr (n / 10) ++ [Char.ofNat (48 + n % 10)]
  termination_by n
  decreasing_by omega

/-- blobd-client-rs/src/lib.rs:292-301: the range header the client sends (after `bytes=`) -/
def clientRange (start stop : Option Nat) : Option (List Char) :=
  match start with
  | none => none
  | some a => some (decStr a ++ '-' :: (match stop with | none => [] | some b => decStr b))

end Http
end Blobd
